import Verif.System.WorldFacts
import Verif.Props.Whole2
import Verif.Codec.ValEq
import Verif.Props.System2
import Verif.Props.System1

/-!
# C120: remote calls with the callees of the features
-/

namespace Verif.Props

open Verif Verif.Codec Verif.Proto Verif.Dock Verif.System

section
variable {C : Nat → List Carried} {T : Nat → Nat → Chan.Target} {H R : Nat → Str} {black : List Int}

/-- The executions of a dock are for requests that it has received. -/
theorem exec_received {cs : List Carried} {s : Dock.State} (I : HistInv cs s) {k : Nat} (hk : k < s.nx) :
    Ev.recv (s.exec k).peer (.rpcRequest (s.exec k).index (s.exec k).call.slot (s.exec k).call.meth (s.exec k).call.args
      (s.exec k).call.withResult) ∈ s.log := by
  have h : (s.exec k).key ∈ s.log.filterMap (askedOf cs) := by
    rw [I.asked]
    exact List.mem_map.mpr ⟨k, List.mem_range.mpr hk, rfl⟩
  obtain ⟨a, ha, hg⟩ := List.mem_filterMap.mp h
  unfold askedOf at hg
  split at hg
  · obtain ⟨g, hg1, hg2⟩ := Option.map_eq_some_iff.mp hg
    unfold Exec.key at hg2
    simp only [Prod.mk.injEq] at hg2
    obtain ⟨h1, h2, -, h4⟩ := hg2
    rw [← h1, ← h2, ← h4]
    exact ha
  · cases hg

/-- A request that is executed was sent for a call. -/
theorem exec_call {S : System.State} (I : System.Inv C H R black S) {d' k : Nat} (hk : k < (S.dock d').nx) :
    S.owner ((S.dock d').exec k).peer = some (.dock d') ∧
    ∃ d j, S.owner (other ((S.dock d').exec k).peer) = some (.dock d) ∧ j < (S.dock d).n ∧
      (S.dock d).index j = ((S.dock d').exec k).index ∧
      ((S.dock d).call j).slot = ((S.dock d').exec k).call.slot ∧ ((S.dock d).call j).meth = ((S.dock d').exec k).call.meth ∧
      fate ((S.dock d).request j) = .arrives (.rpcRequest ((S.dock d').exec k).index ((S.dock d').exec k).call.slot
        ((S.dock d').exec k).call.meth ((S.dock d').exec k).call.args ((S.dock d').exec k).call.withResult) ∧
      ∃ f, LastNamed (C d') ((S.dock d').exec k).call.slot f ∧ f.discoverable = true := by
  have h1 := exec_received (dock_inv I d').2.2.2 hk
  obtain ⟨ho, d, args, wr, ho', h2, h3⟩ := request_sent I h1
  refine ⟨ho, ?_⟩
  have hR := (dock_inv I d).2.2.1
  obtain ⟨ids, hn, hm, he⟩ := hR.sent
  have h4 : _ ∈ (S.dock d).log.filterMap requestOf := List.mem_filterMap.mpr ⟨_, h2, rfl⟩
  rw [he] at h4
  obtain ⟨j, hj, hreq⟩ := List.mem_map.mp h4
  have hreq' := hreq
  unfold Dock.State.request at hreq
  simp only [Proto.rpcRequest.injEq] at hreq
  obtain ⟨e1, e2, e3, e4, e5⟩ := hreq
  exact ⟨d, j, ho', hR.lt ((hm j).mp hj).1, e1, e2, e3, by rw [hreq']; exact h3, request_discoverable I h1⟩

/-- Where the result of a remote call comes from. -/
theorem result_from {as : List World.Act} {S : World.State}
    (h : run (World.State.step C T H R black) (World.State.init T) as = some S) {d i : Nat} {r : Ret}
    (hr : (S.sys.dock d).phase i = .received r ∨ (S.sys.dock d).phase i = .returned r) :
    ∃ d' k o, k < (S.sys.dock d').nx ∧ S.sys.owner (other ((S.sys.dock d').exec k).peer) = some (.dock d) ∧
      ((S.sys.dock d').exec k).index = (S.sys.dock d).index i ∧ (S.rest d').outcome k = some o ∧
      fate (.rpcResponse ((S.sys.dock d').exec k).index ((S.sys.dock d').exec k).call.slot ((S.sys.dock d').exec k).call.meth
          (if ((S.sys.dock d').exec k).call.withResult then o.result else []) o.err) =
        .arrives (.rpcResponse ((S.sys.dock d').exec k).index ((S.sys.dock d').exec k).call.slot
          ((S.sys.dock d').exec k).call.meth r.result r.err) := by
  obtain ⟨bs, hb⟩ := World.sys_reach h
  have I := System.inv_run C H R black hb
  obtain ⟨ds, hds⟩ := I.parts.dock d
  obtain ⟨p, slot, meth, h1⟩ := C56_own_response (C d) ds _ hds i r hr
  obtain ⟨ho, d', res, err, ho', h2, h3⟩ := response_sent I h1
  obtain ⟨ws, hw⟩ := (World.inv_run h).whole d'
  have W := Whole.inv_run (C d') (T d') ws _ hw
  have h4 : (other p, (S.sys.dock d).index i, slot, meth, res, err) ∈ (S.at d').dock.log.filterMap Whole.answerOf :=
    List.mem_filterMap.mpr ⟨_, h2, rfl⟩
  rw [W.sent] at h4
  obtain ⟨k, hk, e⟩ := List.mem_map.mp h4
  have hlt : k < (S.sys.dock d').nx := Nat.lt_of_not_le fun hge => (W.fresh k hge).2.2 hk
  cases hout : (S.rest d').outcome k with
  | none => exact absurd hout (W.known k hk)
  | some o =>
    have e0 : (S.at d').outcome k = some o := hout
    rw [e0] at e
    simp only [Whole.answerTo, Option.getD_some, Prod.mk.injEq] at e
    obtain ⟨e1, e2, e3, e4, e5, e6⟩ := e
    have e1' : ((S.sys.dock d').exec k).peer = other p := e1
    refine ⟨d', k, o, hlt, ?_, e2, hout, ?_⟩
    · rw [e1', other_other]; exact ho
    · have e2' : ((S.sys.dock d').exec k).index = (S.sys.dock d).index i := e2
      have e3' : ((S.sys.dock d').exec k).call.slot = slot := e3
      have e4' : ((S.sys.dock d').exec k).call.meth = meth := e4
      have e5' : (if ((S.sys.dock d').exec k).call.withResult then o.result else []) = res := e5
      have e6' : o.err = err := e6
      rw [e2', e3', e4', e5', e6']
      exact h3

end

/-- The result `r` of call `i` of dock `d` is that of request `q` of package chancall at dock `d'`: its callee is that of the
last slot of the feature's name there, which is discoverable; method and arguments are those of the call, as they arrive over
the wire; and either there is no error, and the result is what the method returned (nothing if the call is without result), or
the error says that the call timed out, there is no result, and the timeout has elapsed since the method was started. -/
def Obtained (C : Nat → List Carried) (S : World.State) (d i : Nat) (r : Ret) (d' q : Nat) : Prop :=
  let c := (S.sys.dock d).call i
  let s := (S.rest d').chan
  q < s.n ∧ LastAt (C d') c.slot (s.req q).callee ∧ (∃ f, (C d')[(s.req q).callee]? = some f ∧ f.discoverable = true) ∧
  (s.req q).meth = c.meth ∧ (s.req q).args = canonList c.args ∧
  ((r.err = [] ∧ ∃ v, s.ret q = some v ∧ r.result = if c.withResult then canonList (v.getD []) else []) ∨
    (r.err = 91#8 :: (c.meth ++ Whole.cTimedOut) ∧ r.result = [] ∧
      ∃ t0 b t, s.startedAt q = some (t0, b) ∧ (q, .timeout, t) ∈ s.answers ∧ t0 + Chan.sleepTime b ≤ t))

/-- Call `i` of dock `d` has a result. -/
def HasResult (S : World.State) (d i : Nat) : Prop :=
  i < (S.sys.dock d).n ∧ ∃ r, (S.sys.dock d).phase i = .received r ∨ (S.sys.dock d).phase i = .returned r

/-- A call with a result, made at a time no other call of the dock has used as index, has obtained it; in terms of what
survives the wire, only the arguments and the possible results of this call matter. -/
theorem call_obtained {C : Nat → List Carried} {T : Nat → Nat → Chan.Target} {H R : Nat → Str} {black : List Int}
    {as : List World.Act} {S : World.State} (h : run (World.State.step C T H R black) (World.State.init T) as = some S)
    {d i : Nat} {r : Ret} (hi : i < (S.sys.dock d).n)
    (hr : (S.sys.dock d).phase i = .received r ∨ (S.sys.dock d).phase i = .returned r)
    (hd : ∀ j, j < (S.sys.dock d).n → (S.sys.dock d).index j = (S.sys.dock d).index i → j = i)
    (hw : wireOKList ((S.sys.dock d).call i).args = true)
    (hw' : ∀ d' q v, (S.rest d').chan.ret q = some (some v) →
      ((S.rest d').chan.req q).meth = ((S.sys.dock d).call i).meth →
      ((S.rest d').chan.req q).args = canonList ((S.sys.dock d).call i).args →
      LastAt (C d') ((S.sys.dock d).call i).slot ((S.rest d').chan.req q).callee →
      ((S.sys.dock d).call i).withResult = true → wireOKList v = true) :
    ∃ d' q k, (S.rest d').served k = some q ∧ S.sys.owner (other ((S.sys.dock d').exec k).peer) = some (.dock d) ∧
      ((S.sys.dock d').exec k).index = (S.sys.dock d).index i ∧ Obtained C S d i r d' q := by
  obtain ⟨bs, hb⟩ := World.sys_reach h
  have I := System.inv_run C H R black hb
  obtain ⟨d', k, o, h1, h2, h3, h4, h5⟩ := result_from h hr
  obtain ⟨g0, d2, j, g1, g2, g3, g4, g5, g6, f, g7, g8⟩ := exec_call I h1
  rw [h2] at g1
  cases g1
  have := hd j g2 (g3.trans h3)
  subst this
  obtain ⟨ws, hws⟩ := (World.inv_run h).whole d'
  have W := Whole.inv_run (C d') (T d') ws _ hws
  obtain ⟨-, us, hu, un⟩ := Whole.chan_run _ _ ws _ hws
  have A := allInv_run _ un hu
  have h10 := fate_sendable (pkt := (S.sys.dock d).request j) g6 hw
  simp only [Proto.received, Dock.State.request, Proto.rpcRequest.injEq] at h10
  obtain ⟨-, -, -, e4, e5⟩ := h10
  obtain ⟨q, q', a, w1, w2, w3⟩ := W.outcome k o h4
  obtain ⟨v1, v2, v3, v4, -⟩ := W.served k q w1
  have hq := A.own.own q q' a w2
  subst hq
  rename' q' => q
  obtain ⟨t, ht⟩ := A.recd.result _ _ _ w2
  have v3' : ((S.rest d').chan.req q).meth = ((S.sys.dock d').exec k).call.meth := v3
  have v4' : ((S.rest d').chan.req q).args = ((S.sys.dock d').exec k).call.args := v4
  have v2' : Whole.calleeOf (C d') ((S.sys.dock d').exec k).call.slot = some ((S.rest d').chan.req q).callee := v2
  have w3' : o = Whole.retOf ((S.sys.dock d').exec k).call.meth a := w3
  refine ⟨d', q, k, w1, h2, h3, v1, ?_, ?_, ?_, ?_, ?_⟩
  · rw [g4]; exact calleeOf_last v2
  · obtain ⟨f', l1, l2⟩ := Whole.calleeOf_some v2'
    rw [(slotsOf_some _ _ _).mpr g7] at l1
    cases l1
    exact ⟨f, l2, g8⟩
  · rw [g5]; exact v3'
  · rw [v4', e4]
  · cases a with
    | ok v =>
      have hret : (S.rest d').chan.ret q = some v := A.recd.retOK _ _ _ ht
      have hs : wireOKList (if ((S.sys.dock d').exec k).call.withResult then o.result else []) = true := by
        split
        · rw [w3']
          cases v with
          | none => rfl
          | some v => exact hw' _ _ _ hret (v3'.trans g5.symm) (by rw [v4', e4]) (by rw [g4]; exact calleeOf_last v2) (by rw [← e5]; assumption)
        · rfl
      have h11 := fate_sendable h5 hs
      simp only [Proto.received, Proto.rpcResponse.injEq, true_and] at h11
      refine Or.inl ⟨by rw [h11.2, w3']; rfl, v, hret, ?_⟩
      rw [h11.1, w3', e5]
      split <;> rfl
    | timeout =>
      have hs : wireOKList (if ((S.sys.dock d').exec k).call.withResult then o.result else []) = true := by
        rw [w3']; simp [Whole.retOf, wireOKList]
      have h11 := fate_sendable h5 hs
      simp only [Proto.received, Proto.rpcResponse.injEq, true_and] at h11
      obtain ⟨t0, b, k1, k2⟩ := A.recd.late _ _ ht
      refine Or.inr ⟨by rw [h11.2, w3', g5]; rfl, ?_, t0, b, t, k1, ht, k2⟩
      rw [h11.1, w3']
      simp [Whole.retOf, canonList]

/-- **C120.**  In every reachable state of a system in which the clocks of the docks never return the same reading twice and
all arguments and results are values that survive the wire: the remote calls that have a result can be matched with calls
executed by callees of the docks, different ones with different ones, such that the result of each is that of the method. -/
theorem C120_results (C : Nat → List Carried) (T : Nat → Nat → Chan.Target) (H R : Nat → Str) (black : List Int)
    (as : List World.Act) (S : World.State) (h : run (World.State.step C T H R black) (World.State.init T) as = some S)
    (hd : ∀ d i j, i < (S.sys.dock d).n → j < (S.sys.dock d).n → (S.sys.dock d).index i = (S.sys.dock d).index j → i = j)
    (hw : ∀ d i, i < (S.sys.dock d).n → wireOKList ((S.sys.dock d).call i).args = true)
    (hw' : ∀ d q v, (S.rest d).chan.ret q = some (some v) → wireOKList v = true) :
    ∃ f : Nat → Nat → Nat × Nat,
      (∀ d i d2 i2, HasResult S d i → HasResult S d2 i2 → f d i = f d2 i2 → d = d2 ∧ i = i2) ∧
      ∀ d i r, i < (S.sys.dock d).n → ((S.sys.dock d).phase i = .received r ∨ (S.sys.dock d).phase i = .returned r) →
        Obtained C S d i r (f d i).1 (f d i).2 := by
  have key : ∀ d i r, i < (S.sys.dock d).n →
      ((S.sys.dock d).phase i = .received r ∨ (S.sys.dock d).phase i = .returned r) →
      ∃ d' q k, (S.rest d').served k = some q ∧ S.sys.owner (other ((S.sys.dock d').exec k).peer) = some (.dock d) ∧
        ((S.sys.dock d').exec k).index = (S.sys.dock d).index i ∧ Obtained C S d i r d' q :=
    fun d i r hi hr => call_obtained h hi hr (fun j hj e => hd d j i hj hi e) (hw d i hi) fun d' q v hv _ _ _ _ => hw' d' q v hv
  classical
  have key2 : ∀ d i, ∃ p : Nat × Nat, HasResult S d i → ∃ k, (S.rest p.1).served k = some p.2 ∧
      S.sys.owner (other ((S.sys.dock p.1).exec k).peer) = some (.dock d) ∧
      ((S.sys.dock p.1).exec k).index = (S.sys.dock d).index i ∧
      ∀ r, ((S.sys.dock d).phase i = .received r ∨ (S.sys.dock d).phase i = .returned r) → Obtained C S d i r p.1 p.2 := by
    intro d i
    by_cases hr : HasResult S d i
    · obtain ⟨hi, r, hr⟩ := hr
      obtain ⟨d', q, k, h1, h2, h3, h4⟩ := key d i r hi hr
      refine ⟨(d', q), fun _ => ⟨k, h1, h2, h3, fun r' hr' => ?_⟩⟩
      have : r' = r := by
        rcases hr with hr | hr <;> rcases hr' with hr' | hr' <;> rw [hr] at hr' <;> cases hr' <;> rfl
      rw [this]
      exact h4
    · exact ⟨(0, 0), fun h => absurd h hr⟩
  choose f hf using key2
  refine ⟨f, ?_, fun d i r hi hr => (hf d i ⟨hi, r, hr⟩).choose_spec.2.2.2 r hr⟩
  intro d i d2 i2 hr hr2 e
  obtain ⟨k, h1, h2, h3, -⟩ := hf d i hr
  obtain ⟨k2, g1, g2, g3, -⟩ := hf d2 i2 hr2
  rw [← e] at g1 g2 g3
  obtain ⟨ws, hws⟩ := (World.inv_run h).whole (f d i).1
  have W := Whole.inv_run _ _ ws _ hws
  have := W.inj k k2 _ h1 g1
  subst this
  rw [h2] at g2
  cases g2
  exact ⟨rfl, hd d i i2 hr.1 hr2.1 (h3.symm.trans g3)⟩

/-! ## Examples -/

/-- Dock 0 carries feature `a`, dock 1 carries feature `b`. -/
def worldC : Nat → List Carried := fun d => if d = 0 then [⟨nameA, 3, true⟩] else [⟨nameB, 2, true⟩]

/-- The same methods in all docks. -/
def worldT : Nat → Nat → Chan.Target := fun _ => wholeDemo

/-- An action of a system of docks whose features are left open. -/
def lift : System.Act → World.Act
  | .dock d a => .dock d (.dock a)
  | a => .sys a

/-- Both docks register with the hub.  Both run the method of their feature, for calls from within.  That of dock 1 calls
feature `a`: the dock asks the hub for it, dials dock 0, and sends the request. -/
def worldAsk : List World.Act :=
  [.dock 0 (.call ⟨nameA, methM, [], true⟩ 0 none), .dock 0 (.chan (.push 0)), .dock 0 (.chan (.start 0)),
   .dock 1 (.call ⟨nameB, methM, [], true⟩ 0 none), .dock 1 (.chan (.push 0)), .dock 1 (.chan (.start 0))] ++
  List.map lift
  [.join 0, .dock 0 .storeHub, .dock 0 (.greet 0 [nameA]), .deliver 1, .hub (.work 1), .hub (.work 1), .deliver 0,
   .dock 0 (.work 0 []), .dock 0 (.work 0 [nameA]), .deliver 1, .hub (.work 1), .hub (.work 1),
   .join 1, .dock 1 .storeHub, .dock 1 (.greet 2 [nameB]), .deliver 3, .hub (.work 3), .hub (.work 3), .deliver 2,
   .dock 1 (.work 2 []), .dock 1 (.work 2 [nameB]), .deliver 3, .hub (.work 3), .hub (.work 3)] ++
  [.dock 1 (.call ⟨nameA, methM, [], true⟩ 77 (some 0))] ++
  List.map lift
  [.dock 1 (.store 0), .dock 1 (.setReq 0), .dock 1 (.commit 0), .deliver 3, .hub (.look 0), .hub (.examine 0),
   .hub (.respond 0), .deliver 2, .dial 1 2 0 20001, .dock 1 (.work 2 []), .accept 5, .dock 0 (.greet 5 [nameA]), .deliver 4,
   .dock 1 (.work 4 [nameB]), .dock 1 (.work 4 []), .dock 1 (.work 4 []), .dock 1 (.greet 4 [nameB]), .deliver 5,
   .dock 0 (.work 5 []), .dock 0 (.work 5 []), .dock 0 (.work 5 []), .deliver 5, .dock 0 (.work 5 [nameA]),
   .dock 0 (.work 5 []), .dock 0 (.work 5 []), .deliver 4, .dock 1 (.work 4 []), .dock 1 (.visit 4 0), .dock 1 (.work 4 []),
   .dock 1 (.work 4 []), .dock 1 (.work 4 []), .dock 1 (.work 4 [])]

/-- An execution with a view of its final state. -/
theorem worldWitness {β : Type} [DecidableEq β] {C : Nat → List Carried} {T : Nat → Nat → Chan.Target} {H R : Nat → Str}
    {as : List World.Act} {f : World.State → β} {b : β}
    (h : ((run (World.State.step C T H R []) (World.State.init T) as).any fun S => f S = b) = true) :
    ∃ S, run (World.State.step C T H R []) (World.State.init T) as = some S ∧ f S = b := by
  cases hr : run (World.State.step C T H R []) (World.State.init T) as with
  | none => rw [hr] at h; cases h
  | some S =>
    rw [hr] at h
    exact ⟨S, rfl, of_decide_eq_true h⟩

set_option synthInstance.maxSize 100000 in
set_option synthInstance.maxHeartbeats 2000000 in
/-- Dock 0 finishes the first call and executes that of dock 1; the method returns true, and so does the call. -/
example : ∃ S, run (World.State.step worldC worldT sysH sysR []) (World.State.init worldT) (worldAsk ++
      [.sys (.deliver 5), .dock 0 (.invoke 0), .dock 0 (.chan (.push 1)), .dock 0 (.chan (.ret 0 [])),
       .dock 0 (.chan (.settleH 0)), .dock 0 (.chan (.deliverH 0)), .dock 0 (.chan (.start 0)),
       .dock 0 (.chan (.ret 0 [.bool 0 true])), .dock 0 (.chan (.settleH 0)), .dock 0 (.chan (.deliverH 0)),
       .dock 0 (.chan (.receive 1)), .dock 0 (.finish 0), .dock 0 (.respond 0), .sys (.deliver 4), .dock 1 (.dock (.callback 0)),
       .dock 1 (.dock (.receive 0)), .dock 1 (.returns 0)]) = some S ∧
    (((S.sys.dock 1).phase 0).result.map fun r => (r.result, r.err), (S.rest 0).chan.ret 1, (S.rest 1).blocked 0, (S.sys.dock 0).n, (S.sys.dock 1).n) =
      (some ([.bool 0 true], []), some (some [.bool 0 true]), none, 0, 1) := worldWitness (by decide +kernel)

end Verif.Props
