import Verif.Props.System5
import Verif.Props.Net8
import Verif.System.Parts

/-!
# C131: many calls at once

The variables are as in `Verif.Props.System1`.
-/

namespace Verif.Props

open Verif Verif.Codec Verif.Proto Verif.System
open Verif.Dock (Carried)

variable (C : Nat → List Carried) (H : Nat → Str) (R : Nat → Str) (black : List Int)

set_option synthInstance.maxSize 4096
set_option synthInstance.maxHeartbeats 200000

/-! ## A request that is lost is not sent again -/

private theorem got_step {S T : System.State} {a : System.Act} (h : S.step C H R black a = some T) (e : Nat) :
    T.got e = S.got e ∨ ∃ pkt rest q, S.queue e = pkt :: rest ∧ fate pkt = .arrives q ∧ T.got e = S.got e ++ [q] := by
  cases a with
  | deliver e' =>
    simp only [System.State.step, System.State.receive] at h
    split at h
    · cases h
    · rename_i pkt rest hq
      split at h
      · rename_i q hf
        by_cases x : e = e'
        · subst x
          right
          refine ⟨pkt, rest, q, hq, hf, ?_⟩
          repeat' split at h
          all_goals cases h
          all_goals simp [System.State.setDock, System.State.setHub]
        · left
          repeat' split at h
          all_goals cases h
          all_goals simp [System.State.setDock, System.State.setHub, upd_other _ _ x]
      all_goals
        left
        repeat' split at h
        all_goals cases h
        all_goals rfl
  | _ =>
    left
    simp only [System.State.step] at h
    repeat' split at h
    all_goals cases h
    all_goals rfl

/-- No request with index `x` is on its way to end `e` or has arrived there. -/
private def GoneReq (e : Nat) (x : BitVec 64) (S : System.State) : Prop :=
  (∀ pkt ∈ S.queue e, isReqOf x pkt = false) ∧ ∀ pkt ∈ S.got e, isReqOf x pkt = false

private theorem lost_run (more : List System.Act) (S T : System.State) (I : System.Inv C H R black S)
    (h : run (System.State.step C H R black) S more = some T) (d i e : Nat) (slot meth : Str) (args : List Val) (wr : Bool)
    (hi : i < (S.dock d).n) (ho : S.owner e = some (.dock d))
    (hs : Dock.Ev.sent e (.rpcRequest ((S.dock d).index i) slot meth args wr) ∈ (S.dock d).log)
    (hl : GoneReq (other e) ((S.dock d).index i) S)
    (hu : ∀ j, j < (T.dock d).n → (T.dock d).index j = (T.dock d).index i → j = i) :
    GoneReq (other e) ((S.dock d).index i) T := by
  induction more generalizing S with
  | nil => cases h; exact hl
  | cons a more ih =>
    simp only [run] at h
    split at h
    · cases h
    rename_i U hU
    have W := stays_run C H R black [a] S U I (by simp [run, hU])
    have J := System.inv_step C H R black S a U I hU
    have WT := stays_run C H R black more U T J h
    obtain ⟨l, hlog⟩ := W.log d
    have hx := (W.index d).2 i hi
    have hiU : i < (U.dock d).n := Nat.lt_of_lt_of_le hi (W.index d).1
    have hsU : Dock.Ev.sent e (.rpcRequest ((U.dock d).index i) slot meth args wr) ∈ (U.dock d).log := by
      rw [hx, hlog]; exact List.mem_append_left _ hs
    rw [← hx]
    refine ih U J h hiU (W.owner _ _ ho) hsU ?_
    rw [hx]
    -- no second request is sent
    have hone : ∀ pkt ∈ dockSent e l, isReqOf ((S.dock d).index i) pkt = false := by
      intro pkt hp
      have hc := one_sent (U.dock d) (dock_inv J d).2.2.1 i (by
        intro j hj he
        have h1 := (WT.index d).2 j hj
        have h2 := (WT.index d).2 i hiU
        exact hu j (Nat.lt_of_lt_of_le hj (WT.index d).1) (by rw [h1, h2, he]))
      cases hr : isReqOf ((S.dock d).index i) pkt with
      | false => rfl
      | true =>
        exfalso
        have hp := mem_dockSent.mp hp
        obtain ⟨a1, b1, e1⟩ := List.append_of_mem hs
        obtain ⟨a2, b2, e2⟩ := List.append_of_mem hp
        rw [hlog, e1, e2, hx] at hc
        cases pkt <;> simp [isReqOf] at hr
        subst hr
        simp [List.countP_append, List.countP_cons] at hc
        omega
    refine ⟨?_, ?_⟩
    · by_cases hlose : ∃ e' k, a = .lose e' k
      · obtain ⟨e', k, rfl⟩ := hlose
        simp only [System.State.step] at hU
        split at hU
        · cases hU
          intro pkt hp
          refine hl.1 pkt ?_
          by_cases x : other e = e'
          · rw [← x] at hp
            simp only [upd_same] at hp
            exact List.mem_of_mem_eraseIdx hp
          · simpa only [upd_other _ _ x] using hp
        · cases hU
      · obtain ⟨y, z, h1, h2, h3, h4, _⟩ := queue_step I.shape hU (fun e' k hk => hlose ⟨e', k, hk⟩) (other e)
        rw [other_other] at h4
        have hz := h4 d l ho hlog
        intro pkt hp
        rw [h1] at hp
        rcases List.mem_append.mp hp with hp | hp
        · refine hl.1 pkt ?_
          by_cases x : a = .deliver (other e)
          · rw [h3 x] at hp; exact List.mem_of_mem_tail hp
          · rw [h2 x] at hp; exact hp
        · rw [hz] at hp; exact hone pkt hp
    · rcases got_step C H R black hU (other e) with hg | ⟨pkt, rest, q, hq, hf, hg⟩
      · rw [hg]; exact hl.2
      · rw [hg]
        intro p hp
        rcases List.mem_append.mp hp with hp | hp
        · exact hl.2 p hp
        · have h0 := hl.1 pkt (by rw [hq]; exact List.mem_cons_self)
          simp only [List.mem_singleton] at hp
          subst hp
          have hh := fate_head hf
          cases pkt <;> cases p <;> simp [head, isReqOf] at hh h0 ⊢
          rw [hh.1]; exact h0

/-- C131: in a system of unmodified processes, once the request of a call has been sent and is neither on its way nor has
arrived, the call never returns, whatever all processes do.  (No other call of the dock may have the same index, see C57.) -/
theorem C131_lost_refuted (acts more : List System.Act) (S T : System.State)
    (h : run (System.State.step C H R black) .init acts = some S)
    (h' : run (System.State.step C H R black) S more = some T) (d i e : Nat) (slot meth : Str) (args : List Val)
    (wr : Bool) (hi : i < (S.dock d).n) (ho : S.owner e = some (.dock d))
    (hs : Dock.Ev.sent e (.rpcRequest ((S.dock d).index i) slot meth args wr) ∈ (S.dock d).log)
    (hq : ∀ slot meth args wr, .rpcRequest ((S.dock d).index i) slot meth args wr ∉ S.queue (other e) ++ S.got (other e))
    (hu : ∀ j, j < (T.dock d).n → (T.dock d).index j = (T.dock d).index i → j = i) (r : Dock.Ret) :
    (T.dock d).phase i ≠ .returned r := by
  intro hr
  have I := inv_run C H R black h
  have J : System.Inv C H R black T := run_inv (inv_step C H R black) more S T I h'
  have W := stays_run C H R black more S T I h'
  have hx := (W.index d).2 i hi
  have hR := (dock_inv J d).2.2.1
  have hlost : GoneReq (other e) ((S.dock d).index i) S := by
    refine ⟨fun pkt hp => ?_, fun pkt hp => ?_⟩
    all_goals
      cases hr : isReqOf ((S.dock d).index i) pkt with
      | false => rfl
      | true =>
        cases pkt <;> simp [isReqOf] at hr
        subst hr
        first
        | exact absurd (List.mem_append_left _ hp) (hq _ _ _ _)
        | exact absurd (List.mem_append_right _ hp) (hq _ _ _ _)
  have L := lost_run C H R black more S T I h' d i e slot meth args wr hi ho hs hlost hu
  obtain ⟨p, slot1, meth1, h1⟩ := hR.result i r (by rw [hr]; rfl)
  obtain ⟨h2, d1, res', err', h3, h4, _⟩ := response_sent J h1
  obtain ⟨as, ha⟩ := J.parts.dock d1
  obtain ⟨_, args1, wr1, _, h5, _⟩ := C82_own_result (C d1) as _ ha _ _ _ _ _ _ h4
  obtain ⟨h6, d2, args2, wr2, h7, h8, _⟩ := request_sent J h5
  rw [other_other] at h7 h8
  rw [h2] at h7
  cases h7
  have hs' : Dock.Ev.sent e (.rpcRequest ((T.dock d).index i) slot meth args wr) ∈ (T.dock d).log := by
    obtain ⟨l, hl⟩ := W.log d
    rw [hl, hx]
    exact List.mem_append_left _ hs
  have hp : p = e := same_dest _ hR i hu _ _ _ _ _ _ _ _ _ _ h8 hs'
  subst hp
  have := L.2 _ (recv_owner J h5).2
  simp [isReqOf, hx] at this

/-! ## Twenty packets fit -/

section
open Verif.Net
variable {α : Type} (Z : Serializer α)

private theorem fill (l : List (Option α)) (hl : l.length ≤ cSendChanSize) :
    run (Link.step Z) (Link.init α) (l.flatMap fun o => [.check o, .push 0]) =
      some { Link.init α with queue := l, accepted := l } := by
  induction l using List.reverseRecOn with
  | nil => rfl
  | append_singleton l o ih =>
    simp only [List.length_append, List.length_singleton] at hl
    rw [List.flatMap_append, run_append, ih (by omega)]
    have h1 : ¬ l.length = cSendChanSize := by omega
    have h2 : ¬ cSendChanSize ≤ l.length := by omega
    simp [run, Link.step, Link.init, h1, h2]

/-- While the send routine does not run, the first twenty objects enter the queue, and those that follow are discarded. -/
theorem C131_discarded_refuted (l : List (Option α)) (o : Option α) (hl : l.length = cSendChanSize) :
    ∃ as s, run (Link.step Z) (Link.init α) as = some s ∧ sendsIn as = l ++ [o] ∧ s.accepted = l ∧ s.pending = [] ∧
      s.dropped = [(o, 20)] := by
  refine ⟨(l.flatMap fun o => [.check o, .push 0]) ++ [.check o],
    { Link.init α with queue := l, accepted := l, dropped := [(o, 20)] }, ?_, ?_, rfl, rfl, rfl⟩
  · rw [run_append, fill Z l (Nat.le_of_eq hl)]
    simp only [Option.bind_some, run, Link.step, Link.init, hl, Bool.false_eq_true, if_true, if_false]
    rfl
  · simp only [sendsIn, List.filterMap_append, List.filterMap_cons, List.filterMap_nil]
    congr 1
    clear hl
    induction l with
    | nil => rfl
    | cons x l ih => simpa [List.flatMap_cons] using ih

private theorem sent_queue (as : List (Net.Act α)) (s : Link α) (h : run (Link.step Z) (Link.init α) as = some s) :
    s.sent.length + s.queue.length ≤ s.accepted.length := by
  refine run_inv (I := fun s : Link α => s.sent.length + s.queue.length ≤ s.accepted.length) (step := Link.step Z) ?_ as _ s
    (by simp [Link.init]) h
  intro s a t I hs
  cases a with
  | check obj =>
    simp only [Link.step] at hs
    repeat' split at hs
    all_goals cases hs
    all_goals exact I
  | push i =>
    simp only [Link.step] at hs
    repeat' split at hs
    all_goals cases hs
    simp only [List.length_append, List.length_singleton] at *
    omega
  | transmit f =>
    simp only [Link.step] at hs
    repeat' split at hs
    all_goals cases hs
    all_goals (rename_i hq; try rename_i hq2; simp_all)
    all_goals omega
  | recv n =>
    simp only [Link.step] at hs
    repeat' split at hs
    all_goals cases hs
    all_goals exact I

private theorem no_drop (as : List (Net.Act α)) (t : Link α) (ht : run (Link.step Z) (Link.init α) as = some t)
    (it : t.dropped = []) (a : Net.Act α) (s : Link α) (hs : t.step Z a = some s)
    (hw : ∀ obj, a = .check obj → (sendsIn as).length < t.sent.length + 20) : s.dropped = [] := by
  cases a with
  | check obj =>
    have h1 := hw obj rfl
    have h2 := (C122_sent_once Z as t ht).length_eq
    have h3 := sent_queue Z as t ht
    simp only [it, List.map_nil, List.append_nil, List.length_append] at h2
    have h4 : ¬ t.queue.length = cSendChanSize := by simp only [cSendChanSize]; omega
    simp only [Link.step, h4, if_false] at hs
    split at hs
    · cases hs
    · cases hs; exact it
  | _ =>
    simp only [Link.step] at hs
    repeat' split at hs
    all_goals cases hs
    all_goals exact it

/-- C131, what does hold: if, whenever something is passed to `Send`, fewer than twenty of the objects passed to `Send`
before have not been written to the connection, then nothing is discarded. -/
theorem C131_window_partial (as : List (Net.Act α)) (s : Link α) (h : run (Link.step Z) (Link.init α) as = some s)
    (hw : ∀ bs obj cs t, as = bs ++ .check obj :: cs → run (Link.step Z) (Link.init α) bs = some t →
      (sendsIn bs).length < t.sent.length + 20) : s.dropped = [] := by
  induction as using List.reverseRecOn generalizing s with
  | nil => cases h; rfl
  | append_singleton as a ih =>
    rw [run_append] at h
    obtain ⟨t, ht, h⟩ := Option.bind_eq_some_iff.mp h
    have it := ih t ht fun bs obj cs u e => hw bs obj (cs ++ [a]) u (by rw [e]; simp)
    have hs : t.step Z a = some s := by
      simp only [run] at h
      split at h
      · cases h
      · rename_i u hu; cases h; exact hu
    exact no_drop Z as t ht it a s hs fun obj e => hw as obj [] t (by rw [e]) ht

/-- Thirty objects, each sent when the one before has been written. -/
def thirty : List (Net.Act (List Byte)) := (List.replicate 30 [.check (some [97, 0]), .push 0, .transmit none]).flatten

example : ∃ s, run (Link.step txtSerializer) (Link.init _) thirty = some s ∧ s.sent.length = 30 ∧ s.dropped = [] := by
  have hv : ∀ k, k ≤ 90 → ((run (Link.step txtSerializer) (Link.init _) (thirty.take k)).any fun t =>
      (sendsIn (thirty.take k)).length ≤ t.sent.length + 1) = true := by decide +kernel
  have h30 : ((run (Link.step txtSerializer) (Link.init _) thirty).any fun t => t.sent.length = 30) = true := by
    decide +kernel
  obtain ⟨s, h, hs⟩ := Option.any_eq_true_iff_get .. |>.mp h30 |> fun ⟨h, e⟩ => (⟨_, (Option.some_get h).symm, e⟩ :
    ∃ s, run (Link.step txtSerializer) (Link.init _) thirty = some s ∧ decide (s.sent.length = 30) = true)
  refine ⟨s, h, of_decide_eq_true hs, C131_window_partial _ thirty s h fun bs obj cs t e ht => ?_⟩
  have hk := hv bs.length (by have := congrArg List.length e; simp [thirty] at this; omega)
  have hb : thirty.take bs.length = bs := by rw [e]; simp
  rw [hb, ht] at hk
  have := of_decide_eq_true hk
  omega

end

open Verif.Net in
/-- C131, what does hold: in a fair execution of a connection (C130) in which, whenever a packet is passed to `Send`, fewer
than twenty of those before have not been written, all packets arrive. -/
theorem C131_arrives_partial (T : Trace (Link.step ferrySerializer)) (F : FairLink ferrySerializer Sendable T)
    (hw : ∀ n obj, T.act n = some (.check obj) → (sendsIn (actsUntil T n)).length < (T.st n).sent.length + 20) (n : Nat) :
    ∃ m, n ≤ m ∧ ∃ (l rest : List Proto.Packer), (sendsIn (actsUntil T n)).Perm (l.map some) ∧
      (T.st m).delivered.Perm (l.map Packer.received ++ rest) := by
  have hd : ∀ n, (T.st n).dropped = [] := by
    intro n
    induction n with
    | zero => rw [F.init]; rfl
    | succ n ih =>
      cases ha : T.act n with
      | none => rw [T.none_step ha]; exact ih
      | some a =>
        exact no_drop _ _ _ (actsUntil_run T F.init n) ih a _ (T.some_step ha) fun obj e => hw n obj (by rw [ha, e])
  obtain ⟨m, hm, l, rest, h1, h2, _⟩ := C130_arrives T F n
  rw [hd n] at h1
  exact ⟨m, hm, l, rest, by simpa using h1, h2⟩

open Verif.Net in
/-- The execution of C130. -/
example : ∃ T : Trace (Link.step ferrySerializer), FairLink ferrySerializer Sendable T ∧
    ∀ n obj, T.act n = some (.check obj) → (sendsIn (actsUntil T n)).length < (T.st n).sent.length + 20 := by
  obtain ⟨T, F, ha, _⟩ := three_fair
  refine ⟨T, F, fun n obj h => ?_⟩
  rw [ha] at h
  have h1 : n < 14 := (List.getElem?_eq_some_iff.mp h).1
  have h2 : (sendsIn (actsUntil T n)).length ≤ (actsUntil T n).length := List.length_filterMap_le _ _
  have h3 : (actsUntil T n).length ≤ (List.range n).length := List.length_filterMap_le _ _
  rw [List.length_range] at h3
  omega

/-! ## A system in which a call never returns because twenty others are made at the same time -/

/-- The four steps in which dock 1 makes its `i`-th call and passes the request to `Send`. -/
def burstCall (i : Nat) : List System.Act :=
  [.dock 1 (.call ⟨nameA, methM, [], true⟩ (BitVec.ofNat 64 (100 + i))), .dock 1 (.store i), .dock 1 (.setReq i),
    .dock 1 (.commit i)]

/-- After `sysDone`, dock 1 makes 21 calls. -/
def burstActs : List System.Act := sysDone ++ (List.range' 1 21).flatMap burstCall

/-- A request without arguments. -/
private def plain : Proto → Option (BitVec 64 × Str × Str × Bool)
  | .rpcRequest x slot meth [] wr => some (x, slot, meth, wr)
  | _ => none

private theorem plain_eq {p : Proto} {x : BitVec 64} {slot meth : Str} {wr : Bool} (h : plain p = some (x, slot, meth, wr)) :
    p = .rpcRequest x slot meth [] wr := by
  unfold plain at h
  split at h
  · simp only [Option.some.injEq, Prod.mk.injEq] at h
    obtain ⟨rfl, rfl, rfl, rfl⟩ := h
    rfl
  · cases h

/-- The request of the `i`-th call. -/
def burstReq (i : Nat) : Proto := .rpcRequest (BitVec.ofNat 64 (100 + i)) nameA methM [] true

private theorem plain_list {ps : List Proto} {l : List Nat}
    (h : ps.map plain = l.map fun i => some (BitVec.ofNat 64 (100 + i), nameA, methM, true)) : ps = l.map burstReq := by
  induction l generalizing ps with
  | nil => simpa using h
  | cons i l ih =>
    cases ps with
    | nil => simp at h
    | cons p ps =>
      simp only [List.map_cons, List.cons.injEq] at h ⊢
      exact ⟨plain_eq h.1, ih h.2⟩

/-- C131 (refuted): dock 1 is connected to dock 0, which offers feature `a`, and has called it before; both docks and the
hub run.  Dock 1 makes 21 calls and passes their requests to `Send` of this connection, whose send routine does not
run in between: the last is discarded (`as`, an execution of the connection in which these packets are sent).  The
21st call never returns, whatever all processes do from then on, unless the dock makes another call with the same index. -/
theorem C131_overload_refuted : ∃ C H R black acts S,
    run (System.State.step C H R black) .init acts = some S ∧
    S.down (.dock 0) = false ∧ S.down (.dock 1) = false ∧ S.down .hub = false ∧
    S.owner 4 = some (.dock 1) ∧ S.owner 5 = some (.dock 0) ∧
    S.queue 5 = (List.range' 1 21).map burstReq ∧
    (∃ as s, run (Net.Link.step Net.ferrySerializer) (Net.Link.init _) as = some s ∧
      sendsIn as = (S.queue 5).map (fun p => some ⟨idOf p, p⟩) ∧
      s.accepted = ((S.queue 5).take 20).map (fun p => some ⟨idOf p, p⟩) ∧ s.pending = [] ∧
      s.dropped = [(some ⟨idOf (burstReq 21), burstReq 21⟩, 20)]) ∧
    ∃ S', S.step C H R black (.lose 5 20) = some S' ∧ S'.queue 5 = (S.queue 5).take 20 ∧
      ∀ more T, run (System.State.step C H R black) S' more = some T →
        (∀ j, j < (T.dock 1).n → (T.dock 1).index j = (T.dock 1).index 21 → j = 21) →
        ∀ r, (T.dock 1).phase 21 ≠ .returned r := by
  obtain ⟨S, h, e⟩ := sysWitness (C := sysC) (H := sysH) (R := sysR) (as := burstActs)
    (f := fun S => ([S.down (.dock 0), S.down (.dock 1), S.down .hub], [S.owner 4, S.owner 5], (S.queue 5).map plain))
    (b := ([false, false, false], [some (.dock 1), some (.dock 0)],
      (List.range' 1 21).map fun i => some (BitVec.ofNat 64 (100 + i), nameA, methM, true))) (by decide +kernel)
  obtain ⟨S', h', e'⟩ := sysWitness (C := sysC) (H := sysH) (R := sysR) (as := burstActs)
    (f := fun S => ((S.dock 1).n, (S.dock 1).index 21, (S.dock 1).log.filterMap requestView,
      (S.got 5).map fun p => isReqOf 121 p))
    (b := (22, 121, (4, 77, nameA, methM) :: (List.range' 1 21).map (fun i => (4, BitVec.ofNat 64 (100 + i), nameA, methM)),
      [false, false, false])) (by decide +kernel)
  rw [h] at h'
  cases h'
  simp only [Prod.mk.injEq, List.cons.injEq, and_true] at e e'
  obtain ⟨⟨h1, h2, h3⟩, ⟨h4, h5⟩, h6⟩ := e
  obtain ⟨h7, h8, h9, h10⟩ := e'
  have hq := plain_list h6
  refine ⟨sysC, sysH, sysR, [], burstActs, S, h, h1, h2, h3, h4, h5, hq, ?_, ?_⟩
  · obtain ⟨as, s, a1, a2, a3, a4, a5⟩ := C131_discarded_refuted Net.ferrySerializer
      (((List.range' 1 20).map burstReq).map fun p => some (⟨idOf p, p⟩ : Proto.Packer))
      (some ⟨idOf (burstReq 21), burstReq 21⟩) rfl
    exact ⟨as, s, a1, by rw [a2, hq]; rfl, by rw [a3, hq]; rfl, a4, a5⟩
  · refine ⟨{ S with queue := upd S.queue 5 ((S.queue 5).eraseIdx 20) }, ?_, ?_, ?_⟩
    · simp only [System.State.step, hq]
      rfl
    · simp only [upd_same, hq]
      rfl
    · intro more T hT hu r
      have hr : run (System.State.step sysC sysH sysR []) .init (burstActs ++ [.lose 5 20]) =
          some { S with queue := upd S.queue 5 ((S.queue 5).eraseIdx 20) } := by
        rw [run_append, h]
        simp only [Option.bind_some, run, System.State.step, hq]
        rfl
      have hs : ∃ args wr, Dock.Ev.sent 4 (.rpcRequest ((S.dock 1).index 21) nameA methM args wr) ∈ (S.dock 1).log := by
        have : (4, 121, nameA, methM) ∈ (S.dock 1).log.filterMap requestView := by rw [h9]; simp [List.range']
        obtain ⟨a, ha, hv⟩ := List.mem_filterMap.mp this
        unfold requestView at hv
        split at hv
        · simp only [Option.some.injEq, Prod.mk.injEq] at hv
          obtain ⟨rfl, rfl, rfl, rfl⟩ := hv
          rw [h8]
          exact ⟨_, _, ha⟩
        · cases hv
      obtain ⟨args, wr, hs⟩ := hs
      refine C131_lost_refuted sysC sysH sysR [] _ more _ T hr hT 1 21 4 nameA methM args wr (by show 21 < (S.dock 1).n; omega)
        h4 hs ?_ hu r
      intro slot meth args wr hm
      show False
      rcases List.mem_append.mp hm with hm | hm
      · have hm : Proto.rpcRequest ((S.dock 1).index 21) slot meth args wr ∈ upd S.queue 5 ((S.queue 5).eraseIdx 20) 5 := hm
        rw [upd_same, hq, h8] at hm
        have : ∀ p ∈ ((List.range' 1 21).map burstReq).eraseIdx 20, isReqOf 121 p = false := by decide +kernel
        have := this _ hm
        simp [isReqOf] at this
      · have hm : Proto.rpcRequest ((S.dock 1).index 21) slot meth args wr ∈ S.got 5 := hm
        have := List.mem_map_of_mem (f := fun p => isReqOf 121 p) hm
        rw [h10, h8] at this
        simp [isReqOf] at this

end Verif.Props
