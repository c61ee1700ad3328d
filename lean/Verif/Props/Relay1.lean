import Verif.Codec.Forward
import Verif.Props.Once5

/-!
# C155: a feature may stand in for another

A method may do its work by calling a method of a feature of another dock, with the arguments that it received, and returning what
it gets (/repo/slot.go:57-59, /repo/rpc.go:15-57).  The caller then gets what it would have got from the other feature itself,
however many features stand in between.
-/

namespace Verif.Codec

mutual

theorem wire_fits (v : Val) (h : wireOK v = true) : fits v = true := by
  match v with
  | .nil => rfl
  | .bool _ _ => rfl
  | .uint _ _ _ => rfl
  | .int _ _ _ => rfl
  | .f32 _ _ => rfl
  | .f64 _ _ => rfl
  | .str _ _ => exact h
  | .seq _ xs =>
    simp only [wireOK, fits, Bool.and_eq_true] at h ⊢
    exact ⟨h.1, wire_fits_list xs h.2⟩
  | .map _ kvs =>
    simp only [wireOK, fits, Bool.and_eq_true] at h ⊢
    exact ⟨h.1.1, wire_fits_entries kvs h.1.2⟩
  | .bad _ => exact h

theorem wire_fits_list (xs : List Val) (h : wireOKList xs = true) : fitsList xs = true := by
  match xs with
  | [] => rfl
  | x :: xs =>
    simp only [wireOKList, fitsList, Bool.and_eq_true] at h ⊢
    exact ⟨wire_fits x h.1, wire_fits_list xs h.2⟩

theorem wire_fits_entries (kvs : List (Val × Val)) (h : wireOKEntries kvs = true) : fitsEntries kvs = true := by
  match kvs with
  | [] => rfl
  | (k, v) :: kvs =>
    simp only [wireOKEntries, fitsEntries, Bool.and_eq_true] at h ⊢
    exact ⟨⟨wire_fits k h.1.1.1.1, wire_fits v h.1.2⟩, wire_fits_entries kvs h.2⟩

end

/-- What arrives of a value that survives the wire survives it again, and arrives as it is. -/
theorem canon_ready {v : Val} (h : wireOK v = true) : wireOK (canon v) = true ∧ canon (canon v) = canon v :=
  pass_value v (wire_fits v h) _ [] [] _ ((rt_value v h).2.2 [] _ (Nat.le_refl _))

theorem canonList_ready {vs : List Val} (h : wireOKList vs = true) :
    wireOKList (canonList vs) = true ∧ canonList (canonList vs) = canonList vs := by
  induction vs with
  | nil => exact ⟨rfl, rfl⟩
  | cons v vs ih =>
    simp only [wireOKList, canonList, Bool.and_eq_true] at h ⊢
    obtain ⟨h1, h2⟩ := canon_ready h.1
    obtain ⟨h3, h4⟩ := ih h.2
    exact ⟨⟨h1, h3⟩, by rw [h2, h4]⟩

end Verif.Codec

namespace Verif.Props

open Verif Verif.Codec Verif.Proto Verif.System
open Verif.Dock (Carried LastNamed)

variable {C : Nat → List Carried} {T : Nat → Nat → Chan.Target} {H R : Nat → Str} {black : List Int}
  {E : World.Course C T H R black}

/-- Like `call_obtained`, with a premise on the results of the one method that is called for the call. -/
private theorem obtained_own
    {as : List World.Act} {S : World.State} (h : run (World.State.step C T H R black) (World.State.init T) as = some S)
    {d i : Nat} {r : Dock.Ret} (hi : i < (S.sys.dock d).n)
    (hr : (S.sys.dock d).phase i = .received r ∨ (S.sys.dock d).phase i = .returned r)
    (hd : ∀ j, j < (S.sys.dock d).n → (S.sys.dock d).index j = (S.sys.dock d).index i → j = i)
    (hw : wireOKList ((S.sys.dock d).call i).args = true)
    (hw' : ∀ d' q k v, (S.rest d').chan.ret q = some (some v) → (S.rest d').served k = some q →
      S.sys.owner (other ((S.sys.dock d').exec k).peer) = some (.dock d) →
      ((S.sys.dock d').exec k).index = (S.sys.dock d).index i → wireOKList v = true) :
    ∃ d' q k, (S.rest d').served k = some q ∧ S.sys.owner (other ((S.sys.dock d').exec k).peer) = some (.dock d) ∧
      ((S.sys.dock d').exec k).index = (S.sys.dock d).index i ∧ Obtained C S d i r d' q := by
  obtain ⟨bs, hb⟩ := World.sys_reach h
  have I := System.inv_run C H R black hb
  obtain ⟨d', k, o, h1, h2, h3, h4, h5⟩ := result_from h hr
  obtain ⟨g0, d2, j, g1, g2, g3, g4, g5, g6, f, g7, g8⟩ := exec_call I h1
  rw [h2] at g1
  cases g1
  have := hd j g2 (g3.trans h3)
  subst this
  obtain ⟨ws, hws⟩ := (World.inv_run h).whole d'
  have W := Whole.inv_run (C d') (T d') ws _ hws
  obtain ⟨-, us, hu, un⟩ := Whole.chan_run _ _ ws _ hws
  have A := allInv_run _ un hu
  have h10 := fate_sendable (pkt := (S.sys.dock d).request j) g6 hw
  simp only [Proto.received, Dock.State.request, Proto.rpcRequest.injEq] at h10
  obtain ⟨-, -, -, e4, e5⟩ := h10
  obtain ⟨q, q', a, w1, w2, w3⟩ := W.outcome k o h4
  obtain ⟨v1, v2, v3, v4, -⟩ := W.served k q w1
  have hq := A.own.own q q' a w2
  subst hq
  rename' q' => q
  obtain ⟨t, ht⟩ := A.recd.result _ _ _ w2
  have v3' : ((S.rest d').chan.req q).meth = ((S.sys.dock d').exec k).call.meth := v3
  have v4' : ((S.rest d').chan.req q).args = ((S.sys.dock d').exec k).call.args := v4
  have v2' : Whole.calleeOf (C d') ((S.sys.dock d').exec k).call.slot = some ((S.rest d').chan.req q).callee := v2
  have w3' : o = Whole.retOf ((S.sys.dock d').exec k).call.meth a := w3
  refine ⟨d', q, k, w1, h2, h3, v1, ?_, ?_, ?_, ?_, ?_⟩
  · rw [g4]; exact calleeOf_last v2
  · obtain ⟨f', l1, l2⟩ := Whole.calleeOf_some v2'
    rw [(Dock.slotsOf_some _ _ _).mpr g7] at l1
    cases l1
    exact ⟨f, l2, g8⟩
  · rw [g5]; exact v3'
  · rw [v4', e4]
  · cases a with
    | ok v =>
      have hret : (S.rest d').chan.ret q = some v := A.recd.retOK _ _ _ ht
      have hs : wireOKList (if ((S.sys.dock d').exec k).call.withResult then o.result else []) = true := by
        split
        · rw [w3']
          cases v with
          | none => rfl
          | some v => exact hw' d' q k v hret w1 h2 h3
        · rfl
      have h11 := fate_sendable h5 hs
      simp only [Proto.received, Proto.rpcResponse.injEq, true_and] at h11
      refine Or.inl ⟨by rw [h11.2, w3']; rfl, v, hret, ?_⟩
      rw [h11.1, w3', e5]
      split <;> rfl
    | timeout =>
      have hs : wireOKList (if ((S.sys.dock d').exec k).call.withResult then o.result else []) = true := by
        rw [w3']; simp [Whole.retOf, wireOKList]
      have h11 := fate_sendable h5 hs
      simp only [Proto.received, Proto.rpcResponse.injEq, true_and] at h11
      obtain ⟨t0, b, k1, k2⟩ := A.recd.late _ _ ht
      refine Or.inr ⟨by rw [h11.2, w3', g5]; rfl, ?_, t0, b, t, k1, ht, k2⟩
      rw [h11.1, w3']
      simp [Whole.retOf, canonList]

/-- The request that serves a call is the one that is started for it. -/
private theorem started_own (hd : ∀ d, ReadingsDiffer E d) {n m d : Nat} {c : Dock.Call} (hc : Calls E n d c)
    (hrem : ∀ f ∈ C d, f.name ≠ c.slot) (hnm : n < m) {d' q k s : Nat} (h1 : ((E.st m).rest d').served k = some q)
    (h2 : (E.st m).sys.owner (other (((E.st m).sys.dock d').exec k).peer) = some (.dock d))
    (h3 : (((E.st m).sys.dock d').exec k).index = ((E.st m).sys.dock d).index ((E.st n).sys.dock d).n)
    (hsm : s < m) (hbeg : Begins E s d' q) : StartedFor E n s ∧ n < s := by
  have hlt := call_numbered hnm hc hrem
  obtain ⟨n', hfor, hn', -⟩ := for_some hbeg
  have hfor' := hfor
  have hnn : n' = n := by
    obtain ⟨A, TI, -, W⟩ := course_facts (E := E) m d'
    obtain ⟨d0, c0, d2, q2, hc', hb', hh⟩ := hfor
    obtain ⟨rfl, rfl⟩ := begins_same hbeg hb'
    rcases hh with ⟨_, rfl, x1, x2⟩ | ⟨hr', k', t1, t2, t3, t4, t5⟩
    · obtain ⟨n1, _, a1, a2, a3, _⟩ := served_made _ _ _ _ h1
      obtain rfl := made_once (E := E) x1 x2 a2 a3
      exact (invoke_call hc' a1).elim
    · have hmm : s ≤ m := by omega
      obtain rfl := W.inj k k' q h1 (course_served hmm t1)
      obtain ⟨y1, y2, y3, -⟩ := course_exec hmm t2
      have t3' := course_owner hmm t3
      rw [← y2, h2] at t3'
      cases t3'
      obtain ⟨z1, z2⟩ := course_index hmm (call_numbered t5 hc' hr')
      have e := hd d m _ _ z1 hlt (by rw [z2, ← t4, ← y3, h3])
      exact called_once hc' hc hr' hrem e
  subst hnn
  exact ⟨hfor', hn'⟩

private theorem chan_known {T : Nat → Chan.Target} {s t : Chan.State} {k q : Nat} {rest : List Nat}
    (h : s.step T (.start k) = some t) (hq : t.handler k = .running q) (hl : s.queue k = q :: rest) :
    (T k).invoke (s.req q).meth (s.req q).args ≠ .unknown := by
  unfold Chan.State.step at h
  split at h
  · cases h
  simp only at h
  split at h
  case h_2 => cases h
  rename_i i rest' hh hl'
  rw [hl] at hl'
  cases hl'
  split at h
  · rename_i e; rw [e]; simp
  · cases h
    simp only [upd_same] at hq
    cases hq
  · rename_i e; rw [e]; simp

/-- A method that runs exists, /repo/chancall/meta.go:44-49. -/
theorem running_known (t d k q : Nat) (h : ((E.st t).rest d).chan.handler k = .running q) :
    (T d k).invoke (((E.st t).rest d).chan.req q).meth (((E.st t).rest d).chan.req q).args ≠ .unknown := by
  induction t with
  | zero => rw [E.init] at h; cases h
  | succ t ih =>
    have old : ((E.st t).rest d).chan.handler k = .running q →
        (T d k).invoke (((E.st (t + 1)).rest d).chan.req q).meth (((E.st (t + 1)).rest d).chan.req q).args ≠ .unknown := fun h' => by
      obtain ⟨s, h1, h2, -⟩ := running_since t d k q h'
      have a1 := request_stays (E := E) (Nat.le_of_lt h1) (begins_new h2).1
      rw [(request_stays (E := E) (Nat.le_succ t) a1.1).2]
      exact ih h'
    cases ha : E.act t with
    | none =>
      rw [E.none_step ha] at h
      exact old h
    | some a =>
      have hp := World.chan_part (E.some_step ha) d
      split at hp
      · rename_i x hx
        rcases chan_running hp h with ⟨h1, h2, h3⟩ | ⟨rfl, rest, h1⟩
        · exact old h1
        · have e := chanAct_untied hx (by simp)
          subst e
          have hb : Begins E t d q := ⟨k, rest, ha, h1⟩
          rw [(request_stays (E := E) (Nat.le_succ t) (begins_new hb).1).2]
          exact chan_known hp h h1
      · rw [hp] at h
        exact old h

/-- The results of the method that is called for the call made in step `n` survive the wire. -/
def ReturnsSurvive (E : World.Course C T H R black) (n : Nat) : Prop :=
  ∀ s t d k meth args res, StartedFor E n s → Executes E d k meth args s t res → wireOKList res = true

/-- `C149_within` for one call, of which alone the arguments and results matter. -/
theorem remote_own (hd : ∀ d, ReadingsDiffer E d) {n m d : Nat} {c : Dock.Call} {r : Dock.Ret} (h : GotRemote E n m d c r)
    (hw : wireOKList c.args = true) (hw' : ReturnsSurvive E n) :
    ∃ s, StartedFor E n s ∧ n < s ∧ s < m ∧ ∃ d' k, LastAt (C d') c.slot k ∧ (∃ f, (C d')[k]? = some f ∧ f.discoverable = true) ∧
      StartsMethod E s d' k c.meth (canonList c.args) ∧
      (r.err = [] ∧ ((∃ t res, t < m ∧ Executes E d' k c.meth (canonList c.args) s t res ∧
          r.result = if c.withResult then canonList res else []) ∨
          (T d' k).invoke c.meth (canonList c.args) = .unknown ∧ r.result = []) ∨
        r.err = 91#8 :: (c.meth ++ Whole.cTimedOut) ∧ r.result = []) := by
  obtain ⟨hc, hrem, hnm, hr⟩ := h
  have hlt := call_numbered hnm hc hrem
  have hcall : ((E.st m).sys.dock d).call ((E.st n).sys.dock d).n = c := by
    obtain ⟨n', c', h1, h2, h3, h4, h5⟩ := call_made m d _ hlt
    obtain rfl := called_once hc h2 hrem h3 h4.symm
    obtain ⟨-, rfl⟩ := calls_same hc h2
    exact h5
  obtain ⟨as, hrun⟩ := E.reach m
  obtain ⟨d', q, k, h1, h2, h3, o1, o2, o3, o4, o5, o6⟩ := obtained_own hrun hlt hr (fun j hj e => hd d m _ _ hj hlt e)
    (by rw [hcall]; exact hw) (by
      intro d' q k v hv g1 g2 g3
      obtain ⟨s, hsm, hbeg⟩ := started_of_ret hv
      obtain ⟨hf, -⟩ := started_own hd hc hrem hnm g1 g2 g3 hsm hbeg
      rcases ret_within hbeg hv with ⟨t, res, _, x1, x2⟩ | ⟨x, -⟩
      · cases x2; exact hw' _ _ _ _ _ _ _ hf x1
      · cases x)
  rw [hcall] at o2 o4 o5 o6
  obtain ⟨s, hsm, hbeg⟩ : ∃ s, s < m ∧ Begins E s d' q := by
    rcases o6 with ⟨-, v, hv, -⟩ | ⟨-, -, t0, b, t, hst, -⟩
    · exact started_of_ret hv
    · exact started_begun m d' q (by rw [hst]; simp)
  have hreq := (request_stays (E := E) (Nat.le_of_lt hsm) (begins_new hbeg).1).2
  rw [hreq] at o2 o3 o4 o5
  obtain ⟨-, b1, ⟨rest, b2⟩, -⟩ := begins_new hbeg
  obtain ⟨hfor, hn⟩ := started_own hd hc hrem hnm h1 h2 h3 hsm hbeg
  refine ⟨s, hfor, hn, hsm, d', _, o2, o3, ⟨b1, q, rest, b2, o4, o5⟩, ?_⟩
  rcases o6 with ⟨he, v, hv, hres⟩ | ⟨he, hres, -⟩
  · refine Or.inl ⟨he, ?_⟩
    rw [← o4, ← o5]
    rcases ret_within hbeg hv with ⟨t, res, g1, g2, rfl⟩ | ⟨rfl, g⟩
    · exact Or.inl ⟨t, res, g1, g2, hres⟩
    · refine Or.inr ⟨g, ?_⟩
      rw [hres]
      simp [canonList]
  · exact Or.inr ⟨he, hres⟩

/-- `Relays E n m d c out n' m' c' out'`: dock `d` makes the call `c` in step `n` and has by step `m` its result `out`, without
error.  Either that is the call `c'`; or the method that is called for it makes, from its dock and with the arguments that it
received, a call for which the same holds, and returns the result of that. -/
inductive Relays (E : World.Course C T H R black) :
    Nat → Nat → Nat → Dock.Call → List Val → Nat → Nat → Nat → Dock.Call → List Val → Prop
  | last {n m d c out} (h : GotRemote E n m d c ⟨out, []⟩) : Relays E n m d c out n m d c out
  | pass {n m d c out s t d1 k meth args res n1 m1 c1 n' m' d' c' out'} (h : GotRemote E n m d c ⟨out, []⟩) (hr : c.withResult = true)
      (hs : StartedFor E n s) (hx : Executes E d1 k meth args s t res) (h1 : s < n1) (h2 : m1 ≤ t) (ha : c1.args = args)
      (next : Relays E n1 m1 d1 c1 res n' m' d' c' out') : Relays E n m d c out n' m' d' c' out'

/-- **C155.**  In every execution in which the clocks of the docks give no reading twice, for every chain of calls of any length,
each made by the method called for the one before, with the arguments it received, and returning the result: if the arguments of the
first call and the results of the last method survive the wire, the last method is called, while the first call waits, with the
arguments of the first call as they arrive anywhere, and the first call gets its results as they arrive anywhere.  That is what it
would have got had it called the last feature itself (`C149_within`). -/
theorem C155_relay (hd : ∀ d, ReadingsDiffer E d) {n m d n' m' d' : Nat} {c c' : Dock.Call} {out out' : List Val}
    (h : Relays E n m d c out n' m' d' c' out') (hw : wireOKList c.args = true) (hw' : ReturnsSurvive E n') :
    out = out' ∧ ∃ s d2 k, n < s ∧ s < m ∧ LastAt (C d2) c'.slot k ∧ (∃ f, (C d2)[k]? = some f ∧ f.discoverable = true) ∧
      StartsMethod E s d2 k c'.meth (canonList c.args) ∧
      ((∃ t res, t < m ∧ Executes E d2 k c'.meth (canonList c.args) s t res ∧
          out = if c'.withResult then canonList res else []) ∨
        (T d2 k).invoke c'.meth (canonList c.args) = .unknown ∧ out = []) := by
  suffices hh : (out = out' ∧ ∃ s d2 k, n < s ∧ s < m ∧ LastAt (C d2) c'.slot k ∧ (∃ f, (C d2)[k]? = some f ∧ f.discoverable = true) ∧
      StartsMethod E s d2 k c'.meth (canonList c.args) ∧
      ((∃ t res, t < m ∧ Executes E d2 k c'.meth (canonList c.args) s t res ∧
          out = if c'.withResult then canonList res else []) ∨
        (T d2 k).invoke c'.meth (canonList c.args) = .unknown ∧ out = [])) ∧ wireOKList out = true ∧ canonList out = out from hh.1
  induction h with
  | @last n m d c out h =>
    obtain ⟨s, h1, h2, h3, d2, k, h4, h5, h6, h7⟩ := remote_own hd h hw hw'
    rcases h7 with ⟨-, h7⟩ | ⟨h7, -⟩
    · refine ⟨⟨rfl, s, d2, k, h2, h3, h4, h5, h6, h7⟩, ?_⟩
      rcases h7 with ⟨t, res, x1, x2, x3⟩ | ⟨-, x⟩
      · have := canonList_ready (hw' _ _ _ _ _ _ _ h1 x2)
        simp only at x3
        rw [x3]
        split
        · exact this
        · exact ⟨rfl, rfl⟩
      · simp only at x
        rw [x]; exact ⟨rfl, rfl⟩
    · cases h7
  | @pass n m d c out s t d1 k meth args res n1 m1 c1 n' m' d' c' out' h hr hs hx h1 h2 ha next ih =>
    obtain ⟨q, hb, x1, x2, x3⟩ := executes_begin hx
    obtain ⟨n0, f1, f2, d0, c0, f3, f4⟩ := for_some hb
    obtain rfl := one_for hd hs f1
    obtain ⟨rfl, rfl⟩ := calls_same h.1 f3
    have hst : s ≤ t := Nat.le_of_lt hx.2.1
    have hreq := (request_stays (E := E) hst (begins_new hb).1).2
    obtain ⟨-, ⟨pre, f, post, e1, e2, -⟩, ⟨rfl, -⟩ | ⟨-, -, hargs⟩⟩ := f4 fun _ => hw
    · exact absurd e2 (h.2.1 f (by rw [e1]; simp))
    rw [← hreq, x3] at hargs
    obtain ⟨w1, w2⟩ := canonList_ready hw
    obtain ⟨⟨i1, s', d2, k', i2, i3, i4, i5, i6, i7⟩, i8, i9⟩ := ih (by rw [ha, hargs]; exact w1) hw'
    rw [ha, hargs, w2] at i6 i7
    have own : ReturnsSurvive E n := by
      intro s2 t2 d3 k3 meth3 args3 res3 y1 y2
      obtain rfl := for_one hd hs y1
      obtain ⟨rfl, rfl⟩ := executes_once hx y2
      exact i8
    obtain ⟨s3, j1, j2, j3, d3, k3, j4, j5, j6, j7⟩ := remote_own hd h hw own
    obtain rfl := for_one hd hs j1
    have hout : out = res ∧ t < m := by
      rcases j7 with ⟨-, ⟨t3, res3, y1, y2, y3⟩ | ⟨y1, y2⟩⟩ | ⟨y, -⟩
      · obtain ⟨rfl, rfl⟩ := executes_once hx y2
        simp only [hr, if_true] at y3
        exact ⟨y3.trans i9, y1⟩
      · have := running_known t d1 k q x1
        rw [x2, x3] at this
        obtain ⟨z1, q', r', z2, z3, z4⟩ := hx.1
        obtain ⟨z5, q'', r'', z6, z7, z8⟩ := j6
        rw [z1] at z5
        cases z5
        rw [z2] at z6
        cases z6
        rw [← z7, ← z8, z3, z4] at y1
        exact absurd y1 this
      · cases y
    obtain ⟨rfl, htm⟩ := hout
    refine ⟨⟨i1, s', d2, k', by omega, by omega, i4, i5, i6, ?_⟩, i8, i9⟩
    rcases i7 with ⟨t', res', z1, z2, z3⟩ | z
    · exact Or.inl ⟨t', res', by omega, z2, z3⟩
    · exact Or.inr z

/-! ## An execution -/

/-- Three docks with a feature each.  /repo/dock.go:22-33. -/
def relayC : Nat → List Carried := fun d =>
  if d = 0 then [⟨bytesOf "IBack", 1, true⟩]
  else if d = 1 then [⟨bytesOf "IFront", 2, true⟩]
  else if d = 2 then [⟨bytesOf "IGame", 3, true⟩]
  else []

/-- All of them have a method `Get` that accepts all arguments, /repo/chancall/meta.go:44-62. -/
def relayT : Nat → Nat → Chan.Target := fun _ _ => ⟨fun m => m == bytesOf "Get", fun _ _ => false⟩

/-- The call that dock 2 makes, /repo/slot.go:57-59. -/
def frontCall : Dock.Call := ⟨bytesOf "IFront", bytesOf "Get", [.int .int 0 7], true⟩
/-- The call that the method of dock 1 makes, with the argument as it arrives there, /repo/slot.go:57-59. -/
def backCall : Dock.Call := ⟨bytesOf "IBack", bytesOf "Get", [.int .i8 0 7], true⟩

/-- Dock `d` registers, at connection `e`. -/
def relayJoin (d e : Nat) (name : Str) : List World.Act := List.map lift
  [.join d, .dock d .storeHub, .dock d (.greet e [name]), .deliver (e + 1), .hub (.work (e + 1)), .hub (.work (e + 1)), .deliver e,
   .dock d (.work e []), .dock d (.work e [name]), .deliver (e + 1), .hub (.work (e + 1)), .hub (.work (e + 1))]

/-- Dock `a` asks the hub, at connection `h`, for the dock of the feature of its call, as query `i`, is connected to dock `b` by
connection `e` and sends the request. -/
def relayAsk (a h b e i : Nat) (port : BitVec 64) (mine theirs : Str) (c : Dock.Call) (clock : BitVec 64) (p : Option Nat) : List World.Act :=
  [.dock a (.call c clock p), .dock a (.dock (.store 0)), .dock a (.dock (.setReq 0)), .dock a (.dock (.commit 0))] ++ List.map lift
  [.deliver (h + 1), .hub (.look i), .hub (.examine i), .hub (.respond i), .deliver h, .dial a h b port, .dock a (.work h []),
   .accept (e + 1), .dock b (.greet (e + 1) [theirs]), .deliver e, .dock a (.work e [mine]), .dock a (.work e []), .dock a (.work e []),
   .dock a (.greet e [mine]), .deliver (e + 1), .dock b (.work (e + 1) []), .dock b (.work (e + 1) []), .dock b (.work (e + 1) []),
   .deliver (e + 1), .dock b (.work (e + 1) [theirs]), .dock b (.work (e + 1) []), .dock b (.work (e + 1) []), .deliver e,
   .dock a (.work e []), .dock a (.visit e 0), .dock a (.work e []), .dock a (.work e []), .dock a (.work e []), .dock a (.work e []),
   .deliver (e + 1)]

/-- Dock `b` hands the request to its callee, which starts the method, /repo/dock.go:147-153. -/
def relayServe (b : Nat) : List World.Act :=
  [.dock b (.invoke 0), .dock b (.chan (.push 0)), .dock b (.chan (.start 0))]

/-- The method of dock `b` returns, and the result is sent to dock `a` on connection `e`, /repo/dock.go:156-172. -/
def relayAnswer (a b e : Nat) (res : List Val) : List World.Act :=
  [.dock b (.chan (.ret 0 res)),
   .dock b (.chan (.settleH 0)), .dock b (.chan (.deliverH 0)), .dock b (.chan (.receive 0)), .dock b (.finish 0),
   .dock b (.respond 0), .sys (.deliver e), .dock a (.dock (.callback 0)), .dock a (.dock (.receive 0)), .dock a (.returns 0),
   .dock a (.dock (.delete 0)), .dock b (.chan (.wake 0)), .dock b (.chan (.settleT 0))]

/-- Dock 2 calls the feature of dock 1, which passes the argument on to the feature of dock 0. -/
def relayRest : List World.Act :=
  [.dock 0 (.chan (.setTimeout 0 (bytesOf "Get") 0)), .dock 1 (.chan (.setTimeout 0 (bytesOf "Get") 0))] ++
  relayJoin 0 0 (bytesOf "IBack") ++ relayJoin 1 2 (bytesOf "IFront") ++ relayJoin 2 4 (bytesOf "IGame") ++
  [.dock 0 .start, .dock 0 (.onStart 0 (bytesOf "IBack")), .dock 0 (.onStarted 0), .dock 1 .start, .dock 1 (.onStart 0 (bytesOf "IFront")), .dock 1 (.onStarted 0),
   .dock 2 .start, .dock 2 (.onStart 0 (bytesOf "IGame"))] ++
  relayAsk 2 4 1 6 0 20001 (bytesOf "IGame") (bytesOf "IFront") frontCall 77 none ++ relayServe 1 ++
  relayAsk 1 2 0 8 1 20001 (bytesOf "IFront") (bytesOf "IBack") backCall 88 (some 0) ++ relayServe 0 ++ relayAnswer 1 0 8 [.int .int 0 49] ++
  relayAnswer 2 1 6 [.int .i8 0 49] ++ [.dock 2 (.onStarted 0)]

set_option synthInstance.maxSize 100000 in
set_option synthInstance.maxHeartbeats 2000000 in
/-- A fair execution in which the method that dock 2 calls at dock 1 passes its argument on to the feature of dock 0, and what C155
says of it.  The number 7 arrives as a number of 8 bits, which it stays. -/
example : ∃ E : World.Course relayC relayT sysH sysR [], World.Fair E ∧ (∀ d, ReadingsDiffer E d) ∧
    Relays E 46 142 2 frontCall [.int .i8 0 49] 83 129 1 backCall [.int .i8 0 49] ∧ frontCall.slot ≠ backCall.slot ∧
    wireOKList frontCall.args = true ∧ ReturnsSurvive E 83 ∧
    ∃ s t d k res, 46 < s ∧ s < t ∧ t < 142 ∧ LastAt (relayC d) (bytesOf "IBack") k ∧
      Executes E d k (bytesOf "Get") [.int .i8 0 7] s t res ∧ [.int .i8 0 49] = canonList res := by
  obtain ⟨S, h, hv⟩ := worldWitness (C := relayC) (T := relayT) (H := sysH) (R := sysR) (as := relayRest)
    (f := fun S => (World.quietOn false 3 S, (List.range 3).map fun d => (S.sys.dock d).n)) (b := (true, [0, 1, 1])) (by decide +kernel)
  simp only [Prod.mk.injEq] at hv
  obtain ⟨hq, hn⟩ := hv
  have ht : (relayRest.all fun a => a.tame 3) = true := by decide +kernel
  have hlen : relayRest.length = 147 := by decide +kernel
  obtain ⟨E, F, hd, hD, hact, hst, htail'⟩ := course_of (w := false) h ht hq (by
    intro d hd
    have := congrArg (fun l => l[d]?) hn
    simp only [List.getElem?_map, List.getElem?_range hd, Option.map_some] at this
    match d, hd with
    | 0, _ => have := Option.some.inj this; omega
    | 1, _ => have := Option.some.inj this; omega
    | 2, _ => have := Option.some.inj this; omega)
  have htick : ∀ n, relayRest.length ≤ n → ∃ d, E.act n = some (.dock d (.chan .tick)) := fun n hn => (htail' n hn).2
  have hw' : ∀ t d k res, E.act t = some (.dock d (.chan (.ret k res))) → wireOKList res = true := by
    intro t d k res hr
    exact List.all_eq_true.mp (show ((retsIn relayRest).all fun x => wireOKList x.2) = true by decide +kernel) _ (rets_in hact htick hr)
  have look : ∀ (n : Nat) {β : Type} (f : World.State → β) (b : β), n ≤ 147 →
      (∃ S, run (World.State.step relayC relayT sysH sysR []) (World.State.init relayT) (relayRest.take n) = some S ∧ f S = b) →
      f (E.st n) = b := by
    rintro n β f b hn ⟨S', h1, h2⟩
    rw [hst n (by omega)] at h1
    cases h1
    exact h2
  have c1 : Calls E 46 2 frontCall := ⟨77, none, (hact 46 (by omega)).trans (by rfl)⟩
  have c2 : Calls E 83 1 backCall := ⟨88, some 0, (hact 83 (by omega)).trans (by rfl)⟩
  have g1 : GotRemote E 46 142 2 frontCall ⟨[.int .i8 0 49], []⟩ := ⟨c1, by decide +kernel, by omega, by
    rw [look 46 (fun S => (S.sys.dock 2).n) 0 (by omega) (worldWitness (by decide +kernel))]
    exact phase_got (look 142 (fun S => ((S.sys.dock 2).phase 0).result.map fun r => (r.result, r.err)) _ (by omega)
      (worldWitness (by decide +kernel)))⟩
  have g2 : GotRemote E 83 129 1 backCall ⟨[.int .i8 0 49], []⟩ := ⟨c2, by decide +kernel, by omega, by
    rw [look 83 (fun S => (S.sys.dock 1).n) 0 (by omega) (worldWitness (by decide +kernel))]
    exact phase_got (look 129 (fun S => ((S.sys.dock 1).phase 0).result.map fun r => (r.result, r.err)) _ (by omega)
      (worldWitness (by decide +kernel)))⟩
  have running : ∀ {x : Chan.Handler} {q : Nat}, (match x with | .running i => some i | _ => none) = some q → x = .running q := by
    intro x q hx
    cases x <;> simp at hx
    rw [hx]
  have hr := look 133 (fun S => (match (S.rest 1).chan.handler 0 with | .running i => some i | _ => none, ((S.rest 1).chan.req 0).meth,
      ((S.rest 1).chan.req 0).args)) (some 0, bytesOf "Get", [.int .i8 0 7]) (by omega) (worldWitness (by decide +kernel))
  simp only [Prod.mk.injEq] at hr
  have aret : E.act 133 = some (.dock 1 (.chan (.ret 0 [.int .i8 0 49]))) := (hact 133 (by omega)).trans (by rfl)
  obtain ⟨s, hb, hx⟩ := executes_of aret (running hr.1)
  rw [hr.2.1, hr.2.2] at hx
  have as82 : E.act 82 = some (.dock 1 (.chan (.start 0))) := (hact 82 (by omega)).trans (by rfl)
  have hqueue := look 82 (fun S => (S.rest 1).chan.queue 0) [0] (by omega) (worldWitness (by decide +kernel))
  have b82 : Begins E 82 1 0 := ⟨0, [], as82, hqueue⟩
  have hs : s = 82 := begins_once hb b82
  subst hs
  have at82 := look 82 (fun S => ((S.rest 1).served 0, (S.sys.dock 1).nx, S.sys.owner (other ((S.sys.dock 1).exec 0).peer),
    ((S.sys.dock 1).exec 0).index, (S.sys.dock 2).index 0)) (some 0, 1, some (.dock 2), 77, 77) (by omega)
    (worldWitness (by decide +kernel))
  simp only [Prod.mk.injEq] at at82
  obtain ⟨k1, k2, k3, k4, k5⟩ := at82
  have n46 : ((E.st 46).sys.dock 2).n = 0 := look 46 (fun S => (S.sys.dock 2).n) 0 (by omega) (worldWitness (by decide +kernel))
  have hfor : StartedFor E 46 82 := ⟨2, frontCall, 1, 0, c1, b82, Or.inr ⟨by decide +kernel, 0, k1, by omega, k3,
    by rw [n46, k4, k5], by omega⟩⟩
  have rel : Relays E 46 142 2 frontCall [.int .i8 0 49] 83 129 1 backCall [.int .i8 0 49] :=
    .pass g1 rfl hfor hx (by omega) (by omega) rfl (.last g2)
  have surv : ReturnsSurvive E 83 := fun s t d k meth args res _ hx => hw' t d k res hx.2.2.1
  refine ⟨E, F, hd, rel, by decide +kernel, by decide +kernel, surv, ?_⟩
  obtain ⟨-, s, d, k, h1, h2, h3, -, -, ⟨t, res, h4, h5, h6⟩ | ⟨h4, -⟩⟩ := C155_relay hd rel (by decide +kernel) surv
  · refine ⟨s, t, d, k, res, h1, h5.2.1, h4, h3, ?_, h6⟩
    have : canonList frontCall.args = [.int .i8 0 7] := by decide +kernel
    rw [this] at h5
    exact h5
  · exact absurd (show (relayT 0 0).invoke backCall.meth (canonList frontCall.args) = .unknown from h4) (by decide +kernel)

end Verif.Props
