import Verif.Props.World4

/-!
# C121, positive part: remote calls can return when the waiting comes to an end
-/

namespace Verif.Props

open Verif Verif.Codec Verif.Proto Verif.Dock Verif.System

/-! ## Methods that do not return -/

/-- As long as a method does not return, its callee starts no other. -/
theorem hold_step {T : Nat → Chan.Target} {s t : Chan.State} {a : Chan.Act} {c p : Nat}
    (h : s.step T a = some t) (hr : s.handler c = .running p) (ha : ∀ res, a ≠ .ret c res) : t.handler c = .running p := by
  unfold Chan.State.step at h
  split at h
  · cases h
  cases a with
  | ret c' res =>
    have hne : c ≠ c' := by rintro rfl; exact ha res rfl
    simp only at h
    repeat' split at h
    all_goals cases h
    all_goals simp only [upd_other _ _ hne]
    all_goals exact hr
  | start c' =>
    simp only at h
    repeat' split at h
    all_goals cases h
    all_goals first
      | exact hr
      | (have hne : c ≠ c' := by
          rintro rfl
          rename_i hi _ _
          rw [hr] at hi
          cases hi
         simp only [upd_other _ _ hne]
         exact hr)
  | settleH c' =>
    simp only at h
    repeat' split at h
    all_goals cases h
    all_goals
      have hne : c ≠ c' := by
        rintro rfl
        simp_all
      simp only [upd_other _ _ hne]
      exact hr
  | deliverH c' =>
    simp only at h
    repeat' split at h
    all_goals cases h
    all_goals
      have hne : c ≠ c' := by
        rintro rfl
        simp_all
      simp only [upd_other _ _ hne]
      exact hr
  | _ =>
    simp only at h
    repeat' split at h
    all_goals cases h
    all_goals exact hr

theorem goes_hold {T : Nat → Chan.Target} {B : Nat → Prop} {s t : Chan.State} (g : Goes T B s t) (F : Fine T B s) {c p : Nat}
    (hr : s.handler c = .running p) (hB : B p) :
    t.handler c = .running p ∧ ∀ q, (s.req q).callee = c → s.startedAt q = none → t.startedAt q = none := by
  induction g with
  | refl s => exact ⟨hr, fun _ _ h => h⟩
  | @step s u t a ha hs _ ih =>
    have hu := hold_step hs hr fun res e => ha.2 c res p e hr hB
    obtain ⟨h1, h2⟩ := ih (fine_step F ha hs) hu
    obtain ⟨k1, k2, -⟩ := keeps_step ha.1 hs
    refine ⟨h1, fun q hq h0 => h2 q (by rw [k2]; exact hq) ?_⟩
    refine Classical.byContradiction fun hne => ?_
    have := started_step F.inv.ans hs q h0 hne
    rw [k2, hq, hr] at this
    cases this

/-- The result of a method that does not return stays as it is. -/
theorem goes_ret {T : Nat → Chan.Target} {B : Nat → Prop} {s t : Chan.State} (g : Goes T B s t) (F : Fine T B s) {q : Nat}
    (hB : B q) : t.ret q = s.ret q := by
  induction g with
  | refl s => rfl
  | @step s u t a ha hs _ ih =>
    rw [ih (fine_step F ha hs)]
    have hst := F.begun q hB
    unfold Chan.State.step at hs
    split at hs
    · cases hs
    cases a with
    | ret c res =>
      simp only at hs
      split at hs
      · rename_i i hi
        have hne : q ≠ i := by rintro rfl; exact ha.2 c res q rfl hi hB
        split at hs
        · cases hs
          exact upd_other _ _ hne
        · cases hs
      · cases hs
    | start c =>
      simp only at hs
      split at hs
      · rename_i i rest hi hq
        have hm := F.inv.ans.inQueue c i (by rw [hq]; exact List.mem_cons_self ..)
        have hne : q ≠ i := by
          rintro rfl
          exact hst ((F.tim.iff q).mp hm.2.2.1)
        split at hs
        all_goals cases hs
        all_goals first
          | rfl
          | exact upd_other _ _ hne
      · cases hs
    | _ =>
      simp only at hs
      repeat' split at hs
      all_goals cases hs
      all_goals rfl

section
variable {C : Nat → List Carried} {T : Nat → Nat → Chan.Target} {H R : Nat → Str} {black : List Int}

theorem Frame.distinct {S S' : World.State} (fr : Frame C T S S') (hD : Distinct S) : Distinct S' := by
  intro d i j hi hj e
  have n1 : (S'.sys.dock d).n = (S.sys.dock d).n := (fr.part d).n
  have i1 : (S'.sys.dock d).index = (S.sys.dock d).index := (fr.part d).index
  rw [n1] at hi hj
  rw [i1] at e
  exact hD d i j hi hj e

theorem Frame.pends {S S' : World.State} (fr : Frame C T S S') {d i d' k : Nat} (P : Pends S d i d' k)
    (hw : (S'.sys.dock d).phase i = .waiting) (ho : ((S'.sys.dock d').exec k).phase ≠ .over) : Pends S' d i d' k := by
  have n1 : (S'.sys.dock d).n = (S.sys.dock d).n := (fr.part d).n
  have i1 : (S'.sys.dock d).index = (S.sys.dock d).index := (fr.part d).index
  have h1 : (S'.sys.dock d).handler = (S.sys.dock d).handler := (fr.part d).handler
  have x1 : (S'.sys.dock d').nx = (S.sys.dock d').nx := (fr.part d').nx
  have e1 : ((S'.sys.dock d').exec k).peer = ((S.sys.dock d').exec k).peer := ((fr.part d').exec k).1
  have e2 : ((S'.sys.dock d').exec k).index = ((S.sys.dock d').exec k).index := ((fr.part d').exec k).2.1
  refine ⟨fr.alive P.alive, fr.alive P.alive', by rw [n1]; exact P.lt, hw, by rw [x1]; exact P.lt', ?_, ?_, ho, ?_, ?_⟩
  · rw [fr.owner, e1]; exact P.owner
  · rw [i1, e2]; exact P.index
  · rw [h1, e1]; exact P.idle
  · rw [fr.queue, e1]; exact P.queue

theorem Frame.canSend {S S' : World.State} (fr : Frame C T S S') {d' k : Nat} {r : Ret} (h : CanSend S d' k r) : CanSend S' d' k r := by
  have e2 : ((S'.sys.dock d').exec k).index = ((S.sys.dock d').exec k).index := ((fr.part d').exec k).2.1
  have e3 : ((S'.sys.dock d').exec k).call = ((S.sys.dock d').exec k).call := ((fr.part d').exec k).2.2
  unfold CanSend at h ⊢
  simp only at h ⊢
  rw [e2, e3]
  exact h

/-- The state is sound, and arguments suit their methods. -/
structure Sound (C : Nat → List Carried) (T : Nat → Nat → Chan.Target) (H R : Nat → Str) (black : List Int) (S : World.State) :
    Prop where
  reach : Reach C T H R black S
  distinct : Distinct S
  apt : ∀ d, Apt (C d) (T d) (S.at d)

theorem Advances.sound {S S' : World.State} (m : Advances C T H R black S S') (h : Sound C T H R black S) : Sound C T H R black S' := by
  obtain ⟨as, a1, a2, fr⟩ := id m
  exact ⟨m.reach h.reach, fr.distinct h.distinct, fun d => (fr.part d).apt (h.apt d)⟩

theorem Advances.frame {S S' : World.State} (m : Advances C T H R black S S') : Frame C T S S' := m.choose_spec.2.2

theorem Sound.fine {S : World.State} (h : Sound C T H R black S) {d : Nat} (hA : Alive S d) {B : Nat → Prop}
    (hB : ∀ i, B i → (S.at d).chan.startedAt i ≠ none) : Fine (T d) B (S.at d).chan := by
  obtain ⟨-, A, Ti, -, -⟩ := h.reach.facts d
  exact ⟨A, Ti, hA.2.2, (h.apt d).1, hB⟩

theorem Sound.abroad {S : World.State} (h : Sound C T H R black S) {d i : Nat} (hi : Abroad (S.at d) i) :
    (S.at d).chan.startedAt i ≠ none := by
  obtain ⟨-, A, Ti, Bl, -⟩ := h.reach.facts d
  intro e
  cases hx : (S.at d).blocked i with
  | none => exact hi hx
  | some x =>
    have := (Bl i x hx).1
    exact (A.ans.inHandler _ i (by rw [this]; rfl)).2.2 ((Ti.iff i).mpr e)

/-- Once the call made for a request has a result, the remote call can return. -/
theorem complete_result {S : World.State} (h : Sound C T H R black S) {d i d' k q j : Nat} {a : Chan.Ans} (P : Pends S d i d' k)
    (hs : (S.rest d').served k = some q) (hr : (S.rest d').chan.result q = some (j, a))
    (hf : CanSend S d' k (Whole.retOf ((S.sys.dock d').exec k).call.meth a)) :
    ∃ S' r, Advances C T H R black S S' ∧ (S'.sys.dock d).phase i = .returned r ∧ (S'.rest d).chan = (S.rest d).chan ∧
      ∀ p, (S'.rest d).blocked p = if (S.rest d).blocked p = some i then none else (S.rest d).blocked p := by
  obtain ⟨-, A, -, -, W⟩ := h.reach.facts d'
  have hne := (P.facts h.reach h.distinct).1
  cases hph : ((S.sys.dock d').exec k).phase with
  | spawned => exact absurd hph (W.served k q hs).2.2.2.2
  | over => exact absurd hph P.over
  | returned r =>
    obtain ⟨q2, j2, a2, w1, w2, w3⟩ := W.outcome k r (W.returned k r hph)
    have hs' : (S.at d').served k = some q := hs
    rw [hs'] at w1
    cases w1
    have hr' : (S.at d').chan.result q = some (j, a) := hr
    rw [hr'] at w2
    cases w2
    have w3' : r = Whole.retOf ((S.sys.dock d').exec k).call.meth a := w3
    obtain ⟨S', r', m, m1, m2, m3⟩ := reply_op h.reach h.distinct P hph (by rw [w3']; exact hf)
    exact ⟨S', r', m, m1, m2 d, fun p => by rw [m3 d p]; simp⟩
  | running =>
    obtain ⟨S1, n0, n1, n2, n3, n4⟩ := finish_op h.reach P.alive' hph hs hr
    have e1 : S1.at d = S.at d := n4 d hne
    have P1 : Pends S1 d i d' k := n0.frame.pends P
      (by show (S1.at d).dock.phase i = _; rw [e1]; exact P.waiting) (by rw [n1]; simp)
    have h1 := n0.sound h
    obtain ⟨S', r', m, m1, m2, m3⟩ := reply_op h1.reach h1.distinct P1 n1 (n0.frame.canSend hf)
    refine ⟨S', r', n0.trans m, m1, ?_, ?_⟩
    · rw [m2 d]; show (S1.at d).chan = (S.at d).chan; rw [e1]
    · intro p
      have : (S1.rest d).blocked = (S.rest d).blocked := by show (S1.at d).blocked = (S.at d).blocked; rw [e1]
      rw [m3 d p, this]
      simp

/-- A request whose method has not been started, on a free callee. -/
theorem complete_free {S : World.State} (h : Sound C T H R black S) {d i d' k c : Nat} (P : Pends S d i d' k)
    (hc : Whole.calleeOf (C d') ((S.sys.dock d').exec k).call.slot = some c)
    (hu : ∀ q, (S.rest d').served k = some q → (S.rest d').chan.startedAt q = none)
    (hfree : Free (Abroad (S.at d')) (S.at d').chan c) (hf : CanSend S d' k ⟨[], []⟩) :
    ∃ S' r, Advances C T H R black S S' ∧ (S'.sys.dock d).phase i = .returned r ∧ (S'.rest d).chan = (S.rest d).chan ∧
      ∀ p, (S'.rest d).blocked p = if (S.rest d).blocked p = some i then none else (S.rest d).blocked p := by
  have hne := (P.facts h.reach h.distinct).1
  -- with the request in the hands of the callee
  have main : ∀ S : World.State, Sound C T H R black S → Pends S d i d' k → ∀ q, (S.rest d').served k = some q →
      q < (S.at d').chan.n → ((S.at d').chan.req q).callee = c → (S.at d').chan.startedAt q = none →
      Free (Abroad (S.at d')) (S.at d').chan c → CanSend S d' k ⟨[], []⟩ →
      ∃ S' r, Advances C T H R black S S' ∧ (S'.sys.dock d).phase i = .returned r ∧ (S'.rest d).chan = (S.rest d).chan ∧
        ∀ p, (S'.rest d).blocked p = if (S.rest d).blocked p = some i then none else (S.rest d).blocked p := by
    intro S h P q hs hq hcq h0 hfree hf
    have F := h.fine (B := Abroad (S.at d')) P.alive' fun i hi => h.abroad hi
    obtain ⟨e, g, he⟩ := serve_call F hq (by rw [hcq]; exact hfree) h0 []
    obtain ⟨S1, m, m1, m2⟩ := move_goes h.reach P.alive' (fun _ h => h) F g
    have e1 : S1.at d = S.at d := m2 d hne
    have ed : (S1.sys.dock d') = S.sys.dock d' := by
      show (S1.at d').dock = (S.at d').dock; rw [m1]
    have P1 : Pends S1 d i d' k := m.frame.pends P
      (by show (S1.at d).dock.phase i = _; rw [e1]; exact P.waiting) (by rw [ed]; exact P.over)
    obtain ⟨S', r', n0, n1, n2, n3⟩ := complete_result (m.sound h) P1 (q := q) (by
        show (S1.at d').served k = some q; rw [m1]; exact hs) (by
        show (S1.at d').chan.result q = _; rw [m1]; exact he) (by
        have : ∀ meth (x : Bool), Whole.retOf meth (.ok (if x = true then some [] else none)) = ⟨[], []⟩ := by
          intro meth x; cases x <;> rfl
        rw [this]
        exact m.frame.canSend hf)
    refine ⟨S', r', m.trans n0, n1, ?_, ?_⟩
    · rw [n2]; show (S1.at d).chan = (S.at d).chan; rw [e1]
    · intro p
      have : (S1.rest d).blocked = (S.rest d).blocked := by show (S1.at d).blocked = (S.at d).blocked; rw [e1]
      rw [n3 p, this]
  obtain ⟨-, A, Ti, -, W⟩ := h.reach.facts d'
  cases hph : ((S.sys.dock d').exec k).phase with
  | spawned =>
    obtain ⟨S1, m, i1, i2, i3, i4, i5, i6, i7, i8, i9⟩ := invoke_op h.reach P.alive' P.lt' hph hc (h.apt d')
    have e1 : S1.at d = S.at d := i9 d hne
    have P1 : Pends S1 d i d' k := m.frame.pends P
      (by show (S1.at d).dock.phase i = _; rw [e1]; exact P.waiting) (by rw [i1]; simp)
    obtain ⟨S', r', n0, n1, n2, n3⟩ := main S1 (m.sound h) P1 _ i2 i3 i4 i5 (by
      intro p hp
      have hp' : (S.at d').chan.handler c = .running p := by
        have : (S1.rest d').chan.handler c = .running p := hp
        rw [i6] at this; exact this
      obtain ⟨f1, f2⟩ := hfree p hp'
      refine ⟨?_, ?_⟩
      · show (S1.rest d').chan.waits p = none
        rw [i7]; exact f1
      · show ¬ ((S1.rest d').blocked p ≠ none)
        rw [i8]; exact f2) (m.frame.canSend hf)
    refine ⟨S', r', m.trans n0, n1, ?_, ?_⟩
    · rw [n2]; show (S1.at d).chan = (S.at d).chan; rw [e1]
    · intro p
      have : (S1.rest d).blocked = (S.rest d).blocked := by show (S1.at d).blocked = (S.at d).blocked; rw [e1]
      rw [n3 p, this]
  | over => exact absurd hph P.over
  | _ =>
    cases hs : (S.rest d').served k with
    | none => exact absurd hs (W.invoked k P.lt' (by show ((S.sys.dock d').exec k).phase ≠ _; rw [hph]; simp))
    | some q =>
      obtain ⟨w1, w2, -⟩ := W.served k q hs
      have hcq : ((S.at d').chan.req q).callee = c := by
        have w2' : Whole.calleeOf (C d') ((S.sys.dock d').exec k).call.slot = some ((S.at d').chan.req q).callee := w2
        rw [hc] at w2'
        cases w2'
        rfl
      exact main S h P q hs w1 hcq (hu q hs) hfree hf

/-- A request whose method has been started. -/
theorem complete_started {S : World.State} (h : Sound C T H R black S) {d i d' k q : Nat} (P : Pends S d i d' k)
    (hs : (S.rest d').served k = some q) (h0 : (S.rest d').chan.startedAt q ≠ none)
    (ht : CanSend S d' k (Whole.retOf ((S.sys.dock d').exec k).call.meth .timeout))
    (hr : ∀ v, (S.rest d').chan.ret q = some v → CanSend S d' k (Whole.retOf ((S.sys.dock d').exec k).call.meth (.ok v))) :
    ∃ S' r, Advances C T H R black S S' ∧ (S'.sys.dock d).phase i = .returned r ∧ (S'.rest d).chan = (S.rest d).chan ∧
      ∀ p, (S'.rest d).blocked p = if (S.rest d).blocked p = some i then none else (S.rest d).blocked p := by
  have hne := (P.facts h.reach h.distinct).1
  have F := h.fine (B := fun i => (S.at d').chan.startedAt i ≠ none) P.alive' fun i hi => hi
  obtain ⟨e, g, he⟩ := finish_call F (i := q) h0
  obtain ⟨S1, m, m1, m2⟩ := move_goes h.reach P.alive' (fun _ hi => h.abroad hi) F g
  have e1 : S1.at d = S.at d := m2 d hne
  have ed : (S1.sys.dock d') = S.sys.dock d' := by
    show (S1.at d').dock = (S.at d').dock; rw [m1]
  have P1 : Pends S1 d i d' k := m.frame.pends P
    (by show (S1.at d).dock.phase i = _; rw [e1]; exact P.waiting) (by rw [ed]; exact P.over)
  cases hres : e.result q with
  | none => exact absurd hres he
  | some x =>
    obtain ⟨j, a⟩ := x
    have Fe := g.fine F
    have hj := Fe.inv.own.own q j a hres
    have send : CanSend S d' k (Whole.retOf ((S.sys.dock d').exec k).call.meth a) := by
      cases a with
      | timeout => exact ht
      | ok v =>
        refine hr v ?_
        subst hj
        obtain ⟨t, tm⟩ := Fe.inv.recd.result _ _ _ hres
        show (S.at d').chan.ret j = some v
        rw [← goes_ret g F (q := j) h0]
        exact Fe.inv.recd.retOK _ _ _ tm
    obtain ⟨S', r', n0, n1, n2, n3⟩ := complete_result (m.sound h) P1 (q := q) (by
        show (S1.at d').served k = some q; rw [m1]; exact hs) (by
        show (S1.at d').chan.result q = _; rw [m1]; exact hres) (by
        rw [ed]
        exact m.frame.canSend send)
    refine ⟨S', r', m.trans n0, n1, ?_, ?_⟩
    · rw [n2]; show (S1.at d).chan = (S.at d).chan; rw [e1]
    · intro p
      have : (S1.rest d).blocked = (S.rest d).blocked := by show (S1.at d).blocked = (S.at d).blocked; rw [e1]
      rw [n3 p, this]

/-- Call `i` of dock `d` waits for dock `d'` to answer request `k`; nothing is happening on the connection; and the
packets that may carry the answer — one with no results, one for a timeout, or one with the result the method has — fit
into the receiver's buffer. -/
structure Way (S : World.State) (d i d' k : Nat) : Prop extends Pends S d i d' k where
  sendNone : CanSend S d' k ⟨[], []⟩
  sendTimeout : CanSend S d' k (Whole.retOf ((S.sys.dock d').exec k).call.meth .timeout)
  sendResult : ∀ q v, (S.rest d').served k = some q → (S.rest d').chan.ret q = some v →
    CanSend S d' k (Whole.retOf ((S.sys.dock d').exec k).call.meth (.ok v))

/-- The chain of waiting that begins at feature `c` of dock `d` ends: it does not go round in circles, and every remote
call on it is under way to a dock that is alive. -/
inductive Ending (C : Nat → List Carried) (S : World.State) : Nat → Nat → Prop where
  | intro (d c : Nat) :
    (∀ p i, (S.rest d).chan.handler c = .running p → (S.rest d).blocked p = some i → ∃ d' k, Way S d i d' k) →
    (∀ d' c', Waits C S d c d' c' → Ending C S d' c') → Ending C S d c

/-- A result is of a request whose method has been started. -/
theorem result_started {s : Chan.State} (A : AllInv s) (Ti : TimerInv s) {q : Nat} (h : s.startedAt q = none) : s.result q = none := by
  cases e : s.result q with
  | none => rfl
  | some x =>
    obtain ⟨j, a⟩ := x
    have hj := A.own.own q j a e
    subst hj
    have h1 := (A.ans.result _ _ _ e).1
    have h2 := (A.ans.unstarted _ ((Ti.iff _).mpr h)).1
    rw [h1] at h2
    cases h2

theorem freed_world {S : World.State} (h : Sound C T H R black S) {d c : Nat} (he : Ending C S d c) (hA : Alive S d) :
    ∃ S', Advances C T H R black S S' ∧ Free (Abroad (S'.at d)) (S'.at d).chan c ∧
      ∀ q, ((S'.at d).chan.req q).callee = c → (S.at d).chan.startedAt q = none → (S'.at d).chan.startedAt q = none := by
  induction he with
  | intro d c hb _ ih =>
    obtain ⟨-, A, Ti, Bl, W⟩ := h.reach.facts d
    by_cases hf : Free (Abroad (S.at d)) (S.at d).chan c
    · exact ⟨S, Advances.refl h.reach, hf, fun _ _ e => e⟩
    have : ∃ p, (S.at d).chan.handler c = .running p ∧ ((S.at d).chan.waits p ≠ none ∨ (S.at d).blocked p ≠ none) := by
      refine Classical.byContradiction fun hno => hf fun p hp => ?_
      constructor
      · exact Classical.byContradiction fun e => hno ⟨p, hp, .inl e⟩
      · exact fun e => hno ⟨p, hp, .inr e⟩
    obtain ⟨p, hp, hor⟩ := this
    have hpc : ((S.at d).chan.req p).callee = c := (A.ans.inHandler c p (by rw [hp]; rfl)).1
    have hpst : (S.at d).chan.startedAt p ≠ none := fun e =>
      (A.ans.inHandler c p (by rw [hp]; rfl)).2.2 ((Ti.iff p).mpr e)
    have hpn : p < (S.at d).chan.n :=
      Nat.lt_of_not_le fun hge => hpst (A.ans.fresh p hge).2.2.2.2.2.1
    cases hbl : (S.at d).blocked p with
    | none =>
      -- the method waits for another feature of its dock
      obtain ⟨q, hq⟩ : ∃ q, (S.at d).chan.waits p = some q := by
        rcases hor with e | e
        · exact Option.ne_none_iff_exists'.mp e
        · exact absurd hbl e
      obtain ⟨q1, q2, q3⟩ := A.live.waits q p hq
      -- what is left once the call is over
      have fin : ∀ (S1 : World.State) (B : Nat → Prop) (e : Chan.State), Advances C T H R black S S1 → (∀ i, Abroad (S1.at d) i → B i) →
          B p → Fine (T d) B (S1.at d).chan → Goes (T d) B (S1.at d).chan e → (S1.at d).chan.waits p = some q → e.result q ≠ none →
          ∃ S', Advances C T H R black S S' ∧ Free (Abroad (S'.at d)) (S'.at d).chan c ∧
            ∀ q, ((S'.at d).chan.req q).callee = c → (S.at d).chan.startedAt q = none → (S'.at d).chan.startedAt q = none := by
        intro S1 B e m hB hBp F g hw hr
        have h1 := m.sound h
        have pt := m.frame.part d
        obtain ⟨-, A1, Ti1, Bl1, -⟩ := h1.reach.facts d
        have hp1 : (S1.at d).chan.handler c = .running p := by
          have := A1.live.waiting q p hw
          rw [pt.req p hpn, hpc] at this
          exact this
        obtain ⟨k1, k2⟩ := goes_hold g F hp1 hBp
        obtain ⟨S2, m2, e1, e2⟩ := move_goes h1.reach (m.frame.alive hA) hB F g
        refine ⟨S2, m.trans m2, ?_, ?_⟩
        · intro p' hp'
          rw [e1] at hp'
          have : p' = p := by
            have hp'' : e.handler c = .running p' := hp'
            rw [k1] at hp''
            cases hp''
            rfl
          subst this
          constructor
          · rw [e1]
            show e.waits p' = none
            cases ew : e.waits p' with
            | none => rfl
            | some q' =>
              exfalso
              have := g.keeps.2.2.1 p' q' ew
              rw [hw] at this
              cases this
              exact hr ((g.fine F).inv.live.waits _ _ ew).2.2
          · intro hab
            apply hab
            rw [e1]
            show (S1.at d).blocked p' = none
            cases eb : (S1.at d).blocked p' with
            | none => rfl
            | some x =>
              have := pt.blocked p' x eb
              rw [hbl] at this
              cases this
        · intro q' hc' h0
          rw [e1] at hc' ⊢
          have hc1 : ((S1.at d).chan.req q').callee = c := by
            have hc2 : (e.req q').callee = c := hc'
            rw [g.keeps.2.1] at hc2
            exact hc2
          exact k2 q' hc1 (pt.hold p q' hpn (.inl (by rw [hw]; simp)) (by rw [hc1, hpc]) h0)
      by_cases h0 : (S.at d).chan.startedAt q = none
      · obtain ⟨S1, m, f1, u1⟩ := ih d ((S.at d).chan.req q).callee ⟨p, hp, .inl ⟨rfl, q, hq, h0, rfl⟩⟩ hA
        have h1 := m.sound h
        have pt := m.frame.part d
        obtain ⟨-, A1, Ti1, Bl1, -⟩ := h1.reach.facts d
        have hqr : (S1.at d).chan.req q = (S.at d).chan.req q := pt.req q q1
        have hqn : q < (S1.at d).chan.n := Nat.lt_of_lt_of_le q1 pt.cn
        have hq0 : (S1.at d).chan.startedAt q = none := u1 q (by rw [hqr]) h0
        have hw : (S1.at d).chan.waits p = some q :=
          A1.live.child q p hqn (by rw [hqr]; exact q2) (result_started A1 Ti1 hq0)
        have hp1 : (S1.at d).chan.startedAt p ≠ none := by
          have := A1.live.waiting q p hw
          exact fun e => (A1.ans.inHandler _ p (by rw [this]; rfl)).2.2 ((Ti1.iff p).mpr e)
        have F : Fine (T d) (fun i => Abroad (S1.at d) i ∨ i = p) (S1.at d).chan := h1.fine (m.frame.alive hA) (by
          rintro i (hi | rfl)
          · exact h1.abroad hi
          · exact hp1)
        obtain ⟨e, g, hr⟩ := serve_call F hqn (by
          rw [hqr]
          intro x hx
          obtain ⟨y1, y2⟩ := f1 x hx
          refine ⟨y1, ?_⟩
          rintro (hi | rfl)
          · exact y2 hi
          · rw [hw] at y1; cases y1) hq0 []
        exact fin S1 _ e m (fun _ hi => .inl hi) (.inr rfl) F g hw (by rw [hr]; simp)
      · have F : Fine (T d) (fun i => (S.at d).chan.startedAt i ≠ none) (S.at d).chan := h.fine hA fun i hi => hi
        obtain ⟨e, g, hr⟩ := finish_call F h0
        exact fin S _ e (Advances.refl h.reach) (fun _ hi => h.abroad hi) hpst F g hq hr
    | some i =>
      -- the method waits for a remote call
      obtain ⟨d', k, P⟩ := hb p i hp hbl
      obtain ⟨-, A', Ti', -, W'⟩ := h.reach.facts d'
      -- what is left once the call has returned
      have fin : ∀ (S1 S5 : World.State), Advances C T H R black S S1 → Advances C T H R black S1 S5 → (S1.at d).blocked p = some i →
          (S5.rest d).chan = (S1.rest d).chan →
          (∀ p, (S5.rest d).blocked p = if (S1.rest d).blocked p = some i then none else (S1.rest d).blocked p) →
          ∃ S', Advances C T H R black S S' ∧ Free (Abroad (S'.at d)) (S'.at d).chan c ∧
            ∀ q, ((S'.at d).chan.req q).callee = c → (S.at d).chan.startedAt q = none → (S'.at d).chan.startedAt q = none := by
        intro S1 S5 m m5 hb1 e5 b5
        have h1 := m.sound h
        have pt := m.frame.part d
        obtain ⟨-, A1, Ti1, Bl1, -⟩ := h1.reach.facts d
        obtain ⟨x1, x2, -⟩ := Bl1 p i hb1
        rw [pt.req p hpn, hpc] at x1
        have e5' : (S5.at d).chan = (S1.at d).chan := e5
        refine ⟨S5, m.trans m5, ?_, ?_⟩
        · intro p' hp'
          rw [e5', x1] at hp'
          cases hp'
          constructor
          · rw [e5']; exact x2
          · intro hab
            apply hab
            show (S5.rest d).blocked p = none
            rw [b5]
            have : (S1.rest d).blocked p = some i := hb1
            simp [this]
        · intro q hc h0
          rw [e5'] at hc ⊢
          exact pt.hold p q hpn (.inr (by rw [hb1]; simp)) (by rw [hc, hpc]) h0
      by_cases hu : ∀ q, (S.rest d').served k = some q → (S.rest d').chan.startedAt q = none
      · obtain ⟨c', hc'⟩ : ∃ c', Whole.calleeOf (C d') ((S.sys.dock d').exec k).call.slot = some c' := by
          cases e : Whole.calleeOf (C d') ((S.sys.dock d').exec k).call.slot with
          | none => exact absurd (Whole.calleeOf_none.mp e) (W'.slot k P.lt')
          | some c' => exact ⟨c', rfl⟩
        obtain ⟨S1, m, f1, u1⟩ := ih d' c' ⟨p, hp, .inr ⟨i, k, hbl, P.lt, P.lt', P.owner, P.index.symm, calleeOf_last hc', hu⟩⟩ P.alive'
        have h1 := m.sound h
        have pt := m.frame.part d'
        have fr := m.frame
        obtain ⟨-, A1, Ti1, Bl1, W1⟩ := h1.reach.facts d'
        have x1 : (S1.sys.dock d').nx = (S.sys.dock d').nx := pt.nx
        have n1 : (S1.sys.dock d).index = (S.sys.dock d).index := (fr.part d).index
        have y1 : ((S1.sys.dock d').exec k).peer = ((S.sys.dock d').exec k).peer := (pt.exec k).1
        have y2 : ((S1.sys.dock d').exec k).index = ((S.sys.dock d').exec k).index := (pt.exec k).2.1
        have y3 : ((S1.sys.dock d').exec k).call = ((S.sys.dock d').exec k).call := (pt.exec k).2.2
        have hc1 : Whole.calleeOf (C d') ((S1.sys.dock d').exec k).call.slot = some c' := by rw [y3]; exact hc'
        have hu1 : ∀ q, (S1.rest d').served k = some q → (S1.rest d').chan.startedAt q = none := by
          intro q hq
          have hcq : ((S1.at d').chan.req q).callee = c' := by
            have := (W1.served k q hq).2.1
            have this' : Whole.calleeOf (C d') ((S1.sys.dock d').exec k).call.slot = some ((S1.at d').chan.req q).callee := this
            rw [hc1] at this'
            cases this'
            rfl
          refine u1 q hcq ?_
          rcases pt.invoked k q hq with e | e
          · exact hu q e
          · exact (A'.ans.fresh q e).2.2.2.2.2.1
        obtain ⟨as, has⟩ := id h1.reach
        have nr := no_result has h1.distinct (d := d) (i := i) (d' := d') (k := k) (by rw [x1]; exact P.lt')
          (by rw [fr.owner, y1]; exact P.owner) (by rw [y2, n1]; exact P.index.symm) hu1
        have hw1 : (S1.sys.dock d).phase i = .waiting := by
          rcases (fr.part d).phase i with e | ⟨r, e⟩
          · exact Eq.trans e P.waiting
          · exact absurd e (nr r).2
        have ho1 : ((S1.sys.dock d').exec k).phase ≠ .over := by
          intro e
          obtain ⟨r, hr⟩ := fr.over d' k P.over e d i P.owner P.lt P.index
          exact (nr r).2 hr
        have hb1 : (S1.at d).blocked p = some i := by
          rcases (fr.part d).unblocked p i hbl with e | ⟨r, e⟩
          · exact e
          · exact absurd e (nr r).2
        obtain ⟨S5, r, m5, -, e5, b5⟩ := complete_free h1 (fr.pends P.toPends hw1 ho1) hc1 hu1 f1 (fr.canSend P.sendNone)
        exact fin S1 S5 m m5 hb1 e5 b5
      · have : ∃ q, (S.rest d').served k = some q ∧ (S.rest d').chan.startedAt q ≠ none := by
          refine Classical.byContradiction fun hno => hu fun q hq => ?_
          exact Classical.byContradiction fun e => hno ⟨q, hq, e⟩
        obtain ⟨q, hq, h0⟩ := this
        obtain ⟨S5, r, m5, -, e5, b5⟩ := complete_started h P.toPends hq h0 P.sendTimeout (fun v hv => P.sendResult q v hq hv)
        exact fin S S5 (Advances.refl h.reach) m5 hbl e5 b5

/-- The direction of C121 that calls can return, for connections on which nothing is happening: let call `i` of dock `d` wait for
dock `d'` to answer request `k`, with both processes alive.  If the method has been started, or if the chain of waiting that
begins at the feature it belongs to comes to an end, then the call can return, without any application making a further
call. -/
theorem idle_returns (C : Nat → List Carried) (T : Nat → Nat → Chan.Target) (H R : Nat → Str) (black : List Int)
    (as : List World.Act) (S : World.State) (h : run (World.State.step C T H R black) (World.State.init T) as = some S)
    (hd : Distinct S) (ha : ∀ d, Apt (C d) (T d) (S.at d)) (d i d' k : Nat) (P : Way S d i d' k)
    (he : (∃ q, (S.rest d').served k = some q ∧ (S.rest d').chan.startedAt q ≠ none) ∨
      ∀ c, LastAt (C d') ((S.sys.dock d').exec k).call.slot c → Ending C S d' c) :
    ∃ more S' r, (∀ a ∈ more, benign a = true) ∧ run (World.State.step C T H R black) S more = some S' ∧ Distinct S' ∧
      (S'.sys.dock d).phase i = .returned r := by
  have hS : Sound C T H R black S := ⟨⟨as, h⟩, hd, ha⟩
  obtain ⟨-, A', Ti', -, W'⟩ := hS.reach.facts d'
  have fin : ∀ S', Advances C T H R black S S' → (∃ r, (S'.sys.dock d).phase i = .returned r) →
      ∃ more S' r, (∀ a ∈ more, benign a = true) ∧ run (World.State.step C T H R black) S more = some S' ∧ Distinct S' ∧
        (S'.sys.dock d).phase i = .returned r := by
    rintro S' m ⟨r, hr⟩
    have hd' := (m.sound hS).distinct
    obtain ⟨more, h1, h2, -⟩ := m
    exact ⟨more, S', r, h1, h2, hd', hr⟩
  by_cases hu : ∀ q, (S.rest d').served k = some q → (S.rest d').chan.startedAt q = none
  · have he : ∀ c, LastAt (C d') ((S.sys.dock d').exec k).call.slot c → Ending C S d' c := by
      rcases he with ⟨q, h1, h2⟩ | he
      · exact absurd (hu q h1) h2
      · exact he
    obtain ⟨c', hc'⟩ : ∃ c', Whole.calleeOf (C d') ((S.sys.dock d').exec k).call.slot = some c' := by
      cases e : Whole.calleeOf (C d') ((S.sys.dock d').exec k).call.slot with
      | none => exact absurd (Whole.calleeOf_none.mp e) (W'.slot k P.lt')
      | some c' => exact ⟨c', rfl⟩
    obtain ⟨S1, m, f1, u1⟩ := freed_world hS (he c' (calleeOf_last hc')) P.alive'
    have h1 := m.sound hS
    have fr := m.frame
    have pt := fr.part d'
    obtain ⟨-, A1, Ti1, Bl1, W1⟩ := h1.reach.facts d'
    have x1 : (S1.sys.dock d').nx = (S.sys.dock d').nx := pt.nx
    have n1 : (S1.sys.dock d).index = (S.sys.dock d).index := (fr.part d).index
    have y1 : ((S1.sys.dock d').exec k).peer = ((S.sys.dock d').exec k).peer := (pt.exec k).1
    have y2 : ((S1.sys.dock d').exec k).index = ((S.sys.dock d').exec k).index := (pt.exec k).2.1
    have y3 : ((S1.sys.dock d').exec k).call = ((S.sys.dock d').exec k).call := (pt.exec k).2.2
    have hc1 : Whole.calleeOf (C d') ((S1.sys.dock d').exec k).call.slot = some c' := by rw [y3]; exact hc'
    have hu1 : ∀ q, (S1.rest d').served k = some q → (S1.rest d').chan.startedAt q = none := by
      intro q hq
      have hcq : ((S1.at d').chan.req q).callee = c' := by
        have this : Whole.calleeOf (C d') ((S1.sys.dock d').exec k).call.slot = some ((S1.at d').chan.req q).callee :=
          (W1.served k q hq).2.1
        rw [hc1] at this
        cases this
        rfl
      refine u1 q hcq ?_
      rcases pt.invoked k q hq with e | e
      · exact hu q e
      · exact (A'.ans.fresh q e).2.2.2.2.2.1
    by_cases hret : ∃ r, (S1.sys.dock d).phase i = .returned r
    · exact fin S1 m hret
    have hw1 : (S1.sys.dock d).phase i = .waiting := by
      rcases (fr.part d).phase i with e | e
      · exact Eq.trans e P.waiting
      · exact absurd e hret
    have ho1 : ((S1.sys.dock d').exec k).phase ≠ .over := fun e => hret (fr.over d' k P.over e d i P.owner P.lt P.index)
    obtain ⟨S5, r, m5, e5, -⟩ := complete_free h1 (fr.pends P.toPends hw1 ho1) hc1 hu1 f1 (fr.canSend P.sendNone)
    exact fin S5 (m.trans m5) ⟨r, e5⟩
  · have : ∃ q, (S.rest d').served k = some q ∧ (S.rest d').chan.startedAt q ≠ none := by
      refine Classical.byContradiction fun hno => hu fun q hq => ?_
      exact Classical.byContradiction fun e => hno ⟨q, hq, e⟩
    obtain ⟨q, hq, h0⟩ := this
    obtain ⟨S5, r, m5, e5, -⟩ := complete_started hS P.toPends hq h0 P.sendTimeout (fun v hv => P.sendResult q v hq hv)
    exact fin S5 m5 ⟨r, e5⟩

end

end Verif.Props
