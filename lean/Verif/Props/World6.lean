import Verif.Props.World5

/-!
# C121: when a remote call can return, exactly
-/

namespace Verif.Props

open Verif Verif.Codec Verif.Proto Verif.Dock Verif.System

/-! ## Started requests are on record -/

/-- The log of a callee says which requests have been started. -/
def LogInv (s : Chan.State) : Prop :=
  (∀ q, s.startedAt q ≠ none → Chan.HEv.started q ∈ s.log (s.req q).callee) ∧
  ∀ c q, Chan.HEv.started q ∈ s.log c → s.startedAt q ≠ none

theorem logInv_step {T : Nat → Chan.Target} {s t : Chan.State} {a : Chan.Act} (A : Chan.AnsInv s) (L : LogInv s)
    (h : s.step T a = some t) : LogInv t := by
  obtain ⟨l1, l2⟩ := L
  unfold Chan.State.step at h
  split at h
  · cases h
  cases a with
  | start c =>
    simp only at h
    split at h
    · rename_i i rest hi hq
      obtain ⟨m1, -, m3, -⟩ := A.inQueue c i (by rw [hq]; exact List.mem_cons_self ..)
      -- what is on record when the method begins
      have key : ∀ (l : Nat → List Chan.HEv), (∀ c' e, c' ≠ c → (e ∈ l c' ↔ e ∈ s.log c')) →
          (∀ q, Chan.HEv.started q ∈ l c ↔ Chan.HEv.started q ∈ s.log c ∨ q = i) → ∀ x,
          (∀ q, upd s.startedAt i (some x) q ≠ none → Chan.HEv.started q ∈ l (s.req q).callee) ∧
            ∀ c q, Chan.HEv.started q ∈ l c → upd s.startedAt i (some x) q ≠ none := by
        intro l h1 h2 x
        constructor
        · intro q hq
          by_cases e : q = i
          · subst e
            rw [m1]
            exact (h2 q).mpr (.inr rfl)
          · rw [upd_other _ _ e] at hq
            have := l1 q hq
            by_cases ec : (s.req q).callee = c
            · rw [ec] at this ⊢
              exact (h2 q).mpr (.inl this)
            · exact (h1 _ _ ec).mpr this
        · intro c' q hm
          by_cases e : q = i
          · subst e
            rw [upd_same]
            simp
          · rw [upd_other _ _ e]
            by_cases ec : c' = c
            · subst ec
              rcases (h2 q).mp hm with h | h
              · exact l2 _ _ h
              · exact absurd h e
            · exact l2 _ _ ((h1 _ _ ec).mp hm)
      split at h
      all_goals cases h
      all_goals
        apply key
        · intro c' e hne
          simp only [upd_other _ _ hne]
        · intro q
          simp [upd_same]
    · cases h
  | ret c res =>
    simp only at h
    repeat' split at h
    all_goals cases h
    all_goals
      refine ⟨fun q hq => ?_, fun c' q hm => ?_⟩
      · have := l1 q hq
        simp only
        by_cases e : (s.req q).callee = c
        · rw [e] at this ⊢
          rw [upd_same]
          exact List.mem_append_left _ this
        · rw [upd_other _ _ e]
          exact this
      · simp only at hm
        by_cases e : c' = c
        · subst e
          rw [upd_same] at hm
          rcases List.mem_append.mp hm with h | h
          · exact l2 _ _ h
          · simp at h
        · rw [upd_other _ _ e] at hm
          exact l2 _ _ hm
  | call callee caller meth args parent =>
    have hn : s.startedAt s.n = none := (A.fresh s.n (Nat.le_refl _)).2.2.2.2.2.1
    simp only at h
    repeat' split at h
    all_goals cases h
    all_goals
      refine ⟨fun q hq => ?_, fun c' q hm => l2 _ _ hm⟩
      have hne : q ≠ s.n := by rintro rfl; exact hq hn
      simp only [upd_other _ _ hne]
      exact l1 q hq
  | _ =>
    simp only at h
    repeat' split at h
    all_goals cases h
    all_goals exact ⟨l1, l2⟩

theorem logInv_run (T : Nat → Chan.Target) {us : List Chan.Act} {s : Chan.State}
    (h : run (Chan.State.step T) (Chan.State.init T) us = some s) : LogInv s :=
  (run_inv (I := fun s => Chan.AnsInv s ∧ LogInv s)
    (fun s a t I h => ⟨Chan.ansInv_step T s a t I.1 h, logInv_step I.1 I.2 h⟩) us _ _
    ⟨Chan.ansInv_init T, fun q hq => absurd rfl hq, fun c q hm => absurd hm (by simp [Chan.State.init])⟩ h).2

section
variable {C : Nat → List Carried} {T : Nat → Nat → Chan.Target} {H R : Nat → Str} {black : List Int}

/-- What no execution changes. -/
theorem world_keep {as more : List World.Act} {S S' : World.State}
    (h : run (World.State.step C T H R black) (World.State.init T) as = some S)
    (h' : run (World.State.step C T H R black) S more = some S') :
    (∀ d, ((S.sys.dock d).n ≤ (S'.sys.dock d).n ∧ ∀ i, i < (S.sys.dock d).n → (S'.sys.dock d).index i = (S.sys.dock d).index i) ∧
      (S.sys.dock d).nx ≤ (S'.sys.dock d).nx ∧ (∀ k, k < (S.sys.dock d).nx →
        ((S'.sys.dock d).exec k).peer = ((S.sys.dock d).exec k).peer ∧
        ((S'.sys.dock d).exec k).index = ((S.sys.dock d).exec k).index ∧
        ((S'.sys.dock d).exec k).call = ((S.sys.dock d).exec k).call) ∧
      (S.at d).chan.n ≤ (S'.at d).chan.n ∧
      ∀ k q, (S'.at d).served k = some q → (S.at d).served k = some q ∨ (S.at d).chan.n ≤ q) ∧
    ∀ e p, S.sys.owner e = some p → S'.sys.owner e = some p := by
  induction more using List.reverseRecOn generalizing S' with
  | nil =>
    cases h'
    exact ⟨fun d => ⟨⟨Nat.le_refl _, fun _ _ => rfl⟩, Nat.le_refl _, fun _ _ => ⟨rfl, rfl, rfl⟩, Nat.le_refl _, fun _ _ e => .inl e⟩,
      fun _ _ e => e⟩
  | append_singleton more a ih =>
    rw [run_append] at h'
    cases e : run (World.State.step C T H R black) S more with
    | none => rw [e] at h'; cases h'
    | some U =>
      rw [e] at h'
      have hs : U.step C T H R black a = some S' := by
        simp only [Option.bind_some, run] at h'
        cases e2 : U.step C T H R black a with
        | none => rw [e2] at h'; cases h'
        | some V => rw [e2] at h'; cases h'; rfl
      have hU : run (World.State.step C T H R black) (World.State.init T) (as ++ more) = some U := by
        rw [run_append, h]; exact e
      have W := World.inv_run hU
      obtain ⟨bs, hb⟩ := World.sys_reach hU
      have I := System.inv_run C H R black hb
      obtain ⟨i1, i2⟩ := ih e
      refine ⟨fun d => ?_, fun x p hx => world_owner I hs (i2 x p hx)⟩
      obtain ⟨⟨a1, a2⟩, a3, a4, a5, a6⟩ := i1 d
      obtain ⟨⟨b1, b2⟩, b3, b4⟩ := world_dock W hs d
      obtain ⟨ws, hws⟩ := W.whole d
      have V := Whole.inv_run _ _ ws _ hws
      refine ⟨⟨by omega, fun i hi => (b2 i (by omega)).trans (a2 i hi)⟩, by omega, fun k hk => ?_, ?_, ?_⟩
      · obtain ⟨x1, x2, x3⟩ := a4 k hk
        obtain ⟨y1, y2, y3⟩ := b4 k (by omega)
        exact ⟨y1.trans x1, y2.trans x2, y3.trans x3⟩
      · refine Nat.le_trans a5 ?_
        rcases World.at_step hs W.down d with e | ⟨-, b, e, -⟩
        · rw [e]; exact Nat.le_refl _
        · rcases (Whole.step_parts e).2 with e | ⟨b, -, e⟩ | ⟨k, m, ar, pa, e⟩
          · exact Nat.le_of_eq (by rw [e])
          · exact (Whole.chan_keep e).1
          · exact (Whole.chan_keep e).1
      · intro k q hq
        rcases World.at_step hs W.down d with e | ⟨-, b, e, -⟩
        · rw [e] at hq; exact a6 k q hq
        · rcases (keep_step V e).2 k q hq with e | e
          · exact a6 k q e
          · exact .inr (Nat.le_trans a5 e)

end

/-- **C121, behind a circle.**  Let the callees in `X` wait for one another as in `C121_circle`.  Then, whatever happens,
as long as the clock of no dock returns the same reading twice: no request for a method of one of them is started any
more, and a remote call has no result if its request has been received and is for a method of one of them that has not
been started. -/
theorem C121_behind (C : Nat → List Carried) (T : Nat → Nat → Chan.Target) (H R : Nat → Str) (black : List Int)
    (as more : List World.Act) (S S' : World.State)
    (h : run (World.State.step C T H R black) (World.State.init T) as = some S)
    (h' : run (World.State.step C T H R black) S more = some S') (hd : Distinct S')
    (X : Nat → Nat → Prop) (hX : ∀ d c, X d c → ∃ d' c', X d' c' ∧ Waits C S d c d' c') (d' c : Nat) (hc : X d' c) :
    (∀ q, ((S'.rest d').chan.req q).callee = c → (S.rest d').chan.startedAt q = none → (S'.rest d').chan.startedAt q = none) ∧
    ∀ d i k, k < (S.sys.dock d').nx → S.sys.owner (other ((S.sys.dock d').exec k).peer) = some (.dock d) →
      i < (S.sys.dock d).n → ((S.sys.dock d').exec k).index = (S.sys.dock d).index i →
      LastAt (C d') ((S.sys.dock d').exec k).call.slot c →
      (∀ q, (S.rest d').served k = some q → (S.rest d').chan.startedAt q = none) → ∀ r,
      (S'.sys.dock d).phase i ≠ .received r ∧ (S'.sys.dock d).phase i ≠ .returned r := by
  have hS' : run (World.State.step C T H R black) (World.State.init T) (as ++ more) = some S' := by
    rw [run_append, h]; exact h'
  have first : ∀ q, ((S'.rest d').chan.req q).callee = c → (S.rest d').chan.startedAt q = none →
      (S'.rest d').chan.startedAt q = none := by
    intro q hq h0
    obtain ⟨d2, c2, x1, x2⟩ := hX d' c hc
    have hl := (C121_circle C T H R black as more S S' h h' hd X hX d' c d2 c2 x1 x2).2.2.1
    refine Classical.byContradiction fun hne => ?_
    obtain ⟨ws, hws⟩ := (World.inv_run h).whole d'
    obtain ⟨-, us, hu, -⟩ := Whole.chan_run _ _ ws _ hws
    obtain ⟨ws', hws'⟩ := (World.inv_run hS').whole d'
    obtain ⟨-, us', hu', -⟩ := Whole.chan_run _ _ ws' _ hws'
    have := (logInv_run _ hu').1 q hne
    have this' : Chan.HEv.started q ∈ (S'.rest d').chan.log c := by
      have hq' : ((S'.at d').chan.req q).callee = c := hq
      rw [hq'] at this
      exact this
    rw [hl] at this'
    exact (logInv_run _ hu).2 c q this' h0
  refine ⟨first, fun d i k hk ho hi hx hla hs r => ?_⟩
  obtain ⟨kp, ow⟩ := world_keep h h'
  obtain ⟨-, k1, k2, -, k3⟩ := kp d'
  obtain ⟨y1, y2, y3⟩ := k2 k hk
  refine no_result hS' hd (k := k) (d' := d') (by omega) (by rw [y1]; exact ow _ _ ho)
    (by rw [y2, (kp d).1.2 i hi]; exact hx) ?_ r
  intro q hq
  obtain ⟨ws', hws'⟩ := (World.inv_run hS').whole d'
  have V' := Whole.inv_run _ _ ws' _ hws'
  have hcq : ((S'.at d').chan.req q).callee = c := by
    have g1 := (V'.served k q hq).2.1
    have g2 := last_callee hla
    have g3 : ((S'.at d').dock.exec k).call = ((S.sys.dock d').exec k).call := y3
    rw [g3, g2] at g1
    cases g1
    rfl
  refine first q hcq ?_
  rcases k3 k q hq with e | e
  · exact hs q e
  · exact (Reach.fresh ⟨as, h⟩ d') q e

end Verif.Props
