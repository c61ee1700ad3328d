import Verif.Dock.Visit

/-!
# C67: Visit returns one proxy per slot and name
-/

namespace Verif.Props

open Verif Verif.Visit

/-- A visit is in progress. -/
def VPhase.busy : VPhase → Bool
  | .done _ => false
  | _ => true

/-- No two visits of one slot with one name overlap. -/
def noOverlap (s : State) (a : Act) : Prop :=
  ∀ slot name, a = .enter slot name →
    ∀ k, (s.visit k).slot = slot → (s.visit k).name = name → VPhase.busy (s.visit k).phase = false

/-- Visits that are over are in the table, those under way are not, and no two of the same feature are under way. -/
structure VisitInv (s : State) : Prop where
  fresh : ∀ k, s.n ≤ k → (s.visit k).phase = .done none
  kept : ∀ k o, (s.visit k).phase = .done (some o) → s.visiters (s.visit k).slot (s.visit k).name = some o
  busy : ∀ k, VPhase.busy (s.visit k).phase = true → s.visiters (s.visit k).slot (s.visit k).name = none
  one : ∀ k l, VPhase.busy (s.visit k).phase = true → VPhase.busy (s.visit l).phase = true →
    (s.visit k).slot = (s.visit l).slot → (s.visit k).name = (s.visit l).name → k = l

theorem visitInv_step (s : State) (a : Act) (t : State) (ha : noOverlap s a) (hI : VisitInv s)
    (h : s.step a = some t) : VisitInv t := by
  obtain ⟨hf, hk, hb, ho⟩ := hI
  unfold State.step at h
  split at h
  · cases h
  cases a with
  | register name maker => cases h; exact ⟨hf, hk, hb, ho⟩
  | enter slot name =>
    cases h
    have hnb := ha slot name rfl
    constructor <;> simp only
    · intro k hk; rw [upd_other _ _ (by omega)]; exact hf k (by omega)
    · intro k o h
      by_cases e : k = s.n
      · subst e; rw [upd_same] at h ⊢
        simp only at h ⊢
        split at h
        · rename_i o' ho'; cases h; exact ho'
        · cases h
      · rw [upd_other _ _ e] at h ⊢; exact hk k o h
    · intro k h
      by_cases e : k = s.n
      · subst e; rw [upd_same] at h ⊢
        simp only at h ⊢
        split at h
        · cases h
        · assumption
      · rw [upd_other _ _ e] at h ⊢; exact hb k h
    · intro k l h1 h2 h3 h4
      by_cases e : k = s.n
      · by_cases e' : l = s.n
        · rw [e, e']
        · subst e; rw [upd_same] at h3 h4; rw [upd_other _ _ e'] at h2 h3 h4
          rw [hnb l h3.symm h4.symm] at h2; cases h2
      · by_cases e' : l = s.n
        · subst e'; rw [upd_same] at h3 h4; rw [upd_other _ _ e] at h1 h3 h4
          rw [hnb k h3 h4] at h1; cases h1
        · rw [upd_other _ _ e] at h1 h3 h4; rw [upd_other _ _ e'] at h2 h3 h4
          exact ho k l h1 h2 h3 h4
  | make k o =>
    simp only at h
    split at h
    · rename_i hph
      have hlt : k < s.n := by
        rcases Nat.lt_or_ge k s.n with h' | h'
        · exact h'
        · rw [hf k h'] at hph; cases hph
      have gen : ∀ ph : VPhase, (∀ o, ph ≠ .done (some o)) →
          VisitInv { s with visit := upd s.visit k { s.visit k with phase := ph } } := by
        intro ph hne
        constructor <;> simp only
        · intro j hj; rw [upd_other _ _ (by omega)]; exact hf j hj
        · intro j o h
          by_cases e : j = k
          · subst e; rw [upd_same] at h; exact absurd h (hne o)
          · rw [upd_other _ _ e] at h ⊢; exact hk j o h
        · intro j h
          by_cases e : j = k
          · subst e; rw [upd_same]; exact hb j (by rw [hph]; rfl)
          · rw [upd_other _ _ e] at h ⊢; exact hb j h
        · intro j l h1 h2 h3 h4
          by_cases e : j = k
          · by_cases e' : l = k
            · rw [e, e']
            · subst e; rw [upd_same] at h3 h4; rw [upd_other _ _ e'] at h2 h3 h4
              exact ho j l (by rw [hph]; rfl) h2 h3 h4
          · by_cases e' : l = k
            · subst e'; rw [upd_same] at h3 h4; rw [upd_other _ _ e] at h1 h3 h4
              exact ho j l h1 (by rw [hph]; rfl) h3 h4
            · rw [upd_other _ _ e] at h1 h3 h4; rw [upd_other _ _ e'] at h2 h3 h4
              exact ho j l h1 h2 h3 h4
      split at h
      · cases h; exact gen _ (by simp)
      · cases h; exact ⟨hf, hk, hb, ho⟩
      · cases h; exact gen _ (by simp)
    · cases h
  | store k =>
    simp only at h
    split at h
    · rename_i o hph
      cases h
      have hlt : k < s.n := by
        rcases Nat.lt_or_ge k s.n with h' | h'
        · exact h'
        · rw [hf k h'] at hph; cases hph
      have hnone := hb k (by rw [hph]; rfl)
      -- the map after the assignment
      have hmap : ∀ slot name, (upd s.visiters (s.visit k).slot (upd (s.visiters (s.visit k).slot) (s.visit k).name o))
          slot name = if slot = (s.visit k).slot ∧ name = (s.visit k).name then o else s.visiters slot name := by
        intro slot name
        by_cases e : slot = (s.visit k).slot
        · subst e; rw [upd_same]
          by_cases e' : name = (s.visit k).name
          · subst e'; rw [upd_same]; simp
          · rw [upd_other _ _ e']; simp [e']
        · rw [upd_other _ _ e]; simp [e]
      constructor <;> simp only
      · intro j hj; rw [upd_other _ _ (by omega)]; exact hf j hj
      · intro j o' h
        rw [hmap]
        by_cases e : j = k
        · subst e; rw [upd_same] at h ⊢; simp only at h ⊢
          cases h; simp
        · rw [upd_other _ _ e] at h ⊢
          have hj := hk j o' h
          split
          · rename_i hc
            rw [hc.1, hc.2, hnone] at hj; cases hj
          · exact hj
      · intro j h
        rw [hmap]
        by_cases e : j = k
        · subst e; rw [upd_same] at h; cases h
        · rw [upd_other _ _ e] at h ⊢
          split
          · rename_i hc
            exact absurd (ho j k h (by rw [hph]; rfl) hc.1 hc.2) e
          · exact hb j h
      · intro j l h1 h2 h3 h4
        by_cases e : j = k
        · subst e; rw [upd_same] at h1; cases h1
        · by_cases e' : l = k
          · subst e'; rw [upd_same] at h2; cases h2
          · rw [upd_other _ _ e] at h1 h3 h4; rw [upd_other _ _ e'] at h2 h3 h4
            exact ho j l h1 h2 h3 h4
    · cases h

/-- C67 (partial): if visits of one slot with the same name do not overlap, all of them that return an object return
the same one, whatever is registered, re-registered or unregistered in between, and whatever the makers return.
Missing: overlapping visits, see `C67_overlap_refuted`. -/
theorem C67_same_partial (as : List Act) (s : State) (h : run State.step State.init as = some s)
    (ha : AllSteps State.step State.init as noOverlap) (k l : Nat) (o o' : Nat)
    (hk : (s.visit k).phase = .done (some o)) (hl : (s.visit l).phase = .done (some o'))
    (hs : (s.visit k).slot = (s.visit l).slot) (hn : (s.visit k).name = (s.visit l).name) : o = o' := by
  have hI : VisitInv s := by
    refine run_inv_steps visitInv_step as State.init s ha ?_ h
    constructor <;> simp [State.init, VPhase.busy]
  have h1 := hI.kept k o hk
  have h2 := hI.kept l o' hl
  rw [hs, hn, h2] at h1
  exact (Option.some.inj h1).symm

/-- C67: once a slot has a visitor for a name and no visit of this slot with this name is in progress, every later visit
returns it at once, and nothing that is registered changes this. -/
theorem C67_kept (as : List Act) (s t : State) (slot name o : _) (h : s.visiters slot name = some o)
    (hq : ∀ k, (s.visit k).slot = slot → (s.visit k).name = name → VPhase.busy (s.visit k).phase = false)
    (hf : ∀ k, s.n ≤ k → (s.visit k).phase = .done none) (hr : run State.step s as = some t) :
    t.visiters slot name = some o ∧ ∀ k, s.n ≤ k → k < t.n → (t.visit k).slot = slot → (t.visit k).name = name →
      (t.visit k).phase = .done (some o) := by
  have key := run_inv (step := State.step) (I := fun t => s.n ≤ t.n ∧ t.visiters slot name = some o ∧
      (∀ k, (t.visit k).slot = slot → (t.visit k).name = name → VPhase.busy (t.visit k).phase = false) ∧
      ∀ k, s.n ≤ k → k < t.n → (t.visit k).slot = slot → (t.visit k).name = name →
        (t.visit k).phase = .done (some o)) ?_ as s t ?_ hr
  · exact ⟨key.2.1, key.2.2.2⟩
  · intro u a v hI hs
    obtain ⟨i0, i1, i2, i3⟩ := hI
    unfold State.step at hs
    split at hs
    · cases hs
    cases a with
    | register nm mk => cases hs; exact ⟨i0, i1, i2, i3⟩
    | enter sl nm =>
      cases hs
      refine ⟨by simp only; omega, i1, ?_, ?_⟩
      · intro k h1 h2
        simp only at h1 h2 ⊢
        by_cases e : k = u.n
        · subst e; rw [upd_same] at h1 h2 ⊢
          simp only at h1 h2 ⊢
          rw [h1, h2, i1]; rfl
        · rw [upd_other _ _ e] at h1 h2 ⊢; exact i2 k h1 h2
      · intro k hk1 hk2 h1 h2
        simp only at hk2 h1 h2 ⊢
        by_cases e : k = u.n
        · subst e; rw [upd_same] at h1 h2 ⊢
          simp only at h1 h2 ⊢
          rw [h1, h2, i1]
        · rw [upd_other _ _ e] at h1 h2 ⊢; exact i3 k hk1 (by omega) h1 h2
    | make j o' =>
      simp only at hs
      split at hs
      · rename_i hph
        have hj : ¬ ((u.visit j).slot = slot ∧ (u.visit j).name = name) := by
          rintro ⟨h1, h2⟩
          have := i2 j h1 h2
          rw [hph] at this; cases this
        have gen : ∀ ph : VPhase, let v : State := { u with visit := upd u.visit j { u.visit j with phase := ph } }
            s.n ≤ v.n ∧ v.visiters slot name = some o ∧
            (∀ k, (v.visit k).slot = slot → (v.visit k).name = name → VPhase.busy (v.visit k).phase = false) ∧
            ∀ k, s.n ≤ k → k < v.n → (v.visit k).slot = slot → (v.visit k).name = name →
              (v.visit k).phase = .done (some o) := by
          intro ph
          refine ⟨i0, i1, ?_, ?_⟩
          · intro k h1 h2
            simp only at h1 h2 ⊢
            by_cases e : k = j
            · subst e; rw [upd_same] at h1 h2; exact absurd ⟨h1, h2⟩ hj
            · rw [upd_other _ _ e] at h1 h2 ⊢; exact i2 k h1 h2
          · intro k hk1 hk2 h1 h2
            simp only at hk2 h1 h2 ⊢
            by_cases e : k = j
            · subst e; rw [upd_same] at h1 h2; exact absurd ⟨h1, h2⟩ hj
            · rw [upd_other _ _ e] at h1 h2 ⊢; exact i3 k hk1 hk2 h1 h2
        split at hs
        · cases hs; exact gen _
        · cases hs; exact ⟨i0, i1, i2, i3⟩
        · cases hs; exact gen _
      · cases hs
    | store j =>
      simp only at hs
      split at hs
      · rename_i o' hph
        cases hs
        have hj : ¬ ((u.visit j).slot = slot ∧ (u.visit j).name = name) := by
          rintro ⟨h1, h2⟩
          have := i2 j h1 h2
          rw [hph] at this; cases this
        refine ⟨i0, ?_, ?_, ?_⟩
        · simp only
          by_cases e : slot = (u.visit j).slot
          · rw [e, upd_same]
            have : name ≠ (u.visit j).name := fun e' => hj ⟨e.symm, e'.symm⟩
            rw [upd_other _ _ this, ← e]; exact i1
          · rw [upd_other _ _ e]; exact i1
        · intro k h1 h2
          simp only at h1 h2 ⊢
          by_cases e : k = j
          · subst e; rw [upd_same] at h1 h2; exact absurd ⟨h1, h2⟩ hj
          · rw [upd_other _ _ e] at h1 h2 ⊢; exact i2 k h1 h2
        · intro k hk1 hk2 h1 h2
          simp only at hk2 h1 h2 ⊢
          by_cases e : k = j
          · subst e; rw [upd_same] at h1 h2; exact absurd ⟨h1, h2⟩ hj
          · rw [upd_other _ _ e] at h1 h2 ⊢; exact i3 k hk1 hk2 h1 h2
      · cases hs
  · exact ⟨Nat.le_refl _, h, hq, fun k h1 h2 => absurd h2 (by omega)⟩

/-- C67: a visit of a name that has never been registered returns nil. -/
theorem C67_unregistered (as : List Act) (s : State) (h : run State.step State.init as = some s) (name : Str)
    (hn : ∀ m, Act.register name m ∉ as) (k : Nat) (o : Option Nat) (hk : (s.visit k).name = name)
    (ho : (s.visit k).phase = .done o) : o = none := by
  have key := run_inv_on (step := State.step) (A := fun a => ∀ m, a ≠ .register name m)
    (I := fun s => s.registry name = none ∧ (∀ slot, s.visiters slot name = none) ∧
      ∀ k, (s.visit k).name = name → (s.visit k).phase = .missing ∨ (s.visit k).phase = .done none) ?_ as State.init s
      (fun a ha m e => hn m (e ▸ ha)) ?_ h
  · rcases key.2.2 k hk with h | h
    · rw [h] at ho; cases ho
    · rw [h] at ho; cases ho; rfl
  · intro u a v hA hI hs
    obtain ⟨i1, i2, i3⟩ := hI
    unfold State.step at hs
    split at hs
    · cases hs
    cases a with
    | register nm mk =>
      cases hs
      have e : name ≠ nm := fun e => hA mk (by rw [e])
      exact ⟨by simp only; rw [upd_other _ _ e]; exact i1, i2, i3⟩
    | enter sl nm =>
      cases hs
      refine ⟨i1, i2, ?_⟩
      intro k h1
      simp only at h1 ⊢
      by_cases e : k = u.n
      · subst e; rw [upd_same] at h1 ⊢
        simp only at h1 ⊢
        rw [h1, i2]; exact Or.inl rfl
      · rw [upd_other _ _ e] at h1 ⊢; exact i3 k h1
    | make j o' =>
      simp only at hs
      split at hs
      · rename_i hph
        have gen : ∀ ph : VPhase, ((u.visit j).name = name → ph = .done none) →
            let v : State := { u with visit := upd u.visit j { u.visit j with phase := ph } }
            v.registry name = none ∧ (∀ slot, v.visiters slot name = none) ∧
            ∀ k, (v.visit k).name = name → (v.visit k).phase = .missing ∨ (v.visit k).phase = .done none := by
          intro ph hph'
          refine ⟨i1, i2, ?_⟩
          intro k h1
          simp only at h1 ⊢
          by_cases e : k = j
          · subst e; rw [upd_same] at h1 ⊢; exact Or.inr (hph' h1)
          · rw [upd_other _ _ e] at h1 ⊢; exact i3 k h1
        split at hs
        · cases hs; exact gen _ (fun _ => rfl)
        · cases hs; exact ⟨i1, i2, i3⟩
        · rename_i hreg; cases hs
          exact gen _ (fun e => by rw [e, i1] at hreg; cases hreg)
      · cases hs
    | store j =>
      simp only at hs
      split at hs
      · rename_i o' hph
        cases hs
        have hj : (u.visit j).name ≠ name := by
          intro e
          rcases i3 j e with h | h <;> rw [h] at hph <;> cases hph
        refine ⟨i1, ?_, ?_⟩
        · intro slot
          simp only
          by_cases e : slot = (u.visit j).slot
          · rw [e, upd_same, upd_other _ _ (Ne.symm hj)]; exact i2 _
          · rw [upd_other _ _ e]; exact i2 _
        · intro k h1
          simp only at h1 ⊢
          by_cases e : k = j
          · subst e; rw [upd_same] at h1; exact absurd h1 hj
          · rw [upd_other _ _ e] at h1 ⊢; exact i3 k h1
      · cases hs
  · exact ⟨rfl, fun _ => rfl, fun k _ => Or.inr rfl⟩

/-- A name is registered, visited, re-registered and visited again by the same and by another slot. -/
def visitActs : List Act :=
  [.enter 0 [97], .make 0 none, .register [97] (some (.func 1)), .enter 0 [97], .make 1 (some 5), .store 1,
   .register [97] (some (.func 2)), .enter 0 [97], .enter 1 [97], .make 3 (some 6), .store 3]

example : ∃ s, run State.step State.init visitActs = some s ∧ (s.visit 0).phase = .done none ∧
    (s.visit 1).phase = .done (some 5) ∧ (s.visit 2).phase = .done (some 5) ∧ (s.visit 3).phase = .done (some 6) :=
  ⟨_, rfl, rfl, rfl, rfl, rfl⟩

/-- `noOverlap`, computed. -/
def noOverlapB (s : State) : Act → Bool
  | .enter slot name => (List.range s.n).all fun k =>
      !((s.visit k).slot == slot && (s.visit k).name == name && VPhase.busy (s.visit k).phase)
  | _ => true

/-- `AllSteps` for `noOverlap`, computed. -/
def checkSteps : State → List Act → Bool
  | _, [] => true
  | s, a :: as => noOverlapB s a && match s.step a with
    | none => true
    | some t => checkSteps t as

theorem checkSteps_sound : ∀ (as : List Act) (s : State), VisitInv s → checkSteps s as = true →
    AllSteps State.step s as noOverlap := by
  intro as
  induction as with
  | nil => intro s _ _ pre a post t e; simp at e
  | cons a as ih =>
    intro s hI hc pre b post t e ht
    simp only [checkSteps, Bool.and_eq_true] at hc
    have hok : noOverlap s a := by
      intro slot name ea k h1 h2
      subst ea
      by_cases hk : k < s.n
      · have := List.all_eq_true.mp hc.1 k (List.mem_range.mpr hk)
        simpa [h1, h2] using this
      · rw [hI.fresh k (by omega)]; rfl
    cases pre with
    | nil => cases e; cases ht; exact hok
    | cons c pre =>
      cases e
      simp only [run] at ht
      split at ht
      · cases ht
      · rename_i u hu
        have h2 := hc.2
        rw [hu] at h2
        exact ih u (visitInv_step s a u hok hI hu) h2 pre b post t rfl ht

example : AllSteps State.step State.init visitActs noOverlap :=
  checkSteps_sound _ _ (by constructor <;> simp [State.init, VPhase.busy]) (by decide)

/-- C67 (refuted): two goroutines visit the same name at the same time; both find nothing and make a proxy, and get
different ones. -/
theorem C67_overlap_refuted : ∃ as s, run State.step State.init as = some s ∧
    (s.visit 0).slot = (s.visit 1).slot ∧ (s.visit 0).name = (s.visit 1).name ∧
    ∃ o o', o ≠ o' ∧ (s.visit 0).phase = .done (some o) ∧ (s.visit 1).phase = .done (some o') :=
  ⟨[.register [97] (some (.func 1)), .enter 0 [97], .enter 0 [97], .make 0 (some 5), .make 1 (some 6), .store 0, .store 1],
    _, rfl, rfl, rfl, 5, 6, by decide, rfl, rfl⟩

/-- C67: a maker of another type than `func(ISlot) interface{}` is accepted by `Register` and panics in `Visit`. -/
theorem C67_wrong_maker_refuted : ∃ as s, run State.step State.init as = some s ∧ s.dead = true :=
  ⟨[.register [97] (some .wrong), .enter 0 [97], .make 0 none], _, rfl, rfl⟩

end Verif.Props
