import Verif.Race.Race

/-! # Discipline that excludes conflicts -/

namespace Verif.Race

open Verif

variable {V M : Type} [DecidableEq M]

/-- What protects some data. -/
inductive Guard (M : Type) where
  /-- a mutex -/
  | by (m : M)
  /-- nobody writes -/
  | readOnly
  /-- nothing is claimed -/
  | free

/-- May the data be accessed by a goroutine that holds this mutex? -/
def Guard.allows (held : Option M) : Guard M → Bool → Prop
  | .by m, _ => held = some m
  | .readOnly, w => w = false
  | .free, _ => True

/-- A sequence keeps the discipline, begun with a mutex and within an access or not: at most one mutex is held at a time,
only a mutex that is held is unlocked, all of them are at the end, and every access is allowed by its guard. -/
def Kept (guard : V → Guard M) : Option M → Option V → List (Op V M) → Prop
  | none, none, [] => True
  | none, none, .lock m :: r => Kept guard (some m) none r
  | some m, none, .unlock m' :: r => m' = m ∧ Kept guard none none r
  | h, none, .enter x w :: r => (guard x).allows h w ∧ Kept guard h (some x) r
  | h, some _, .leave :: r => Kept guard h none r
  | _, _, _ => False

structure Inv (guard : V → Guard M) (s : State V M) (held : Nat → Option M) : Prop where
  kept : ∀ i, Kept guard (held i) ((s.acc i).map (·.1)) (s.rest i)
  owner : ∀ i m, held i = some m ↔ s.owner m = some i
  acc : ∀ i x w, s.acc i = some (x, w) → (guard x).allows (held i) w

theorem inv_init {guard : V → Guard M} {prog : Nat → List (Op V M)} (h : ∀ i, Kept guard none none (prog i)) :
    Inv guard (State.init prog) fun _ => none := by
  refine ⟨h, ?_, ?_⟩
  · intro i m; simp [State.init]
  · intro i x w e; cases e

theorem inv_step {guard : V → Guard M} (s : State V M) (i : Nat) (s' : State V M) (h : ∃ held, Inv guard s held)
    (hs : s.step i = some s') : ∃ held, Inv guard s' held := by
  obtain ⟨held, hI⟩ := h
  have hk := hI.kept i
  unfold State.step at hs
  split at hs
  · cases hs
  · rename_i m r hr
    split at hs
    · rename_i ho
      cases hs
      rw [hr] at hk
      cases ha : s.acc i with
      | some p => rw [ha] at hk; cases hh : held i <;> rw [hh] at hk <;> exact hk.elim
      | none =>
      cases hh : held i with
      | some m' => rw [ha, hh] at hk; exact hk.elim
      | none =>
      rw [ha, hh] at hk
      refine ⟨upd held i (some m), ?_, ?_, ?_⟩
      · intro j
        by_cases e : j = i
        · subst e; simp only [upd_same, ha]; exact hk
        · simp only [upd_other _ _ e]; exact hI.kept j
      · intro j m'
        by_cases e : j = i
        · subst e
          rw [upd_same]
          by_cases em : m' = m
          · subst em; simp
          · simp only [upd_other _ _ em, Option.some.injEq]
            rw [← hI.owner j m', hh]
            simp [Ne.symm em]
        · rw [upd_other _ _ e]
          by_cases em : m' = m
          · subst em
            rw [hI.owner j m', ho]
            simp [Ne.symm e]
          · simp only [upd_other _ _ em]; exact hI.owner j m'
      · intro j x w hj
        by_cases e : j = i
        · subst e; rw [ha] at hj; cases hj
        · rw [upd_other _ _ e]; exact hI.acc j x w hj
    · cases hs
  · rename_i m r hr
    cases hs
    rw [hr] at hk
    cases ha : s.acc i with
    | some p => rw [ha] at hk; cases hh : held i <;> rw [hh] at hk <;> exact hk.elim
    | none =>
    cases hh : held i with
    | none => rw [ha, hh] at hk; exact hk.elim
    | some m' =>
    rw [ha, hh] at hk
    obtain ⟨rfl, hk⟩ := hk
    have hown := (hI.owner i m).mp hh
    refine ⟨upd held i none, ?_, ?_, ?_⟩
    · intro j
      by_cases e : j = i
      · subst e; simp only [upd_same, ha]; exact hk
      · simp only [upd_other _ _ e]; exact hI.kept j
    · intro j m'
      by_cases e : j = i
      · subst e
        rw [upd_same]
        by_cases em : m' = m
        · subst em; simp
        · simp only [upd_other _ _ em, reduceCtorEq, false_iff]
          rw [← hI.owner j m', hh]
          simp [Ne.symm em]
      · rw [upd_other _ _ e]
        by_cases em : m' = m
        · subst em
          rw [hI.owner j m', hown]
          simp [Ne.symm e]
        · simp only [upd_other _ _ em]; exact hI.owner j m'
    · intro j x w hj
      by_cases e : j = i
      · subst e; rw [ha] at hj; cases hj
      · rw [upd_other _ _ e]; exact hI.acc j x w hj
  · rename_i x w r hr
    cases hs
    rw [hr] at hk
    have hk' : s.acc i = none ∧ (guard x).allows (held i) w ∧ Kept guard (held i) (some x) r := by
      cases ha : s.acc i with
      | some p => rw [ha] at hk; cases hh : held i <;> rw [hh] at hk <;> exact hk.elim
      | none => rw [ha] at hk; cases hh : held i <;> rw [hh] at hk <;> exact ⟨rfl, hk⟩
    refine ⟨held, ?_, hI.owner, ?_⟩
    · intro j
      by_cases e : j = i
      · subst e; simp only [upd_same]; exact hk'.2.2
      · simp only [upd_other _ _ e]; exact hI.kept j
    · intro j y v hj
      by_cases e : j = i
      · subst e
        simp only [upd_same, Option.some.injEq, Prod.mk.injEq] at hj
        obtain ⟨rfl, rfl⟩ := hj
        exact hk'.2.1
      · simp only [upd_other _ _ e] at hj
        exact hI.acc j y v hj
  · rename_i r hr
    cases hs
    rw [hr] at hk
    have hk' : Kept guard (held i) none r := by
      cases ha : s.acc i with
      | none => rw [ha] at hk; cases hh : held i <;> rw [hh] at hk <;> exact hk.elim
      | some p => rw [ha] at hk; cases hh : held i <;> rw [hh] at hk <;> exact hk
    refine ⟨held, ?_, hI.owner, ?_⟩
    · intro j
      by_cases e : j = i
      · subst e; simp only [upd_same]; exact hk'
      · simp only [upd_other _ _ e]; exact hI.kept j
    · intro j y v hj
      by_cases e : j = i
      · subst e; simp only [upd_same, reduceCtorEq] at hj
      · simp only [upd_other _ _ e] at hj
        exact hI.acc j y v hj

/-- Data with a guard is never accessed by two goroutines at the same time, one of them writing. -/
theorem no_conflict {guard : V → Guard M} {prog : Nat → List (Op V M)} (h : ∀ i, Kept guard none none (prog i))
    {as : List Nat} {s : State V M} (hr : run State.step (State.init prog) as = some s) {x : V}
    (hx : ∀ (_ : guard x = .free), False) : ¬ Conflict s x := by
  obtain ⟨held, hI⟩ := run_inv (I := fun s => ∃ held, Inv guard s held) inv_step as _ s ⟨_, inv_init h⟩ hr
  rintro ⟨i, j, w, hij, h1, h2⟩
  have a1 := hI.acc i x true h1
  have a2 := hI.acc j x w h2
  cases hg : guard x with
  | «by» m =>
    rw [hg] at a1 a2
    have b1 := (hI.owner i m).mp a1
    rw [(hI.owner j m).mp a2] at b1
    cases b1
    exact hij rfl
  | readOnly =>
    rw [hg] at a1
    cases a1
  | free => exact hx hg

/-- As long as a goroutine is not at its end, some goroutine can go on. -/
theorem progress {guard : V → Guard M} {prog : Nat → List (Op V M)} (h : ∀ i, Kept guard none none (prog i))
    {as : List Nat} {s : State V M} (hr : run State.step (State.init prog) as = some s) {i : Nat} (hi : s.rest i ≠ []) :
    ∃ j s', s.step j = some s' := by
  obtain ⟨held, hI⟩ := run_inv (I := fun s => ∃ held, Inv guard s held) inv_step as _ s ⟨_, inv_init h⟩ hr
  have go : ∀ j, s.rest j ≠ [] → (∀ m r, s.rest j ≠ .lock m :: r) → ∃ s', s.step j = some s' := by
    intro j h1 h2
    unfold State.step
    split
    · rename_i e; exact absurd e h1
    · rename_i e; exact absurd e (h2 _ _)
    · exact ⟨_, rfl⟩
    · exact ⟨_, rfl⟩
    · exact ⟨_, rfl⟩
  cases hrest : s.rest i with
  | nil => exact absurd hrest hi
  | cons o r =>
    by_cases hl : ∃ m r', s.rest i = .lock m :: r'
    · obtain ⟨m, r', e⟩ := hl
      cases ho : s.owner m with
      | none =>
        refine ⟨i, { s with rest := upd s.rest i r', owner := upd s.owner m (some i) }, ?_⟩
        unfold State.step
        rw [e]
        simp only [ho]
      | some j =>
        have hj := (hI.owner j m).mpr ho
        have hk := hI.kept j
        rw [hj] at hk
        refine ⟨j, go j ?_ ?_⟩
        · intro e; rw [e] at hk; cases ha : s.acc j <;> rw [ha] at hk <;> exact hk.elim
        · intro m' r'' e; rw [e] at hk; cases ha : s.acc j <;> rw [ha] at hk <;> exact hk.elim
    · exact ⟨i, go i (by rw [hrest]; simp) fun m r' e => hl ⟨m, r', e⟩⟩

/-- One sequence after another. -/
theorem kept_append {guard : V → Guard M} {l r : List (Op V M)} (hl : Kept guard none none l)
    (hr : Kept guard none none r) : Kept guard none none (l ++ r) := by
  have key : ∀ (l : List (Op V M)) (h : Option M) (a : Option V), Kept guard h a l → Kept guard h a (l ++ r) := by
    intro l
    induction l with
    | nil =>
      intro h a hk
      cases h <;> cases a <;> first | exact hk.elim | exact hr
    | cons o l ih =>
      intro h a hk
      cases o <;> cases h <;> cases a <;> first
        | exact hk.elim
        | exact ih _ _ hk
        | exact ⟨hk.1, ih _ _ hk.2⟩
  exact key l none none hl

theorem kept_flatten {guard : V → Guard M} {ls : List (List (Op V M))} (h : ∀ l ∈ ls, Kept guard none none l) :
    Kept guard none none ls.flatten := by
  induction ls with
  | nil => trivial
  | cons l ls ih => exact kept_append (h l (by simp)) (ih fun l' hl => h l' (by simp [hl]))

/-- Accesses allowed with the mutex that is held may be inserted anywhere. -/
theorem kept_access {guard : V → Guard M} {h : Option M} {x : V} {w : Bool} {r : List (Op V M)}
    (ha : (guard x).allows h w) (hr : Kept guard h none r) : Kept guard h none (access x w ++ r) := by
  cases h <;> exact ⟨ha, hr⟩

theorem kept_times {guard : V → Guard M} {h : Option M} {x : V} {w : Bool} {r : List (Op V M)}
    (ha : (guard x).allows h w) (hr : Kept guard h none r) (n : Nat) : Kept guard h none (times n (access x w) ++ r) := by
  induction n with
  | zero => exact hr
  | succ n ih =>
    simp only [times, List.replicate_succ, List.flatten_cons, List.append_assoc]
    exact kept_access ha ih

end Verif.Race
