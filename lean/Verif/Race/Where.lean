import Verif.Race.Facts

/-! # Which conflicts happen in some interleaving -/

namespace Verif.Race

open Verif

variable {V M : Type}

/-- The mutex held after a sequence begun with this one.  For example after /repo/hub.go:73 the mutex of the map. -/
def after : Option M → List (Op V M) → Option M
  | h, [] => h
  | _, .lock m :: r => after (some m) r
  | _, .unlock _ :: r => after none r
  | h, .enter _ _ :: r => after h r
  | h, .leave :: r => after h r

/-- The accesses of a sequence with the mutex held meanwhile.  For example that of /repo/hub.go:74 with the mutex of line
73. -/
def accs : Option M → List (Op V M) → List (Option M × V × Bool)
  | _, [] => []
  | _, .lock m :: r => accs (some m) r
  | _, .unlock _ :: r => accs none r
  | h, .enter x w :: r => (h, x, w) :: accs h r
  | h, .leave :: r => accs h r

/-- The access that a sequence ends in, begun in this one. -/
def amid : Option V → List (Op V M) → Option V
  | a, [] => a
  | a, .lock _ :: r => amid a r
  | a, .unlock _ :: r => amid a r
  | _, .enter x _ :: r => amid (some x) r
  | _, .leave :: r => amid none r

theorem after_append (h : Option M) (p q : List (Op V M)) : after h (p ++ q) = after (after h p) q := by
  induction p generalizing h with
  | nil => rfl
  | cons o p ih => cases o <;> exact ih _

theorem accs_append (h : Option M) (p q : List (Op V M)) : accs h (p ++ q) = accs h p ++ accs (after h p) q := by
  induction p generalizing h with
  | nil => rfl
  | cons o p ih => cases o <;> simp [accs, after, ih]

theorem amid_append (a : Option V) (p q : List (Op V M)) : amid a (p ++ q) = amid (amid a p) q := by
  induction p generalizing a with
  | nil => rfl
  | cons o p ih => cases o <;> exact ih _

theorem mem_accs {h h' : Option M} {l : List (Op V M)} {x : V} {w : Bool} :
    (h', x, w) ∈ accs h l ↔ ∃ p q, l = p ++ .enter x w :: q ∧ after h p = h' := by
  constructor
  · intro hm
    induction l generalizing h with
    | nil => cases hm
    | cons o l ih =>
      cases o with
      | lock m => obtain ⟨p, q, rfl, e⟩ := ih (h := some m) hm; exact ⟨.lock m :: p, q, rfl, e⟩
      | unlock m => obtain ⟨p, q, rfl, e⟩ := ih (h := none) hm; exact ⟨.unlock m :: p, q, rfl, e⟩
      | leave => obtain ⟨p, q, rfl, e⟩ := ih (h := h) hm; exact ⟨.leave :: p, q, rfl, e⟩
      | enter y v =>
        simp only [accs, List.mem_cons, Prod.mk.injEq] at hm
        rcases hm with ⟨rfl, rfl, rfl⟩ | hm
        · exact ⟨[], l, rfl, rfl⟩
        · obtain ⟨p, q, rfl, e⟩ := ih (h := h) hm; exact ⟨.enter y v :: p, q, rfl, e⟩
  · rintro ⟨p, q, rfl, rfl⟩
    rw [accs_append]
    simp [accs]

theorem kept_drop {guard : V → Guard M} {h : Option M} {a : Option V} {p q : List (Op V M)}
    (hk : Kept guard h a (p ++ q)) : Kept guard (after h p) (amid a p) q := by
  induction p generalizing h a with
  | nil => exact hk
  | cons o p ih =>
    cases o <;> cases h <;> cases a <;> first
      | exact hk.elim
      | exact ih hk
      | exact ih hk.2

/-- Where the goroutines are in their programs. -/
private def Inv2 (prog : Nat → List (Op V M)) (s : State V M) : Prop := ∀ i, ∃ p, prog i = p ++ s.rest i ∧
  (∀ m, s.owner m = some i ↔ after none p = some m) ∧ (s.acc i).map (·.1) = amid none p ∧
  ∀ x w, s.acc i = some (x, w) → ∃ p', p = p' ++ [.enter x w]

private theorem inv2_step [DecidableEq M] {guard : V → Guard M} {prog : Nat → List (Op V M)} (hp : ∀ i, Kept guard none none (prog i))
    (s : State V M) (i : Nat) (s' : State V M) (h : Inv2 prog s) (hs : s.step i = some s') : Inv2 prog s' := by
  obtain ⟨p, hpi, ho, ha, hx⟩ := h i
  have hk := hp i
  rw [hpi] at hk
  have hk := kept_drop hk
  unfold State.step at hs
  split at hs
  · cases hs
  · rename_i m r hr
    split at hs
    · rename_i hn
      cases hs
      rw [hr] at hk
      have h1 : after none p = none ∧ amid none p = none := by
        cases e1 : after none p <;> cases e2 : amid none p <;> rw [e1, e2] at hk <;> first | exact hk.elim | exact ⟨rfl, rfl⟩
      intro j
      by_cases e : j = i
      · subst e
        refine ⟨p ++ [.lock m], by simp [hpi, hr, upd_same], ?_, ?_, ?_⟩
        · intro m'
          rw [after_append]
          by_cases em : m' = m
          · subst em; simp [after, upd_same]
          · simp only [upd_other _ _ em, ho, h1.1, after]
            simp [Ne.symm em]
        · rw [amid_append, h1.2]; simpa [amid, h1.2] using ha
        · intro x w e
          simp only at e
          rw [e, h1.2] at ha
          cases ha
      · obtain ⟨q, hq, hqo, hqa, hqx⟩ := h j
        refine ⟨q, by simpa [upd_other _ _ e] using hq, ?_, hqa, hqx⟩
        intro m'
        by_cases em : m' = m
        · subst em
          simp only [upd_same, Option.some.injEq, Ne.symm e, false_iff, ← hqo, hn]
          simp
        · simp only [upd_other _ _ em, hqo]
    · cases hs
  · rename_i m r hr
    cases hs
    rw [hr] at hk
    have h1 : after none p = some m ∧ amid none p = none := by
      cases e1 : after none p <;> cases e2 : amid none p <;> rw [e1, e2] at hk <;> first
        | exact hk.elim
        | (obtain ⟨rfl, _⟩ := hk; exact ⟨rfl, rfl⟩)
    have hown := (ho m).mpr h1.1
    intro j
    by_cases e : j = i
    · subst e
      refine ⟨p ++ [.unlock m], by simp [hpi, hr, upd_same], ?_, ?_, ?_⟩
      · intro m'
        rw [after_append]
        by_cases em : m' = m
        · subst em; simp [after, upd_same]
        · simp only [upd_other _ _ em, ho, h1.1, after]
          simp [Ne.symm em]
      · rw [amid_append, h1.2]; simpa [amid, h1.2] using ha
      · intro x w e
        simp only at e
        rw [e, h1.2] at ha
        cases ha
    · obtain ⟨q, hq, hqo, hqa, hqx⟩ := h j
      refine ⟨q, by simpa [upd_other _ _ e] using hq, ?_, hqa, hqx⟩
      intro m'
      by_cases em : m' = m
      · subst em
        simp only [upd_same, ← hqo, hown]
        simp [Ne.symm e]
      · simp only [upd_other _ _ em, hqo]
  · rename_i x w r hr
    cases hs
    intro j
    by_cases e : j = i
    · subst e
      refine ⟨p ++ [.enter x w], by simp [hpi, hr, upd_same], ?_, ?_, ?_⟩
      · intro m'; rw [after_append]; exact ho m'
      · rw [amid_append]; simp [amid, upd_same]
      · intro y v e
        simp only [upd_same, Option.some.injEq, Prod.mk.injEq] at e
        obtain ⟨rfl, rfl⟩ := e
        exact ⟨p, rfl⟩
    · obtain ⟨q, hq, hqo, hqa, hqx⟩ := h j
      exact ⟨q, by simpa [upd_other _ _ e] using hq, hqo, by simpa [upd_other _ _ e] using hqa,
        by simpa [upd_other _ _ e] using hqx⟩
  · rename_i r hr
    cases hs
    intro j
    by_cases e : j = i
    · subst e
      refine ⟨p ++ [.leave], by simp [hpi, hr, upd_same], ?_, ?_, ?_⟩
      · intro m'; rw [after_append]; exact ho m'
      · rw [amid_append]; simp [amid, upd_same]
      · intro y v e
        simp [upd_same] at e
    · obtain ⟨q, hq, hqo, hqa, hqx⟩ := h j
      exact ⟨q, by simpa [upd_other _ _ e] using hq, hqo, by simpa [upd_other _ _ e] using hqa,
        by simpa [upd_other _ _ e] using hqx⟩

/-- A goroutine goes on alone as long as it needs no mutex of others. -/
private theorem solo [DecidableEq M] {guard : V → Guard M} {i : Nat} {r : List (Op V M)} : ∀ (p : List (Op V M)) (s : State V M)
    (h : Option M) (a : Option V), s.rest i = p ++ r → Kept guard h a (p ++ r) → (∀ m, s.owner m = some i ↔ h = some m) →
    (∀ m, .lock m ∈ p → s.owner m = none ∨ s.owner m = some i) →
    ∃ s', run State.step s (List.replicate p.length i) = some s' ∧ s'.rest = upd s.rest i r ∧
      (∀ k, k ≠ i → s'.acc k = s.acc k) ∧ (∀ m, s'.owner m = some i ↔ after h p = some m) ∧
      ∀ m k, k ≠ i → (s'.owner m = some k ↔ s.owner m = some k) := by
  intro p
  induction p with
  | nil =>
    intro s h a hr _ ho _
    refine ⟨s, rfl, ?_, fun _ _ => rfl, ho, fun _ _ _ => Iff.rfl⟩
    funext k
    by_cases e : k = i
    · subst e; rw [upd_same]; exact hr
    · rw [upd_other _ _ e]
  | cons o p ih =>
    intro s h a hr hk ho hl
    have again : ∀ (s1 : State V M) (h1 : Option M) (a1 : Option V), s.step i = some s1 → s1.rest = upd s.rest i (p ++ r) →
        (∀ k, k ≠ i → s1.acc k = s.acc k) → Kept guard h1 a1 (p ++ r) → (∀ m, s1.owner m = some i ↔ h1 = some m) →
        (∀ m k, k ≠ i → (s1.owner m = some k ↔ s.owner m = some k)) → after h (o :: p) = after h1 p →
        ∃ s', run State.step s (List.replicate (o :: p).length i) = some s' ∧ s'.rest = upd s.rest i r ∧
          (∀ k, k ≠ i → s'.acc k = s.acc k) ∧ (∀ m, s'.owner m = some i ↔ after h (o :: p) = some m) ∧
          ∀ m k, k ≠ i → (s'.owner m = some k ↔ s.owner m = some k) := by
      intro s1 h1 a1 e1 e2 e3 e4 e5 e6 e7
      obtain ⟨s', f1, f2, f3, f4, f5⟩ := ih s1 h1 a1 (by rw [e2, upd_same]) e4 e5 (by
        intro m hm
        cases hc : s1.owner m with
        | none => exact Or.inl rfl
        | some k =>
          by_cases ek : k = i
          · exact Or.inr (by rw [ek])
          · have := (e6 m k ek).mp hc
            rcases hl m (List.mem_cons_of_mem _ hm) with g | g
            · rw [g] at this; cases this
            · rw [g] at this; cases this; exact absurd rfl ek)
      refine ⟨s', ?_, ?_, ?_, ?_, ?_⟩
      · rw [List.length_cons, List.replicate_succ, run, e1]; exact f1
      · rw [f2, e2]
        funext k
        by_cases ek : k = i
        · subst ek; simp [upd_same]
        · simp [upd_other _ _ ek]
      · intro k ek; rw [f3 k ek, e3 k ek]
      · intro m; rw [f4, e7]
      · intro m k ek; rw [f5 m k ek, e6 m k ek]
    cases o with
    | lock m =>
      have h1 : h = none ∧ Kept guard (some m) none (p ++ r) := by
        cases h <;> cases a <;> first | exact hk.elim | exact ⟨rfl, hk⟩
      have hf : s.owner m = none := by
        rcases hl m (by simp) with g | g
        · exact g
        · rw [ho, h1.1] at g; cases g
      refine again { s with rest := upd s.rest i (p ++ r), owner := upd s.owner m (some i) } (some m) none ?_ rfl
        (fun _ _ => rfl) h1.2 ?_ ?_ rfl
      · unfold State.step; rw [hr]; simp only [List.cons_append, hf]
      · intro m'
        by_cases em : m' = m
        · subst em; simp [upd_same]
        · simp only [upd_other _ _ em, ho, h1.1]; simp [Ne.symm em]
      · intro m' k ek
        by_cases em : m' = m
        · subst em; simp [upd_same, hf, Ne.symm ek]
        · simp only [upd_other _ _ em]
    | unlock m =>
      have h1 : h = some m ∧ Kept guard none none (p ++ r) := by
        cases h <;> cases a <;> first | exact hk.elim | (obtain ⟨rfl, hk⟩ := hk; exact ⟨rfl, hk⟩)
      have hf : s.owner m = some i := (ho m).mpr h1.1
      refine again { s with rest := upd s.rest i (p ++ r), owner := upd s.owner m none } none none ?_ rfl
        (fun _ _ => rfl) h1.2 ?_ ?_ rfl
      · unfold State.step; rw [hr]; simp only [List.cons_append]
      · intro m'
        by_cases em : m' = m
        · subst em; simp [upd_same]
        · simp only [upd_other _ _ em, ho, h1.1]; simp [Ne.symm em]
      · intro m' k ek
        by_cases em : m' = m
        · subst em; simp [upd_same, hf, Ne.symm ek]
        · simp only [upd_other _ _ em]
    | enter x w =>
      have h1 : Kept guard h (some x) (p ++ r) := by
        cases h <;> cases a <;> first | exact hk.elim | exact hk.2
      refine again { s with rest := upd s.rest i (p ++ r), acc := upd s.acc i (some (x, w)) } h (some x) ?_ rfl
        (fun k ek => by simp [upd_other _ _ ek]) h1 ho (fun _ _ _ => Iff.rfl) rfl
      unfold State.step; rw [hr]; simp only [List.cons_append]
    | leave =>
      have h1 : Kept guard h none (p ++ r) := by
        cases h <;> cases a <;> first | exact hk.elim | exact hk
      refine again { s with rest := upd s.rest i (p ++ r), acc := upd s.acc i none } h none ?_ rfl
        (fun k ek => by simp [upd_other _ _ ek]) h1 ho (fun _ _ _ => Iff.rfl) rfl
      unfold State.step; rw [hr]; simp only [List.cons_append]

/-- Only the mutex that is held at the end has been locked since none was held. -/
private theorem last_lock {guard : V → Guard M} : ∀ (n : Nat) (p r : List (Op V M)), p.length = n →
    Kept guard none none (p ++ r) → ∃ p1 p2, p = p1 ++ p2 ∧ after none p1 = none ∧
      ∀ m, .lock m ∈ p2 → after none p = some m := by
  intro n
  induction n with
  | zero =>
    intro p r hp _
    rw [List.length_eq_zero_iff.mp hp]
    exact ⟨[], [], rfl, rfl, by simp⟩
  | succ n ih =>
    intro p r hp hk
    rcases List.eq_nil_or_concat p with e | ⟨q, o, e⟩
    · rw [e] at hp; cases hp
    · rw [List.concat_eq_append] at e
      subst e
      obtain ⟨p1, p2, rfl, h1, h2⟩ := ih q ([o] ++ r) (by simpa using hp) (by simpa using hk)
      have hd : Kept guard (after none (p1 ++ p2)) (amid none (p1 ++ p2)) (o :: r) := kept_drop (by simpa using hk)
      cases o with
      | lock m =>
        refine ⟨p1 ++ p2, [.lock m], rfl, ?_, ?_⟩
        · revert hd
          cases after none (p1 ++ p2) <;> cases amid none (p1 ++ p2) <;> intro hd <;> first | exact hd.elim | rfl
        · intro m' hm
          simp only [List.mem_singleton, Op.lock.injEq] at hm
          rw [after_append, hm]; rfl
      | unlock m => exact ⟨p1 ++ p2 ++ [.unlock m], [], by simp, by rw [after_append]; rfl, by simp⟩
      | enter x w =>
        refine ⟨p1, p2 ++ [.enter x w], by simp, h1, ?_⟩
        intro m hm
        rw [after_append]
        exact h2 m (by simpa using hm)
      | leave =>
        refine ⟨p1, p2 ++ [.leave], by simp, h1, ?_⟩
        intro m hm
        rw [after_append]
        exact h2 m (by simpa using hm)

/-- Some data is accessed by two goroutines at the same time, one of them writing, in some interleaving exactly if two of
them have such accesses, not both with the same mutex. -/
theorem conflict_iff [DecidableEq M] {guard : V → Guard M} {prog : Nat → List (Op V M)} (hp : ∀ i, Kept guard none none (prog i)) {x : V} :
    (∃ as s, run State.step (State.init prog) as = some s ∧ Conflict s x) ↔
    ∃ i j h h' w, i ≠ j ∧ (h, x, true) ∈ accs none (prog i) ∧ (h', x, w) ∈ accs none (prog j) ∧
      ∀ m, ¬ (h = some m ∧ h' = some m) := by
  constructor
  · rintro ⟨as, s, hr, i, j, w, hij, h1, h2⟩
    have hI : Inv2 prog s := run_inv (I := Inv2 prog) (inv2_step hp) as _ s
      (fun i => ⟨[], rfl, by simp [State.init, after], rfl, by intro x w e; cases e⟩) hr
    obtain ⟨p, a1, a2, _, a4⟩ := hI i
    obtain ⟨q, b1, b2, _, b4⟩ := hI j
    obtain ⟨p, rfl⟩ := a4 x true h1
    obtain ⟨q, rfl⟩ := b4 x w h2
    refine ⟨i, j, after none p, after none q, w, hij, mem_accs.mpr ⟨p, s.rest i, by simpa using a1, rfl⟩,
      mem_accs.mpr ⟨q, s.rest j, by simpa using b1, rfl⟩, ?_⟩
    rintro m ⟨e1, e2⟩
    have c1 := (a2 m).mpr (by rw [after_append, e1]; rfl)
    have c2 := (b2 m).mpr (by rw [after_append, e2]; rfl)
    rw [c1] at c2
    cases c2
    exact hij rfl
  · rintro ⟨i, j, h, h', w, hij, h1, h2, hm⟩
    obtain ⟨p, r, hpi, rfl⟩ := mem_accs.mp h1
    obtain ⟨q, t, hqj, rfl⟩ := mem_accs.mp h2
    have ki := hp i
    rw [hpi] at ki
    have kj := hp j
    rw [hqj] at kj
    obtain ⟨p1, p2, rfl, g1, g2⟩ := last_lock _ p _ rfl ki
    rw [List.append_assoc] at ki hpi
    obtain ⟨s1, r1, e1, _, o1, o1'⟩ := solo (i := i) p1 (State.init prog) none none hpi ki
      (by simp [State.init]) (by simp [State.init])
    have free1 : ∀ m, s1.owner m = none := by
      intro m
      cases hc : s1.owner m with
      | none => rfl
      | some k =>
        by_cases e : k = i
        · subst e; rw [o1, g1] at hc; cases hc
        · rw [o1' m k e] at hc; cases hc
    obtain ⟨s2, r2, e2, _, o2, o2'⟩ := solo (i := j) q s1 none none
      (by rw [e1, upd_other _ _ hij.symm]; exact hqj) kj (by simp [free1]) (by simp [free1])
    have st2 : s2.step j = some { s2 with rest := upd s2.rest j t, acc := upd s2.acc j (some (x, w)) } := by
      unfold State.step; rw [e2, upd_same]
    have k2 : Kept guard none (amid none p1) (p2 ++ .enter x true :: r) := by
      have := kept_drop ki
      rwa [g1] at this
    obtain ⟨s3, r3, e3, a3, o3, o3'⟩ := solo (i := i) (r := .enter x true :: r) p2
      { s2 with rest := upd s2.rest j t, acc := upd s2.acc j (some (x, w)) } none (amid none p1)
      (by show upd s2.rest j t i = _; rw [upd_other _ _ hij, e2, upd_other _ _ hij, e1, upd_same]) k2
      (by
        intro m
        show s2.owner m = some i ↔ _
        rw [o2' m i hij, free1]; simp)
      (by
        intro m hm2
        refine Or.inl ?_
        show s2.owner m = none
        cases hc : s2.owner m with
        | none => rfl
        | some k =>
          by_cases e : k = j
          · subst e
            exact (hm m ⟨g2 m hm2, (o2 m).mp hc⟩).elim
          · rw [o2' m k e, free1] at hc; cases hc)
    have st3 : s3.step i = some { s3 with rest := upd s3.rest i r, acc := upd s3.acc i (some (x, true)) } := by
      unfold State.step; rw [e3, upd_same]
    refine ⟨List.replicate p1.length i ++ (List.replicate q.length j ++ (j :: (List.replicate p2.length i ++ [i]))),
      { s3 with rest := upd s3.rest i r, acc := upd s3.acc i (some (x, true)) }, ?_, i, j, w, hij, ?_, ?_⟩
    · rw [run_append, r1]
      show run State.step s1 _ = _
      rw [run_append, r2]
      show run State.step s2 _ = _
      rw [run, st2]
      show run State.step _ _ = _
      rw [run_append, r3]
      show run State.step s3 _ = _
      rw [run, st3]
      rfl
    · simp [upd_same]
    · show upd s3.acc i _ j = _
      rw [upd_other _ _ hij.symm, a3 j hij.symm]
      simp [upd_same]

end Verif.Race
