import Verif.Trans

/-!
# Executions that do not end

An execution that goes on for ever is a sequence of states and actions.  Fairness says that goroutines that can go on do.
-/

namespace Verif

variable {σ α : Type}

/-- An execution that goes on for ever: the states and the actions between them. -/
structure Exec (step : σ → α → Option σ) (s0 : σ) where
  st : Nat → σ
  act : Nat → α
  init : st 0 = s0
  next : ∀ n, step (st n) (act n) = some (st (n + 1))

variable {step : σ → α → Option σ} {s0 : σ}

/-- What holds at the beginning and is preserved holds always. -/
theorem Exec.inv (E : Exec step s0) {I : σ → Prop} {ok : σ → α → Prop}
    (hstep : ∀ s a t, ok s a → I s → step s a = some t → I t) (hok : ∀ n, ok (E.st n) (E.act n)) (h0 : I s0) :
    ∀ n, I (E.st n) := by
  intro n
  induction n with
  | zero => rw [E.init]; exact h0
  | succ n ih => exact hstep _ _ _ (hok n) ih (E.next n)

/-- The states of an execution are reachable. -/
theorem Exec.reach (E : Exec step s0) (n : Nat) : run step s0 ((List.range n).map E.act) = some (E.st n) := by
  induction n with
  | zero => simp [run, E.init]
  | succ n ih =>
    rw [List.range_succ, List.map_append, run_append, ih]
    simp [run, E.next n]

/-- What is preserved from a point on holds from there on. -/
theorem Exec.stable (E : Exec step s0) {P : σ → Prop} {n : Nat} (h : P (E.st n))
    (hstep : ∀ m, n ≤ m → P (E.st m) → P (E.st (m + 1))) : ∀ m, n ≤ m → P (E.st m) := by
  intro m hm
  induction m with
  | zero => have : n = 0 := by omega
            subst this; exact h
  | succ m ih =>
    by_cases e : n = m + 1
    · rw [← e]; exact h
    · exact hstep m (by omega) (ih (by omega))

/-- A phase that is left only towards `Q`, and cannot last for ever, is followed by `Q`. -/
theorem Exec.leads (E : Exec step s0) {P Q : σ → Prop} {n : Nat} (h : P (E.st n))
    (keep : ∀ m, n ≤ m → P (E.st m) → P (E.st (m + 1)) ∨ Q (E.st (m + 1)))
    (ends : (∀ m, n ≤ m → P (E.st m)) → ∃ m, n ≤ m ∧ Q (E.st m)) : ∃ m, n ≤ m ∧ Q (E.st m) :=
  Classical.byContradiction fun hno => hno (ends (E.stable h fun m hm hp => (keep m hm hp).resolve_right
    fun hq => hno ⟨m + 1, by omega, hq⟩))

/-- Weak fairness: an action of the class that from some point on is possible all the time is taken. -/
def Exec.WeaklyFair (E : Exec step s0) (G : α → Prop) : Prop :=
  ∀ a, G a → ∀ n, (∀ m, n ≤ m → step (E.st m) a ≠ none) → ∃ m, n ≤ m ∧ E.act m = a

/-- Strong fairness: an action of the class that is possible again and again is taken. -/
def Exec.StronglyFair (E : Exec step s0) (G : α → Prop) : Prop :=
  ∀ a, G a → ∀ n, (∀ k, n ≤ k → ∃ m, k ≤ m ∧ step (E.st m) a ≠ none) → ∃ m, n ≤ m ∧ E.act m = a

/-- A phase in which an action of the class is possible, which is left only towards `Q`, and that the action ends, is
followed by `Q`. -/
theorem Exec.leads_by (E : Exec step s0) {G : α → Prop} (F : E.WeaklyFair G) {P Q : σ → Prop} {n : Nat} (a : α) (ha : G a)
    (h : P (E.st n)) (keep : ∀ m, n ≤ m → P (E.st m) → P (E.st (m + 1)) ∨ Q (E.st (m + 1)))
    (can : ∀ m, n ≤ m → P (E.st m) → step (E.st m) a ≠ none)
    (does : ∀ m, n ≤ m → P (E.st m) → E.act m = a → Q (E.st (m + 1))) : ∃ m, n ≤ m ∧ Q (E.st m) :=
  E.leads h keep fun hall => by
    obtain ⟨m, hm, e⟩ := F a ha n fun m hm => can m hm (hall m hm)
    exact ⟨m + 1, by omega, does m hm (hall m hm) e⟩

/-- Steps from a state by a list of actions and then by the actions `b` for ever. -/
def lasso (step : σ → α → Option σ) (s0 : σ) (as : List α) (b : Nat → α) : Nat → σ
  | 0 => s0
  | n + 1 => (step (lasso step s0 as b n) (as[n]?.getD (b n))).getD (lasso step s0 as b n)

theorem lasso_run {step : σ → α → Option σ} {s0 s : σ} {as : List α} {b : Nat → α} (h : run step s0 as = some s) :
    ∀ n, n ≤ as.length → run step s0 (as.take n) = some (lasso step s0 as b n) := by
  intro n
  induction n with
  | zero => intro _; rfl
  | succ n ih =>
    intro hn
    have hlt : n < as.length := by omega
    have h1 := ih (by omega)
    rw [List.take_add_one, List.getElem?_eq_getElem hlt, run_append, h1]
    simp only [Option.toList, Option.bind, run]
    have : run step (lasso step s0 as b n) (as.drop n) = some s := by
      rw [← List.take_append_drop n as, run_append, h1] at h; exact h
    rw [List.drop_eq_getElem_cons hlt, run] at this
    simp only [lasso, List.getElem?_eq_getElem hlt, Option.getD]
    revert this
    cases step (lasso step s0 as b n) as[n] with
    | none => intro h; cases h
    | some v => intro _; rfl

/-- An execution that does a list of actions and then other actions that preserve `P`, under which they are
possible. -/
def Exec.ofLasso (step : σ → α → Option σ) (s0 : σ) (as : List α) (b : Nat → α) {s : σ} (h : run step s0 as = some s)
    {P : σ → Prop} (hP : P s) (hb : ∀ s n, P s → ∃ t, step s (b n) = some t ∧ P t) : Exec step s0 where
  st := lasso step s0 as b
  act := fun n => as[n]?.getD (b n)
  init := rfl
  next := by
    have tail : ∀ n, as.length ≤ n → P (lasso step s0 as b n) := by
      intro n hn
      induction n with
      | zero =>
        have := lasso_run (b := b) h as.length (Nat.le_refl _)
        have e : as.length = 0 := by omega
        rw [e] at this
        have e2 : as = [] := List.eq_nil_of_length_eq_zero e
        subst e2
        cases h
        exact hP
      | succ n ih =>
        by_cases e : as.length = n + 1
        · have := lasso_run (b := b) h (n + 1) (by omega)
          rw [← e, List.take_length, h] at this
          rw [← e, ← Option.some.inj this]; exact hP
        · obtain ⟨t, ht, pt⟩ := hb _ n (ih (by omega))
          have : as[n]? = none := List.getElem?_eq_none (by omega)
          simp only [lasso, this, Option.getD, ht]
          exact pt
    intro n
    by_cases hn : n < as.length
    · have h1 := lasso_run (b := b) h (n + 1) (by omega)
      have h0 := lasso_run (b := b) h n (by omega)
      rw [List.take_add_one, List.getElem?_eq_getElem hn, run_append, h0] at h1
      simp only [Option.toList, Option.bind, run] at h1
      simp only [List.getElem?_eq_getElem hn, Option.getD]
      revert h1
      cases step (lasso step s0 as b n) as[n] with
      | none => intro h; cases h
      | some v => intro h; exact h
    · obtain ⟨t, ht, -⟩ := hb _ n (tail n (by omega))
      have : as[n]? = none := List.getElem?_eq_none (by omega)
      simp only [lasso, this, Option.getD, ht]

/-- In the second part of such an execution `P` holds. -/
theorem Exec.ofLasso_tail {s : σ} {as : List α} {b : Nat → α} (h : run step s0 as = some s)
    {P : σ → Prop} (hP : P s) (hb : ∀ s n, P s → ∃ t, step s (b n) = some t ∧ P t) :
    (Exec.ofLasso step s0 as b h hP hb).st as.length = s ∧
    ∀ n, as.length ≤ n → P ((Exec.ofLasso step s0 as b h hP hb).st n) ∧
      (Exec.ofLasso step s0 as b h hP hb).act n = b n := by
  have h0 : (Exec.ofLasso step s0 as b h hP hb).st as.length = s := by
    have := lasso_run (b := b) h as.length (Nat.le_refl _)
    rw [List.take_length, h] at this
    exact (Option.some.inj this).symm
  refine ⟨h0, fun n hn => ⟨?_, ?_⟩⟩
  · refine (Exec.ofLasso step s0 as b h hP hb).stable (P := P) (n := as.length) (by rw [h0]; exact hP) ?_ n hn
    intro m hm pm
    obtain ⟨t, ht, pt⟩ := hb _ m pm
    have e := (Exec.ofLasso step s0 as b h hP hb).next m
    have ea : (Exec.ofLasso step s0 as b h hP hb).act m = b m := by
      show as[m]?.getD (b m) = b m
      rw [List.getElem?_eq_none hm]; rfl
    rw [ea, ht] at e
    rw [← Option.some.inj e]; exact pt
  · show as[n]?.getD (b n) = b n
    rw [List.getElem?_eq_none hn]; rfl

/-! ## The course of a part of a system -/

/-- The course of a part of a system: in every step of the system the part takes a step or stays as it is. -/
structure Trace (step : σ → α → Option σ) where
  st : Nat → σ
  act : Nat → Option α
  next : ∀ n, match act n with
    | some a => step (st n) a = some (st (n + 1))
    | none => st (n + 1) = st n

/-- An execution is the course of the whole. -/
def Exec.trace (E : Exec step s0) : Trace step := ⟨E.st, fun n => some (E.act n), E.next⟩

namespace Trace

variable (T : Trace step)

theorem some_step {n : Nat} {a : α} (h : T.act n = some a) : step (T.st n) a = some (T.st (n + 1)) := by
  have := T.next n
  rw [h] at this
  exact this

theorem none_step {n : Nat} (h : T.act n = none) : T.st (n + 1) = T.st n := by
  have := T.next n
  rw [h] at this
  exact this

/-- What holds and is kept by every step holds from there on. -/
theorem keep {P : Nat → Prop} {n : Nat} (h : P n) (hstep : ∀ m, n ≤ m → P m → P (m + 1)) : ∀ m, n ≤ m → P m := by
  intro m hm
  induction m with
  | zero => have : n = 0 := by omega
            subst this; exact h
  | succ m ih =>
    by_cases e : n = m + 1
    · rw [← e]; exact h
    · exact hstep m (by omega) (ih (by omega))

/-- What steps keep holds from there on. -/
theorem stays {P : σ → Prop} (hstep : ∀ s a t, P s → step s a = some t → P t) {n : Nat} (h : P (T.st n)) :
    ∀ m, n ≤ m → P (T.st m) := by
  refine keep (P := fun m => P (T.st m)) h fun m _ hp => ?_
  cases e : T.act m with
  | none => rw [T.none_step e]; exact hp
  | some a => exact hstep _ _ _ hp (T.some_step e)

/-- A relation that holds between neighbours holds between states and later states. -/
theorem later {Q : σ → σ → Prop} (refl : ∀ s, Q s s) (trans : ∀ s t u, Q s t → Q t u → Q s u)
    (hstep : ∀ s a t, step s a = some t → Q s t) {n m : Nat} (h : n ≤ m) : Q (T.st n) (T.st m) := by
  refine keep (P := fun m => Q (T.st n) (T.st m)) (refl _) (fun m _ hq => trans _ _ _ hq ?_) m h
  cases e : T.act m with
  | none => rw [T.none_step e]; exact refl _
  | some a => exact hstep _ _ _ (T.some_step e)

/-- Weak fairness for classes of steps: if from some point on a step of the class is possible all the time, one is taken.
Which step belongs to the class may depend on the state. -/
def WeaklyFair (G : (σ → α → Prop) → Prop) : Prop :=
  ∀ K, G K → ∀ n, (∀ m, n ≤ m → ∃ a, K (T.st m) a ∧ step (T.st m) a ≠ none) →
    ∃ m a, n ≤ m ∧ T.act m = some a ∧ K (T.st m) a

/-- Strong fairness for classes of steps: if a step of the class is possible again and again, one is taken. -/
def StronglyFair (G : (σ → α → Prop) → Prop) : Prop :=
  ∀ K, G K → ∀ n, (∀ k, n ≤ k → ∃ m a, k ≤ m ∧ K (T.st m) a ∧ step (T.st m) a ≠ none) →
    ∃ m a, n ≤ m ∧ T.act m = some a ∧ K (T.st m) a

variable {T}

/-- If `P` lasts until a step of the class is taken, and makes one possible, such a step is taken while `P` holds. -/
theorem WeaklyFair.taken {G : (σ → α → Prop) → Prop} (F : T.WeaklyFair G) {K : σ → α → Prop} (hK : G K) {P : Nat → Prop}
    {n : Nat} (h : P n) (can : ∀ m, n ≤ m → P m → ∃ a, K (T.st m) a ∧ step (T.st m) a ≠ none)
    (stay : ∀ m, n ≤ m → P m → (∀ a, T.act m = some a → ¬ K (T.st m) a) → P (m + 1)) :
    ∃ m a, n ≤ m ∧ P m ∧ T.act m = some a ∧ K (T.st m) a := by
  refine Classical.byContradiction fun hno => ?_
  have hall : ∀ m, n ≤ m → P m := keep h fun m hm hp => stay m hm hp fun a ha hk => hno ⟨m, a, hm, hp, ha, hk⟩
  obtain ⟨m, a, hm, ha, hk⟩ := F K hK n fun m hm => can m hm (hall m hm)
  exact hno ⟨m, a, hm, hall m hm, ha, hk⟩

/-- There is a first time. -/
theorem first {P : Nat → Prop} {n : Nat} (h : ∃ m, n ≤ m ∧ P m) : ∃ m, n ≤ m ∧ P m ∧ ∀ k, n ≤ k → k < m → ¬ P k := by
  obtain ⟨m, hm, hp⟩ := h
  induction m using Nat.strongRecOn with
  | ind m ih =>
    by_cases e : ∃ k, n ≤ k ∧ k < m ∧ P k
    · obtain ⟨k, h1, h2, h3⟩ := e
      exact ih k h2 h1 h3
    · exact ⟨m, hm, hp, fun k h1 h2 h3 => e ⟨k, h1, h2, h3⟩⟩

/-- What holds of each of finitely many from some time on holds of all of them from some time on. -/
theorem eventually_list {β : Type} (P : β → Nat → Prop) (n : Nat) (l : List β)
    (h : ∀ c ∈ l, ∃ k, n ≤ k ∧ ∀ m, k ≤ m → P c m) : ∃ k, n ≤ k ∧ ∀ m, k ≤ m → ∀ c ∈ l, P c m := by
  induction l with
  | nil => exact ⟨n, Nat.le_refl _, fun _ _ c hc => by cases hc⟩
  | cons x l ih =>
    obtain ⟨k, hk, h1⟩ := ih fun c hc => h c (List.mem_cons_of_mem _ hc)
    obtain ⟨k', hk', h2⟩ := h x List.mem_cons_self
    refine ⟨max k k', by omega, fun m hm c hc => ?_⟩
    rcases List.mem_cons.mp hc with e | hc
    · subst e; exact h2 m (by omega)
    · exact h1 m (by omega) c hc

end Trace

end Verif
