/-!
# Transition systems

Concurrent code is modelled as a partial step function on states: `step s a = some s'` if action `a` is
enabled in `s`.  An execution is a list of actions; every interleaving of the goroutines is one.
-/

namespace Verif

variable {σ α : Type}

/-- Assignment to one entry of a table. -/
def upd {ι : Type} [DecidableEq ι] {β : Type} (f : ι → β) (i : ι) (x : β) : ι → β := fun j => if j = i then x else f j

@[simp] theorem upd_same {ι : Type} [DecidableEq ι] {β : Type} (f : ι → β) (i : ι) (x : β) : upd f i x i = x := by
  simp [upd]

theorem upd_other {ι : Type} [DecidableEq ι] {β : Type} (f : ι → β) {i j : ι} (x : β) (h : j ≠ i) :
    upd f i x j = f j := by
  simp [upd, h]

/-- Run a list of actions; `none` if one of them is not enabled. -/
def run (step : σ → α → Option σ) : σ → List α → Option σ
  | s, [] => some s
  | s, a :: as => match step s a with
    | none => none
    | some s' => run step s' as

/-- A state is reachable if some list of actions leads to it. -/
def Reachable (step : σ → α → Option σ) (s0 s : σ) : Prop := ∃ as, run step s0 as = some s

theorem run_append (step : σ → α → Option σ) (s : σ) (as bs : List α) :
    run step s (as ++ bs) = (run step s as).bind (fun t => run step t bs) := by
  induction as generalizing s with
  | nil => rfl
  | cons a as ih =>
    simp only [List.cons_append, run]
    split
    · rfl
    · exact ih _

/-- Induction over executions. -/
theorem run_inv {step : σ → α → Option σ} {I : σ → Prop} (hstep : ∀ s a s', I s → step s a = some s' → I s') :
    ∀ (as : List α) (s s' : σ), I s → run step s as = some s' → I s' := by
  intro as
  induction as with
  | nil => intro s s' h e; cases e; exact h
  | cons a as ih =>
    intro s s' h e
    simp only [run] at e
    split at e
    · cases e
    · rename_i t ht; exact ih t s' (hstep s a t h ht) e

/-- The same for actions restricted to those satisfying `A`. -/
theorem run_inv_on {step : σ → α → Option σ} {I : σ → Prop} {A : α → Prop}
    (hstep : ∀ s a s', A a → I s → step s a = some s' → I s') :
    ∀ (as : List α) (s s' : σ), (∀ a ∈ as, A a) → I s → run step s as = some s' → I s' := by
  intro as
  induction as with
  | nil => intro s s' _ h e; cases e; exact h
  | cons a as ih =>
    intro s s' hA h e
    simp only [run] at e
    split at e
    · cases e
    · rename_i t ht
      exact ih t s' (fun b hb => hA b (List.mem_cons_of_mem _ hb)) (hstep s a t (hA a (List.mem_cons_self ..)) h ht) e

/-- `ok` holds of every step of the execution `acts` from `s0`. -/
def AllSteps (step : σ → α → Option σ) (s0 : σ) (acts : List α) (ok : σ → α → Prop) : Prop :=
  ∀ pre a post t, acts = pre ++ a :: post → run step s0 pre = some t → ok t a

theorem AllSteps.nil {step : σ → α → Option σ} {ok : σ → α → Prop} {s : σ} : AllSteps step s [] ok := by
  intro pre b post v he
  simp at he

theorem AllSteps.cons {step : σ → α → Option σ} {ok : σ → α → Prop} {s t : σ} {a : α} {as : List α}
    (h1 : ok s a) (hs : step s a = some t) (h2 : AllSteps step t as ok) : AllSteps step s (a :: as) ok := by
  intro pre b post v he hv
  cases pre with
  | nil => cases he; cases hv; exact h1
  | cons x pre =>
    cases he
    simp only [run, hs] at hv
    exact h2 pre b post v rfl hv

theorem run_inv_steps {step : σ → α → Option σ} {I : σ → Prop} {ok : σ → α → Prop}
    (hstep : ∀ s a s', ok s a → I s → step s a = some s' → I s') :
    ∀ (as : List α) (s s' : σ), AllSteps step s as ok → I s → run step s as = some s' → I s' := by
  intro as
  induction as with
  | nil => intro s s' _ h e; cases e; exact h
  | cons a as ih =>
    intro s s' hA h e
    simp only [run] at e
    split at e
    · cases e
    · rename_i t ht
      refine ih t s' ?_ (hstep s a t (hA [] a as s rfl rfl) h ht) e
      intro pre b post u hp hu
      exact hA (a :: pre) b post u (by simp [hp]) (by simp [run, ht, hu])

theorem Reachable.refl (step : σ → α → Option σ) (s : σ) : Reachable step s s := ⟨[], rfl⟩

theorem Reachable.inv {step : σ → α → Option σ} {I : σ → Prop} (hstep : ∀ s a s', I s → step s a = some s' → I s')
    {s0 s : σ} (h0 : I s0) (h : Reachable step s0 s) : I s := by
  obtain ⟨as, h⟩ := h
  exact run_inv hstep as s0 s h0 h

theorem Reachable.step {step : σ → α → Option σ} {s0 s s' : σ} {a : α} (h : Reachable step s0 s)
    (hs : step s a = some s') : Reachable step s0 s' := by
  obtain ⟨as, h⟩ := h
  exact ⟨as ++ [a], by rw [run_append, h]; simp [run, hs]⟩

theorem Reachable.trans {step : σ → α → Option σ} {s0 s s' : σ} (h : Reachable step s0 s)
    (h' : Reachable step s s') : Reachable step s0 s' := by
  obtain ⟨as, h⟩ := h
  obtain ⟨bs, h'⟩ := h'
  exact ⟨as ++ bs, by rw [run_append, h]; exact h'⟩

end Verif
