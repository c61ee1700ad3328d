import Verif.Dock.Start
import Mathlib.Data.List.Perm.Basic
import Mathlib.Data.List.Nodup

/-!
# C101: features are started once and before they are destroyed

Full statement: once the start of the features has been triggered, `OnStart` of every feature is called exactly once;
`OnDestroy` of a feature is called only after its `OnStart` has returned, and no `OnStart` is called afterwards.
The second half and, if a feature does not return, the first are false.
-/

namespace Verif.Props

open Verif Verif.Start

/-- The features whose `OnStart` has been called, in order. -/
def startedOf (log : List Ev) : List Nat := log.filterMap fun
  | .start f => some f
  | _ => none

/-- The features whose `OnDestroy` has been called, in order. -/
def destroyedOf (log : List Ev) : List Nat := log.filterMap fun
  | .destroy f => some f
  | _ => none

private theorem startedOf_snoc (log : List Ev) (e : Ev) :
    startedOf (log ++ [e]) = startedOf log ++ (match e with | .start f => [f] | _ => []) := by
  unfold startedOf
  rw [List.filterMap_append]
  cases e <;> rfl

private theorem destroyedOf_snoc (log : List Ev) (e : Ev) :
    destroyedOf (log ++ [e]) = destroyedOf log ++ (match e with | .destroy f => [f] | _ => []) := by
  unfold destroyedOf
  rw [List.filterMap_append]
  cases e <;> rfl

/-- The loops have visited what they no longer have to visit. -/
private structure LoopInv (fs : List Nat) (s : Start.State) : Prop where
  slots : s.slots = fs ∨ s.slots = []
  before : s.start = none → startedOf s.log = []
  during : ∀ l, s.start = some l → (startedOf s.log ++ l.todo).Perm fs ∨ (startedOf s.log = [] ∧ l.todo = [])
  cnone : s.close = none → destroyedOf s.log = [] ∧ s.slots = fs
  csome : ∀ l, s.close = some l → (destroyedOf s.log ++ l.todo).Perm fs
  early : s.slots = fs → ∀ l, s.start = some l → (startedOf s.log ++ l.todo).Perm fs

private theorem next_some {l l' : Loop} {f : Nat} (h : l.next f = some l') :
    l.current = none ∧ f ∈ l.todo ∧ l' = ⟨l.todo.erase f, some f⟩ := by
  unfold Loop.next at h
  split at h
  · rename_i hc; cases h; exact ⟨hc.1, hc.2, rfl⟩
  · cases h

private theorem ret_some {l l' : Loop} {f : Nat} (h : l.ret f = some l') :
    l.current = some f ∧ l' = ⟨l.todo, none⟩ := by
  unfold Loop.ret at h
  split at h
  · rename_i hc; cases h; exact ⟨hc, rfl⟩
  · cases h

private theorem perm_next {a l fs : List Nat} {f : Nat} (h : (a ++ l).Perm fs) (hf : f ∈ l) :
    ((a ++ [f]) ++ l.erase f).Perm fs := by
  rw [List.append_assoc, List.singleton_append]
  exact ((List.perm_cons_erase hf).symm.append_left a).trans h

private theorem inv_step (fs : List Nat) (s : Start.State) (a : Start.Act) (s' : Start.State) (h : LoopInv fs s)
    (hs : s.step a = some s') : LoopInv fs s' := by
  cases a with
  | trigger =>
    simp only [State.step] at hs
    split at hs
    · rename_i h0
      cases hs
      have h1 := h.before h0
      refine ⟨h.slots, ?_, ?_, h.cnone, h.csome, ?_⟩
      · intro h'; cases h'
      · intro l hl
        cases hl
        rcases h.slots with e | e
        · left; rw [h1, e]; exact List.Perm.refl _
        · right; exact ⟨h1, e⟩
      · intro e l hl
        cases hl
        simp only at e ⊢
        rw [h1, e]; exact List.Perm.refl _
    · cases hs
  | start f =>
    simp only [State.step] at hs
    split at hs
    · cases hs
    · rename_i l h0
      simp only [Option.map_eq_some_iff] at hs
      obtain ⟨l', hl', rfl⟩ := hs
      obtain ⟨_, hf, rfl⟩ := next_some hl'
      refine ⟨h.slots, fun h' => (by cases h'), ?_, ?_, ?_, ?_⟩
      · intro m hm
        cases hm
        simp only [startedOf_snoc]
        rcases h.during l h0 with e | e
        · exact Or.inl (perm_next e hf)
        · rw [e.2] at hf; cases hf
      · intro hc; simpa only [destroyedOf_snoc, List.append_nil] using h.cnone hc
      · intro m hm; simpa only [destroyedOf_snoc, List.append_nil] using h.csome m hm
      · intro e m hm
        cases hm
        simp only [startedOf_snoc]
        exact perm_next (h.early e l h0) hf
  | started f =>
    simp only [State.step] at hs
    split at hs
    · cases hs
    · rename_i l h0
      simp only [Option.map_eq_some_iff] at hs
      obtain ⟨l', hl', rfl⟩ := hs
      obtain ⟨_, rfl⟩ := ret_some hl'
      refine ⟨h.slots, fun h' => (by cases h'), ?_, ?_, ?_, ?_⟩
      · intro m hm; cases hm; simpa only [startedOf_snoc, List.append_nil] using h.during l h0
      · intro hc; simpa only [destroyedOf_snoc, List.append_nil] using h.cnone hc
      · intro m hm; simpa only [destroyedOf_snoc, List.append_nil] using h.csome m hm
      · intro e m hm; cases hm; simpa only [startedOf_snoc, List.append_nil] using h.early e l h0
  | close =>
    simp only [State.step] at hs
    split at hs
    · rename_i h0
      cases hs
      obtain ⟨h1, h2⟩ := h.cnone h0
      refine ⟨h.slots, h.before, h.during, fun h' => (by cases h'), ?_, h.early⟩
      intro l hl
      cases hl
      simp only
      rw [h1, h2]; exact List.Perm.refl _
    · cases hs
  | destroy f =>
    simp only [State.step] at hs
    split at hs
    · cases hs
    · rename_i l h0
      simp only [Option.map_eq_some_iff] at hs
      obtain ⟨l', hl', rfl⟩ := hs
      obtain ⟨_, hf, rfl⟩ := next_some hl'
      refine ⟨h.slots, ?_, ?_, fun h' => (by cases h'), ?_, ?_⟩
      · intro hc; simpa only [startedOf_snoc, List.append_nil] using h.before hc
      · intro m hm; simpa only [startedOf_snoc, List.append_nil] using h.during m hm
      · intro m hm
        cases hm
        simp only [destroyedOf_snoc]
        exact perm_next (h.csome l h0) hf
      · intro e m hm; simpa only [startedOf_snoc, List.append_nil] using h.early e m hm
  | destroyed f =>
    simp only [State.step] at hs
    split at hs
    · cases hs
    · rename_i l h0
      simp only [Option.map_eq_some_iff] at hs
      obtain ⟨l', hl', rfl⟩ := hs
      obtain ⟨_, rfl⟩ := ret_some hl'
      refine ⟨h.slots, ?_, ?_, fun h' => (by cases h'), ?_, ?_⟩
      · intro hc; simpa only [startedOf_snoc, List.append_nil] using h.before hc
      · intro m hm; simpa only [startedOf_snoc, List.append_nil] using h.during m hm
      · intro m hm; cases hm; simpa only [destroyedOf_snoc, List.append_nil] using h.csome l h0
      · intro e m hm; simpa only [startedOf_snoc, List.append_nil] using h.early e m hm
  | forget =>
    simp only [State.step] at hs
    split at hs
    · rename_i h0
      cases hs
      refine ⟨Or.inr rfl, h.before, h.during, ?_, h.csome, ?_⟩
      · intro h'; rw [h0] at h'; cases h'
      · intro e l hl
        simp only at e
        rcases h.during l hl with p | ⟨p1, p2⟩
        · exact p
        · simp only [p1, p2, ← e]; exact List.Perm.refl _
    · cases hs

private theorem inv_run {fs : List Nat} {as : List Start.Act} {s : Start.State}
    (h : run State.step (State.init fs) as = some s) : LoopInv fs s :=
  run_inv (inv_step fs) as _ s
    ⟨Or.inl rfl, fun _ => rfl, fun l hl => (by cases hl), fun _ => ⟨rfl, rfl⟩, fun l hl => (by cases hl),
      fun _ l hl => (by cases hl)⟩ h

private theorem slots_kept {fs : List Nat} {as : List Start.Act} {s : Start.State} (hn : .forget ∉ as)
    (h : run State.step (State.init fs) as = some s) : s.slots = fs := by
  refine run_inv_on (I := fun s => s.slots = fs) (A := fun a => a ≠ .forget) ?_ as _ s
    (fun a ha e => hn (e ▸ ha)) rfl h
  intro s a s' ha hI hs
  cases a with
  | forget => exact absurd rfl ha
  | trigger | close =>
    simp only [State.step] at hs
    split at hs
    · cases hs; exact hI
    · cases hs
  | start f | started f | destroy f | destroyed f =>
    simp only [State.step] at hs
    split at hs
    · cases hs
    · simp only [Option.map_eq_some_iff] at hs
      obtain ⟨l', _, rfl⟩ := hs
      exact hI

private theorem early_run {fs : List Nat} {as : List Start.Act} {t s : Start.State}
    (hp : ∀ l, t.start = some l → (startedOf t.log ++ l.todo).Perm fs) (ht : t.start ≠ none)
    (h : run State.step t as = some s) : ∀ l, s.start = some l → (startedOf s.log ++ l.todo).Perm fs := by
  refine (run_inv (I := fun s => s.start ≠ none ∧ ∀ l, s.start = some l → (startedOf s.log ++ l.todo).Perm fs)
    ?_ as t s ⟨ht, hp⟩ h).2
  intro s a s' ⟨h1, h2⟩ hs
  cases a with
  | trigger =>
    simp only [State.step] at hs
    split at hs
    · rename_i e; exact absurd e h1
    · cases hs
  | close =>
    simp only [State.step] at hs
    split at hs
    · cases hs; exact ⟨h1, h2⟩
    · cases hs
  | forget =>
    simp only [State.step] at hs
    split at hs
    · cases hs; exact ⟨h1, h2⟩
    · cases hs
  | start f =>
    simp only [State.step] at hs
    split at hs
    · cases hs
    · rename_i l h0
      simp only [Option.map_eq_some_iff] at hs
      obtain ⟨l', hl', rfl⟩ := hs
      obtain ⟨_, hf, rfl⟩ := next_some hl'
      refine ⟨by simp, ?_⟩
      intro m hm
      cases hm
      simp only [startedOf_snoc]
      exact perm_next (h2 l h0) hf
  | started f =>
    simp only [State.step] at hs
    split at hs
    · cases hs
    · rename_i l h0
      simp only [Option.map_eq_some_iff] at hs
      obtain ⟨l', hl', rfl⟩ := hs
      obtain ⟨_, rfl⟩ := ret_some hl'
      refine ⟨by simp, ?_⟩
      intro m hm
      cases hm
      simpa only [startedOf_snoc, List.append_nil] using h2 l h0
  | destroy f | destroyed f =>
    simp only [State.step] at hs
    split at hs
    · cases hs
    · simp only [Option.map_eq_some_iff] at hs
      obtain ⟨l', _, rfl⟩ := hs
      refine ⟨h1, ?_⟩
      intro m hm
      simpa only [startedOf_snoc, List.append_nil] using h2 m hm

/-- C101 (partial): however starting and closing overlap, `OnStart` and `OnDestroy` of a feature are called at most once
each.  When the loop of `start` is over, `OnStart` was called exactly once for each feature, if the start was triggered
before `Close` forgot the features; when the loop of `Close` is over, `OnDestroy` was called exactly once for each.
Missing: that the loop of `start` ends, see `C101_blocked_refuted`. -/
theorem C101_once_partial (fs : List Nat) (hfs : fs.Nodup) (as : List Start.Act) (s : Start.State)
    (h : run State.step (State.init fs) as = some s) :
    (startedOf s.log).Nodup ∧ (destroyedOf s.log).Nodup ∧
    (∀ pre post, as = pre ++ .trigger :: post → .forget ∉ pre → s.start = some ⟨[], none⟩ →
      (startedOf s.log).Perm fs) ∧
    (s.close = some ⟨[], none⟩ → (destroyedOf s.log).Perm fs) := by
  have hI := inv_run h
  refine ⟨?_, ?_, ?_, ?_⟩
  · cases e : s.start with
    | none => rw [hI.before e]; exact List.nodup_nil
    | some l =>
      rcases hI.during l e with p | ⟨p, _⟩
      · exact (List.nodup_append.mp (p.nodup_iff.mpr hfs)).1
      · rw [p]; exact List.nodup_nil
  · cases e : s.close with
    | none => rw [(hI.cnone e).1]; exact List.nodup_nil
    | some l => exact (List.nodup_append.mp ((hI.csome l e).nodup_iff.mpr hfs)).1
  · rintro pre post rfl hn he
    rw [run_append] at h
    cases hp : run State.step (State.init fs) pre with
    | none => rw [hp] at h; cases h
    | some t =>
      rw [hp] at h
      simp only [Option.bind_some, run] at h
      split at h
      · cases h
      · rename_i u hu
        have hs := slots_kept hn hp
        simp only [State.step] at hu
        split at hu
        · rename_i e
          cases hu
          have := early_run (fs := fs) ?_ (by simp) h ⟨[], none⟩ he
          · simpa using this
          · intro l hl
            cases hl
            simp only
            rw [(inv_run hp).before e, hs]
            exact List.Perm.refl _
        · cases hu
  · intro he
    simpa using hI.csome _ he

example : ∃ s, run State.step (State.init [1, 2]) [.trigger, .start 2, .started 2, .start 1, .started 1, .close,
    .destroy 1, .destroyed 1, .destroy 2, .destroyed 2, .forget] = some s ∧ s.start = some ⟨[], none⟩ ∧
    startedOf s.log = [2, 1] ∧ destroyedOf s.log = [1, 2] := ⟨_, rfl, rfl, rfl, rfl⟩

private theorem split_snoc {log pre post : List Ev} {e x : Ev} (h : log ++ [e] = pre ++ x :: post) :
    (∃ post', post = post' ++ [e] ∧ log = pre ++ x :: post') ∨ (post = [] ∧ e = x ∧ log = pre) := by
  rcases List.eq_nil_or_concat post with rfl | ⟨post', y, rfl⟩
  · right
    have := List.append_inj' h rfl
    simp only [List.cons.injEq, and_true] at this
    exact ⟨rfl, this.2, this.1⟩
  · left
    rw [List.concat_eq_append] at h ⊢
    rw [show pre ++ x :: (post' ++ [y]) = (pre ++ x :: post') ++ [y] by simp] at h
    have := List.append_inj' h rfl
    simp only [List.cons.injEq, and_true] at this
    exact ⟨post', by rw [this.2], this.1⟩

/-- Destroying begins after all features were started, and nothing is started afterwards. -/
private structure OrderInv (fs : List Nat) (s : Start.State) : Prop where
  base : LoopInv fs s
  ret : ∀ f ∈ startedOf s.log, .started f ∈ s.log ∨ ∃ l, s.start = some l ∧ l.current = some f
  open_ : s.close = none → ∀ f, .destroy f ∉ s.log
  over : ∀ c, s.close = some c → s.start = some ⟨[], none⟩ ∧ ∀ f ∈ c.todo, .started f ∈ s.log
  hist : ∀ pre post f, s.log = pre ++ .destroy f :: post → .started f ∈ pre ∧ ∀ g, .start g ∉ post

private theorem orderInv_step (fs : List Nat) (s : Start.State) (a : Start.Act) (s' : Start.State)
    (ok : a = .close → s.start = some ⟨[], none⟩) (h : OrderInv fs s) (hs : s.step a = some s') : OrderInv fs s' := by
  have hb := inv_step fs s a s' h.base hs
  -- appending an event that is not a call of `OnDestroy`
  have keep : ∀ e, (∀ f, e ≠ .destroy f) → (∀ c, s.close = some c → ∀ g, e ≠ .start g) →
      ∀ pre post f, s.log ++ [e] = pre ++ .destroy f :: post → .started f ∈ pre ∧ ∀ g, .start g ∉ post := by
    intro e he hc pre post f hl
    rcases split_snoc hl with ⟨post', rfl, hl'⟩ | ⟨_, rfl, _⟩
    · obtain ⟨h1, h2⟩ := h.hist pre post' f hl'
      refine ⟨h1, fun g hg => ?_⟩
      rcases List.mem_append.mp hg with hg | hg
      · exact h2 g hg
      · simp only [List.mem_singleton] at hg
        cases hcl : s.close with
        | none => exact h.open_ hcl f (by rw [hl']; simp)
        | some c => exact hc c hcl g hg.symm
    · exact absurd rfl (he f)
  cases a with
  | trigger =>
    simp only [State.step] at hs
    split at hs
    · rename_i h0
      cases hs
      refine ⟨hb, ?_, h.open_, ?_, h.hist⟩
      · intro f hf; rw [h.base.before h0] at hf; cases hf
      · intro c hc; have := (h.over c hc).1; rw [h0] at this; cases this
    · cases hs
  | close =>
    have hst := ok rfl
    simp only [State.step] at hs
    split at hs
    · rename_i h0
      cases hs
      refine ⟨hb, h.ret, fun e => (by cases e), ?_, h.hist⟩
      intro c hc
      cases hc
      refine ⟨hst, fun f hf => ?_⟩
      have hsl := (h.base.cnone h0).2
      have hp := h.base.early hsl _ hst
      simp only [List.append_nil] at hp
      simp only at hf
      rw [hsl] at hf
      rcases h.ret f (hp.mem_iff.mpr hf) with r | ⟨l, e1, e2⟩
      · exact r
      · rw [hst] at e1; cases e1; cases e2
    · cases hs
  | forget =>
    simp only [State.step] at hs
    split at hs
    · cases hs
      exact ⟨hb, h.ret, h.open_, h.over, h.hist⟩
    · cases hs
  | start f =>
    simp only [State.step] at hs
    split at hs
    · cases hs
    · rename_i l h0
      simp only [Option.map_eq_some_iff] at hs
      obtain ⟨l', hl', rfl⟩ := hs
      obtain ⟨hcur, hf, rfl⟩ := next_some hl'
      have hnc : s.close = none := by
        cases hcl : s.close with
        | none => rfl
        | some c =>
          have := (h.over c hcl).1
          rw [h0] at this
          cases this
          cases hf
      refine ⟨hb, ?_, ?_, ?_, keep _ (by simp) ?_⟩
      · intro g hg
        simp only [startedOf_snoc, List.mem_append, List.mem_singleton] at hg
        rcases hg with hg | rfl
        · rcases h.ret g hg with r | ⟨m, e1, e2⟩
          · exact Or.inl (by simp [r])
          · rw [h0] at e1; cases e1; rw [hcur] at e2; cases e2
        · exact Or.inr ⟨_, rfl, rfl⟩
      · intro _ g hg
        rcases List.mem_append.mp hg with hg | hg
        · exact h.open_ hnc g hg
        · simp at hg
      · intro c hc; simp only [hnc] at hc; cases hc
      · intro c hc; rw [hnc] at hc; cases hc
  | started f =>
    simp only [State.step] at hs
    split at hs
    · cases hs
    · rename_i l h0
      simp only [Option.map_eq_some_iff] at hs
      obtain ⟨l', hl', rfl⟩ := hs
      obtain ⟨hcur, rfl⟩ := ret_some hl'
      have hnc : s.close = none := by
        cases hcl : s.close with
        | none => rfl
        | some c =>
          have := (h.over c hcl).1
          rw [h0] at this
          cases this
          cases hcur
      refine ⟨hb, ?_, ?_, ?_, keep _ (by simp) (by simp)⟩
      · intro g hg
        simp only [startedOf_snoc, List.append_nil] at hg
        rcases h.ret g hg with r | ⟨m, e1, e2⟩
        · exact Or.inl (by simp [r])
        · rw [h0] at e1; cases e1; rw [hcur] at e2; cases e2; exact Or.inl (by simp)
      · intro _ g hg
        rcases List.mem_append.mp hg with hg | hg
        · exact h.open_ hnc g hg
        · simp at hg
      · intro c hc; simp only [hnc] at hc; cases hc
  | destroy f =>
    simp only [State.step] at hs
    split at hs
    · cases hs
    · rename_i l h0
      simp only [Option.map_eq_some_iff] at hs
      obtain ⟨l', hl', rfl⟩ := hs
      obtain ⟨hcur, hf, rfl⟩ := next_some hl'
      obtain ⟨o1, o2⟩ := h.over l h0
      refine ⟨hb, ?_, fun e => (by cases e), ?_, ?_⟩
      · intro g hg
        simp only [startedOf_snoc, List.append_nil] at hg
        rcases h.ret g hg with r | r
        · exact Or.inl (by simp [r])
        · exact Or.inr r
      · intro c hc
        cases hc
        exact ⟨o1, fun g hg => by simp [o2 g (List.mem_of_mem_erase hg)]⟩
      · intro pre post g hl
        rcases split_snoc hl with ⟨post', rfl, hl'⟩ | ⟨rfl, e, rfl⟩
        · obtain ⟨h1, h2⟩ := h.hist pre post' g hl'
          refine ⟨h1, fun g hg => ?_⟩
          rcases List.mem_append.mp hg with hg | hg
          · exact h2 g hg
          · simp at hg
        · cases e
          exact ⟨o2 f hf, fun g hg => by cases hg⟩
  | destroyed f =>
    simp only [State.step] at hs
    split at hs
    · cases hs
    · rename_i l h0
      simp only [Option.map_eq_some_iff] at hs
      obtain ⟨l', hl', rfl⟩ := hs
      obtain ⟨hcur, rfl⟩ := ret_some hl'
      obtain ⟨o1, o2⟩ := h.over l h0
      refine ⟨hb, ?_, fun e => (by cases e), ?_, keep _ (by simp) (by simp)⟩
      · intro g hg
        simp only [startedOf_snoc, List.append_nil] at hg
        rcases h.ret g hg with r | r
        · exact Or.inl (by simp [r])
        · exact Or.inr r
      · intro c hc
        cases hc
        exact ⟨o1, fun g hg => by simp [o2 g hg]⟩

/-- C101 (partial): if `Close` is called only when the loop of `start` is over, then `OnStart` of a feature has returned
when its `OnDestroy` is called, and no `OnStart` is called after that.
Missing: `Close` during the start, see `C101_order_refuted`. -/
theorem C101_order_partial (fs : List Nat) (as : List Start.Act) (s : Start.State)
    (h : run State.step (State.init fs) as = some s)
    (ha : AllSteps State.step (State.init fs) as fun t a => a = .close → t.start = some ⟨[], none⟩)
    (pre post : List Ev) (f : Nat) (hl : s.log = pre ++ .destroy f :: post) :
    .started f ∈ pre ∧ ∀ g, .start g ∉ post := by
  refine (run_inv_steps (I := OrderInv fs) (orderInv_step fs) as _ s ha ?_ h).hist pre post f hl
  refine ⟨inv_run (as := []) rfl, ?_, ?_, ?_, ?_⟩
  · intro f hf; cases hf
  · intro _ f hf; cases hf
  · intro c hc; cases hc
  · intro pre post f hl; simp [State.init] at hl

example : ∃ s, run State.step (State.init [1]) [.trigger, .start 1, .started 1, .close, .destroy 1] = some s ∧
    s.log = [.start 1, .started 1] ++ .destroy 1 :: [] ∧
    AllSteps State.step (State.init [1]) [.trigger, .start 1, .started 1, .close, .destroy 1]
      fun t a => a = .close → t.start = some ⟨[], none⟩ := by
  refine ⟨_, rfl, rfl, ?_⟩
  intro pre a post t hp ht ha
  subst ha
  have h3 : pre = [.trigger, .start 1, .started 1] := by
    match pre, hp with
    | [], hp => simp at hp
    | [_], hp => simp at hp
    | [_, _], hp => simp at hp
    | [a, b, c], hp => simp at hp; simp [hp]
    | [_, _, _, _], hp => simp at hp
    | a :: b :: c :: d :: e :: r, hp =>
      simp only [List.cons_append, List.cons.injEq] at hp
      exact absurd hp.2.2.2.2.2 (by simp)
  rw [h3] at ht
  cases ht
  rfl

private theorem finish_loop : ∀ (todo : List Nat) (s : Start.State), s.start = some ⟨todo, none⟩ →
    ∃ bs s', run State.step s bs = some s' ∧ s'.start = some ⟨[], none⟩ ∧
      (∀ b ∈ bs, ∃ f, b = .start f ∨ b = .started f) ∧ startedOf s'.log = startedOf s.log ++ todo
  | [], s, h => ⟨[], s, rfl, h, by simp, by simp⟩
  | f :: todo, s, h => by
    let t : Start.State := { s with start := some ⟨todo, none⟩, log := (s.log ++ [.start f]) ++ [.started f] }
    obtain ⟨bs, s', h1, h2, h3, h4⟩ := finish_loop todo t rfl
    refine ⟨.start f :: .started f :: bs, s', ?_, h2, ?_, ?_⟩
    · rw [← h1]
      simp [run, State.step, h, Loop.next, Loop.ret, t]
    · intro b hb
      simp only [List.mem_cons] at hb
      rcases hb with rfl | rfl | hb
      · exact ⟨f, Or.inl rfl⟩
      · exact ⟨f, Or.inr rfl⟩
      · exact h3 b hb
    · rw [h4]
      simp only [t, startedOf_snoc]
      simp

/-- C101 (partial): from every state, whatever `Close` has done, the loop of `start` can go on to its end if the
features return; it then has visited all features it had not visited. -/
theorem C101_progress_partial (s : Start.State) (l : Loop) (hl : s.start = some l) :
    ∃ bs s', run State.step s bs = some s' ∧ s'.start = some ⟨[], none⟩ ∧
      (∀ b ∈ bs, ∃ f, b = .start f ∨ b = .started f) ∧ startedOf s'.log = startedOf s.log ++ l.todo := by
  obtain ⟨todo, cur⟩ := l
  cases cur with
  | none => exact finish_loop todo s hl
  | some f =>
    let t : Start.State := { s with start := some ⟨todo, none⟩, log := s.log ++ [.started f] }
    obtain ⟨bs, s', h1, h2, h3, h4⟩ := finish_loop todo t rfl
    refine ⟨.started f :: bs, s', ?_, h2, ?_, ?_⟩
    · rw [← h1]
      simp [run, State.step, hl, Loop.ret, t]
    · intro b hb
      rcases List.mem_cons.mp hb with rfl | hb
      · exact ⟨f, Or.inr rfl⟩
      · exact h3 b hb
    · rw [h4]
      simp only [t, startedOf_snoc, List.append_nil]

example : ∃ s, run State.step (State.init [1, 2]) [.trigger, .start 1, .close] = some s ∧
    s.start = some ⟨[2], some 1⟩ := ⟨_, rfl, rfl⟩

private theorem stuck {f : Nat} {todo : List Nat} {s t : Start.State} {as : List Start.Act}
    (hs : s.start = some ⟨todo, some f⟩) (hn : .started f ∉ as) (h : run State.step s as = some t) :
    t.start = some ⟨todo, some f⟩ ∧ startedOf t.log = startedOf s.log := by
  refine run_inv_on (I := fun t => t.start = some ⟨todo, some f⟩ ∧ startedOf t.log = startedOf s.log)
    (A := fun a => a ≠ .started f) ?_ as s t (fun a ha e => hn (e ▸ ha)) ⟨hs, rfl⟩ h
  intro u a u' ha ⟨h1, h2⟩ hu
  cases a with
  | trigger => simp [State.step, h1] at hu
  | start g => simp [State.step, h1, Loop.next] at hu
  | started g =>
    simp only [State.step, h1, Loop.ret] at hu
    split at hu
    · rename_i e; cases e; exact absurd rfl ha
    · cases hu
  | close =>
    simp only [State.step] at hu
    split at hu
    · cases hu; exact ⟨h1, h2⟩
    · cases hu
  | forget =>
    simp only [State.step] at hu
    split at hu
    · cases hu; exact ⟨h1, h2⟩
    · cases hu
  | destroy g | destroyed g =>
    simp only [State.step] at hu
    split at hu
    · cases hu
    · simp only [Option.map_eq_some_iff] at hu
      obtain ⟨l', _, rfl⟩ := hu
      exact ⟨h1, by simpa only [startedOf_snoc, List.append_nil] using h2⟩

/-- C101 (refuted): a feature whose `OnStart` does not return, for instance because it calls a feature that no dock
offers (C64), keeps the remaining features from being started, whatever happens. -/
theorem C101_blocked_refuted : ∃ as s, run State.step (State.init [1, 2]) as = some s ∧ s.start = some ⟨[2], some 1⟩ ∧
    ∀ bs t, .started 1 ∉ bs → run State.step s bs = some t → 2 ∉ startedOf t.log := by
  refine ⟨[.trigger, .start 1], ⟨[1, 2], some ⟨[2], some 1⟩, none, [.start 1]⟩, rfl, rfl, ?_⟩
  intro bs t hn ht
  rw [(stuck (f := 1) (todo := [2]) rfl hn ht).2]
  decide

/-- C101 (refuted): `Close` may overtake the start.  A feature is destroyed while its `OnStart` is running, another
before its `OnStart` is called; the latter is started afterwards. -/
theorem C101_order_refuted : ∃ as s, run State.step (State.init [1, 2]) as = some s ∧
    s.log = [.start 1, .destroy 1, .destroyed 1, .destroy 2, .destroyed 2, .started 1, .start 2] :=
  ⟨[.trigger, .start 1, .close, .destroy 1, .destroyed 1, .destroy 2, .destroyed 2, .forget, .started 1, .start 2], _, rfl, rfl⟩

/-- C101 (refuted): if the port arrives after `Close`, no feature is started at all, although the dock has begun to
listen and has announced its features, /repo/dock.go:117-130. -/
theorem C101_late_refuted : ∃ as s, run State.step (State.init [1]) as = some s ∧ s.start = some ⟨[], none⟩ ∧
    s.log = [.destroy 1, .destroyed 1] :=
  ⟨[.close, .destroy 1, .destroyed 1, .forget, .trigger], _, rfl, rfl, rfl⟩

end Verif.Props
