import Mathlib.Data.List.Induction
import Verif.Dock.Whole
import Verif.Dock.Facts
import Verif.Chan.Records

/-!
# Facts on a dock with its callees
-/

namespace Verif.Whole

open Verif Verif.Codec Verif.Proto Verif.Dock

/-! ## Callees -/

theorem calleeOf_append (cs : List Carried) (c : Carried) :
    calleeOf (cs ++ [c]) = upd (calleeOf cs) c.name (some cs.length) := by
  simp [calleeOf, List.zipIdx_append, List.foldl_append]

theorem calleeOf_spec (cs : List Carried) (n : Str) :
    (slotsOf cs n = none ∧ calleeOf cs n = none) ∨
      ∃ k f, calleeOf cs n = some k ∧ slotsOf cs n = some f ∧ cs[k]? = some f ∧ k < cs.length := by
  induction cs using List.reverseRecOn with
  | nil => exact Or.inl ⟨rfl, rfl⟩
  | append_singleton cs c ih =>
    rw [slotsOf_append, calleeOf_append]
    by_cases e : n = c.name
    · subst e
      exact Or.inr ⟨cs.length, c, upd_same .., upd_same .., by simp, by simp⟩
    · rw [upd_other _ _ e, upd_other _ _ e]
      rcases ih with h | ⟨k, f, h1, h2, h3, h4⟩
      · exact Or.inl h
      · exact Or.inr ⟨k, f, h1, h2, by rw [List.getElem?_append_left h4]; exact h3, by simp; omega⟩

theorem calleeOf_none {cs : List Carried} {n : Str} : calleeOf cs n = none ↔ slotsOf cs n = none := by
  rcases calleeOf_spec cs n with ⟨h1, h2⟩ | ⟨k, f, h1, h2, -, -⟩
  · simp [h1, h2]
  · simp [h1, h2]

theorem calleeOf_some {cs : List Carried} {n : Str} {k : Nat} (h : calleeOf cs n = some k) :
    ∃ f, slotsOf cs n = some f ∧ cs[k]? = some f := by
  rcases calleeOf_spec cs n with ⟨h1, h2⟩ | ⟨k', f, h1, h2, h3, -⟩
  · rw [h2] at h; cases h
  · rw [h1] at h; cases h; exact ⟨f, h2, h3⟩

/-! ## Steps of the dock -/

/-- A response that was sent: peer, index, slot, method, result and error. -/
def answerOf : Ev → Option (Nat × BitVec 64 × Str × Str × List Val × Str)
  | .sent p (.rpcResponse x slot meth res err) => some (p, x, slot, meth, res, err)
  | _ => none

theorem answers_query (l : List (Nat × Sock)) (slot : Str) :
    (l.map fun e => Ev.sent e.1 (.queryRequest slot)).filterMap answerOf = [] := by
  induction l with
  | nil => rfl
  | cons x l ih => rw [List.map_cons, List.filterMap_cons_none rfl]; exact ih

theorem commit_same (s : Dock.State) (i : Nat) :
    (s.doCommit i).exec = s.exec ∧ (s.doCommit i).nx = s.nx ∧
      (s.doCommit i).log.filterMap answerOf = s.log.filterMap answerOf := by
  unfold Dock.State.doCommit
  repeat' split
  all_goals refine ⟨rfl, rfl, ?_⟩
  · simp [List.filterMap_append, answerOf, Dock.State.request]
  · rfl
  · simp only [List.filterMap_append, answers_query, List.append_nil]
  · rfl

/-- The executions are those of before, and perhaps a new one. -/
def Grown (cs : List Carried) (s t : Dock.State) : Prop :=
  t.log.filterMap answerOf = s.log.filterMap answerOf ∧
  ((t.nx = s.nx ∧ t.exec = s.exec) ∨
    ∃ p x c f, t.nx = s.nx + 1 ∧ t.exec = upd s.exec s.nx ⟨p, x, c, f, .spawned⟩ ∧ slotsOf cs c.slot ≠ none)

theorem Grown.same {cs : List Carried} {s t : Dock.State} {l : List Ev} (hx : t.nx = s.nx) (he : t.exec = s.exec)
    (hl : t.log = s.log ++ l) (ha : l.filterMap answerOf = []) : Grown cs s t :=
  ⟨by rw [hl, List.filterMap_append, ha, List.append_nil], Or.inl ⟨hx, he⟩⟩

theorem grown_step (cs : List Carried) (s : Dock.State) (a : Dock.Act) (t : Dock.State)
    (ha : tiedD a = false ∨ (∃ c clock, a = .call c clock) ∨ ∃ i, a = .closeChan i)
    (h : s.step cs a = some t) : Grown cs s t := by
  unfold Dock.State.step at h
  split at h
  · cases h
  cases a with
  | invoke k => simp [tiedD] at ha
  | finish k r => simp [tiedD] at ha
  | respond k => simp [tiedD] at ha
  | call c clock =>
    simp only at h
    split at h
    · cases h; exact Grown.same (l := [_, _]) rfl rfl rfl rfl
    · cases h; exact Grown.same (l := [_]) rfl rfl rfl rfl
  | commit i =>
    simp only at h
    split at h
    · cases h
      obtain ⟨h1, h2, h3⟩ := commit_same s i
      exact ⟨h3, Or.inl ⟨h2, h1⟩⟩
    · cases h
  | recv p pkt =>
    simp only [Dock.State.onPacket] at h
    repeat' split at h
    all_goals cases h
    all_goals first
      | exact Grown.same (l := [_]) rfl rfl rfl rfl
      | exact Grown.same (l := [_, _]) rfl rfl (List.append_assoc ..) rfl
      | (refine ⟨?_, Or.inr ⟨_, _, _, _, rfl, rfl, ?_⟩⟩
         · simp [List.filterMap_append, answerOf]
         · simp_all)
  | work p order =>
    simp only [Dock.State.work] at h
    repeat' split at h
    all_goals cases h
    all_goals first
      | exact Grown.same (l := []) rfl rfl (List.append_nil _).symm rfl
      | exact Grown.same (l := [_]) rfl rfl rfl rfl
      | exact Grown.same (l := [_, _]) rfl rfl rfl rfl
      | exact ⟨(commit_same s _).2.2, Or.inl ⟨(commit_same s _).2.1, (commit_same s _).1⟩⟩
  | _ =>
    simp only [Dock.State.connected] at h
    repeat' split at h
    all_goals cases h
    all_goals first
      | exact Grown.same (l := []) rfl rfl (List.append_nil _).symm rfl
      | exact Grown.same (l := [_]) rfl rfl rfl rfl

theorem invoke_step {cs : List Carried} {s t : Dock.State} {k : Nat} (h : s.step cs (.invoke k) = some t) :
    (s.exec k).phase = .spawned ∧ t.nx = s.nx ∧ t.exec = upd s.exec k { s.exec k with phase := .running } ∧
      t.log.filterMap answerOf = s.log.filterMap answerOf := by
  simp only [Dock.State.step] at h
  repeat' split at h
  all_goals cases h
  exact ⟨by assumption, rfl, rfl, by simp [List.filterMap_append, answerOf]⟩

theorem finish_step {cs : List Carried} {s t : Dock.State} {k : Nat} {r : Ret} (h : s.step cs (.finish k r) = some t) :
    (s.exec k).phase = .running ∧ t.nx = s.nx ∧ t.exec = upd s.exec k { s.exec k with phase := .returned r } ∧
      t.log.filterMap answerOf = s.log.filterMap answerOf := by
  simp only [Dock.State.step] at h
  repeat' split at h
  all_goals cases h
  exact ⟨by assumption, rfl, rfl, by simp [List.filterMap_append, answerOf]⟩

/-- The content of the response to a request, /repo/dock.go:156-171. -/
def answerTo (x : Exec) (r : Ret) : Nat × BitVec 64 × Str × Str × List Val × Str :=
  (x.peer, x.index, x.call.slot, x.call.meth, if x.call.withResult then r.result else [], r.err)

theorem respond_step {cs : List Carried} {s t : Dock.State} {k : Nat} (h : s.step cs (.respond k) = some t) :
    ∃ r, (s.exec k).phase = .returned r ∧ t.nx = s.nx ∧ t.exec = upd s.exec k { s.exec k with phase := .over } ∧
      t.log.filterMap answerOf = s.log.filterMap answerOf ++ [answerTo (s.exec k) r] := by
  simp only [Dock.State.step] at h
  repeat' split at h
  all_goals cases h
  all_goals exact ⟨_, by assumption, rfl, rfl, by simp [List.filterMap_append, answerOf, answerTo, *]⟩

/-! ## Steps of the callees -/

theorem chan_keep {T : Nat → Chan.Target} {s t : Chan.State} {a : Chan.Act} (h : s.step T a = some t) :
    s.n ≤ t.n ∧ (∀ i, i < s.n → t.req i = s.req i) ∧ (∀ i x, s.result i = some x → t.result i = some x) := by
  unfold Chan.State.step at h
  split at h
  · cases h
  cases a with
  | call callee caller meth args parent =>
    simp only at h
    repeat' split at h
    all_goals cases h
    all_goals exact ⟨Nat.le_succ _, fun i hi => upd_other _ _ (by omega), fun _ _ e => e⟩
  | receive i =>
    simp only at h
    repeat' split at h
    all_goals cases h
    all_goals
      refine ⟨Nat.le_refl _, fun _ _ => rfl, fun j x e => ?_⟩
      have : j ≠ i := by rintro rfl; simp_all
      simp only
      rw [upd_other _ _ this]; exact e
  | _ =>
    simp only at h
    repeat' split at h
    all_goals cases h
    all_goals exact ⟨Nat.le_refl _, fun _ _ => rfl, fun _ _ e => e⟩

theorem chan_untied {T : Nat → Chan.Target} {s t : Chan.State} {a : Chan.Act} (ha : tiedC a = false)
    (h : s.step T a = some t) : t.n = s.n ∧ t.req = s.req := by
  unfold Chan.State.step at h
  split at h
  · cases h
  cases a with
  | call callee caller meth args parent => cases ha
  | _ =>
    simp only at h
    repeat' split at h
    all_goals cases h
    all_goals exact ⟨rfl, rfl⟩

theorem chan_call {T : Nat → Chan.Target} {s t : Chan.State} {k caller : Nat} {meth : Str} {args : List Val}
    {parent : Option Nat} (h : s.step T (.call k caller meth args parent) = some t) :
    t.n = s.n + 1 ∧ t.req = upd s.req s.n ⟨k, caller, meth, args, parent, s.clock⟩ ∧ t.result = s.result := by
  simp only [Chan.State.step] at h
  repeat' split at h
  all_goals cases h
  all_goals exact ⟨rfl, rfl, rfl⟩

/-! ## Projections -/

/-- What a step does to the two parts. -/
theorem step_parts {cs : List Carried} {T : Nat → Chan.Target} {s t : State} {a : Act} (h : s.step cs T a = some t) :
    (t.dock = s.dock ∨ ∃ b, s.dock.step cs b = some t.dock) ∧
    (t.chan = s.chan ∨ (∃ b, tiedC b = false ∧ s.chan.step T b = some t.chan) ∨
      ∃ k meth args parent, s.chan.step T (.call k s.chan.n meth args parent) = some t.chan) := by
  unfold State.step at h
  split at h
  · cases h
  cases a with
  | dock a =>
    simp only at h
    split at h
    · cases h
    · obtain ⟨d, hd, rfl⟩ := Option.map_eq_some_iff.mp h
      exact ⟨Or.inr ⟨_, hd⟩, Or.inl rfl⟩
  | chan a =>
    simp only at h
    split at h
    · cases h
    · rename_i ha
      have key : ∀ b, tiedC b = false → (s.chan.step T b).map (fun d => { s with chan := d }) = some t →
          (t.dock = s.dock ∨ ∃ b, s.dock.step cs b = some t.dock) ∧
          (t.chan = s.chan ∨ (∃ b, tiedC b = false ∧ s.chan.step T b = some t.chan) ∨
            ∃ k meth args parent, s.chan.step T (.call k s.chan.n meth args parent) = some t.chan) := by
        intro b hb hm
        obtain ⟨d, hd, rfl⟩ := Option.map_eq_some_iff.mp hm
        exact ⟨Or.inl rfl, Or.inr (Or.inl ⟨b, hb, hd⟩)⟩
      split at h
      · split at h
        · cases h
        · exact key _ rfl h
      · exact key _ (by simpa using ha) h
  | call c clock parent =>
    cases parent with
    | none =>
      simp only at h
      split at h
      · obtain ⟨d, hd, h⟩ := Option.bind_eq_some_iff.mp h
        obtain ⟨e, he, h⟩ := Option.bind_eq_some_iff.mp h
        cases h
        exact ⟨Or.inr ⟨_, hd⟩, Or.inr (Or.inr ⟨_, _, _, _, he⟩)⟩
      · obtain ⟨d, hd, rfl⟩ := Option.map_eq_some_iff.mp h
        exact ⟨Or.inr ⟨_, hd⟩, Or.inl rfl⟩
    | some p =>
      simp only at h
      split at h
      · split at h
        · obtain ⟨d, hd, h⟩ := Option.bind_eq_some_iff.mp h
          obtain ⟨e, he, h⟩ := Option.bind_eq_some_iff.mp h
          cases h
          exact ⟨Or.inr ⟨_, hd⟩, Or.inr (Or.inr ⟨_, _, _, _, he⟩)⟩
        · obtain ⟨d, hd, rfl⟩ := Option.map_eq_some_iff.mp h
          exact ⟨Or.inr ⟨_, hd⟩, Or.inl rfl⟩
      · cases h
  | returns i =>
    obtain ⟨d, hd, rfl⟩ := Option.map_eq_some_iff.mp h
    exact ⟨Or.inr ⟨_, hd⟩, Or.inl rfl⟩
  | invoke k =>
    simp only at h
    split at h
    · obtain ⟨d, hd, h⟩ := Option.bind_eq_some_iff.mp h
      obtain ⟨e, he, h⟩ := Option.bind_eq_some_iff.mp h
      cases h
      exact ⟨Or.inr ⟨_, hd⟩, Or.inr (Or.inr ⟨_, _, _, _, he⟩)⟩
    · cases h
  | finish k =>
    simp only at h
    repeat' split at h
    · obtain ⟨d, hd, rfl⟩ := Option.map_eq_some_iff.mp h
      exact ⟨Or.inr ⟨_, hd⟩, Or.inl rfl⟩
    · cases h
    · cases h
  | respond k =>
    obtain ⟨d, hd, rfl⟩ := Option.map_eq_some_iff.mp h
    exact ⟨Or.inr ⟨_, hd⟩, Or.inl rfl⟩
  | start =>
    simp only at h
    split at h <;> cases h
    exact ⟨Or.inl rfl, Or.inl rfl⟩
  | onStart l name =>
    simp only at h
    repeat' split at h
    all_goals cases h
    exact ⟨Or.inl rfl, Or.inl rfl⟩
  | onStarted l =>
    simp only at h
    repeat' split at h
    all_goals cases h
    exact ⟨Or.inl rfl, Or.inl rfl⟩

theorem run_snoc {σ α : Type} {step : σ → α → Option σ} {s t u : σ} {as : List α} {a : α} (h : run step s as = some t)
    (h' : step t a = some u) : run step s (as ++ [a]) = some u := by
  rw [run_append, h]; simp [run, h']

/-- The dock within is a dock. -/
theorem dock_run (cs : List Carried) (T : Nat → Chan.Target) (as : List Act) (s : State)
    (h : run (State.step cs T) (State.init T) as = some s) :
    ∃ bs, run (Dock.State.step cs) Dock.State.init bs = some s.dock := by
  refine run_inv (I := fun s : State => ∃ bs, run (Dock.State.step cs) Dock.State.init bs = some s.dock) ?_ as _ _
    ⟨[], rfl⟩ h
  rintro s a t ⟨bs, hb⟩ hs
  rcases (step_parts hs).1 with e | ⟨b, e⟩
  · exact ⟨bs, by rw [e]; exact hb⟩
  · exact ⟨bs ++ [b], run_snoc hb e⟩

/-- The callees within are callees, and every call is made on a caller object of its own. -/
structure Callers (s : Chan.State) : Prop where
  own : ∀ i, i < s.n → (s.req i).caller = i

theorem callers_step {cs : List Carried} {T : Nat → Chan.Target} {s t : State} {a : Act} (I : Callers s.chan)
    (h : s.step cs T a = some t) : Callers t.chan := by
  rcases (step_parts h).2 with e | ⟨b, hb, e⟩ | ⟨k, meth, args, parent, e⟩
  · rw [e]; exact I
  · obtain ⟨h1, h2⟩ := chan_untied hb e
    constructor
    rw [h1, h2]; exact I.own
  · obtain ⟨h1, h2, -⟩ := chan_call e
    constructor
    intro i hi
    rw [h1] at hi
    rw [h2]
    by_cases e : i = s.chan.n
    · subst e; rw [upd_same]
    · rw [upd_other _ _ e]; exact I.own i (by omega)

theorem chan_run (cs : List Carried) (T : Nat → Chan.Target) (as : List Act) (s : State)
    (h : run (State.step cs T) (State.init T) as = some s) :
    Callers s.chan ∧ ∃ bs, run (Chan.State.step T) (Chan.State.init T) bs = some s.chan ∧
      AllSteps (Chan.State.step T) (Chan.State.init T) bs (fun s a => ∀ callee caller meth args parent,
        a = .call callee caller meth args parent → ∀ j, j < s.n → (s.req j).caller = caller → s.result j ≠ none) := by
  refine run_inv (I := fun s : State => Callers s.chan ∧ ∃ bs, run (Chan.State.step T) (Chan.State.init T) bs = some s.chan ∧
      AllSteps (Chan.State.step T) (Chan.State.init T) bs (fun s a => ∀ callee caller meth args parent,
        a = .call callee caller meth args parent → ∀ j, j < s.n → (s.req j).caller = caller → s.result j ≠ none)) ?_ as _ _
    ⟨⟨fun i hi => absurd hi (Nat.not_lt_zero _)⟩, [], rfl, AllSteps.nil⟩ h
  rintro s a t ⟨C, bs, hb, hall⟩ hs
  refine ⟨callers_step C hs, ?_⟩
  have snoc : ∀ b, s.chan.step T b = some t.chan → (∀ callee caller meth args parent,
        b = .call callee caller meth args parent → ∀ j, j < s.chan.n → (s.chan.req j).caller = caller →
          s.chan.result j ≠ none) → ∃ bs, run (Chan.State.step T) (Chan.State.init T) bs = some t.chan ∧
      AllSteps (Chan.State.step T) (Chan.State.init T) bs (fun s a => ∀ callee caller meth args parent,
        a = .call callee caller meth args parent → ∀ j, j < s.n → (s.req j).caller = caller → s.result j ≠ none) := by
    intro b e ok
    refine ⟨bs ++ [b], run_snoc hb e, ?_⟩
    intro pre a post u he hu
    rcases List.eq_nil_or_concat post with rfl | ⟨post', x, rfl⟩
    · obtain ⟨rfl, e2⟩ := List.append_inj' he rfl
      cases e2
      rw [hb] at hu; cases hu
      exact ok
    · rw [List.concat_eq_append, ← List.cons_append, ← List.append_assoc] at he
      obtain ⟨rfl, -⟩ := List.append_inj' he rfl
      exact hall pre a post' u rfl hu
  rcases (step_parts hs).2 with e | ⟨b, hb', e⟩ | ⟨k, meth, args, parent, e⟩
  · rw [e]; exact ⟨bs, hb, hall⟩
  · refine snoc b e ?_
    rintro _ _ _ _ _ rfl
    cases hb'
  · refine snoc _ e ?_
    intro callee caller meth args parent e j hj hc
    cases e
    have := C.own j hj
    omega

/-! ## Executions and their requests -/

structure Inv (cs : List Carried) (s : State) : Prop where
  fresh : ∀ k, s.dock.nx ≤ k → (s.dock.exec k).phase = .over ∧ s.served k = none ∧ k ∉ s.answered
  slot : ∀ k, k < s.dock.nx → slotsOf cs (s.dock.exec k).call.slot ≠ none
  served : ∀ k i, s.served k = some i → i < s.chan.n ∧
    calleeOf cs (s.dock.exec k).call.slot = some (s.chan.req i).callee ∧ (s.chan.req i).meth = (s.dock.exec k).call.meth ∧
    (s.chan.req i).args = (s.dock.exec k).call.args ∧ (s.dock.exec k).phase ≠ .spawned
  invoked : ∀ k, k < s.dock.nx → (s.dock.exec k).phase ≠ .spawned → s.served k ≠ none
  inj : ∀ k k' i, s.served k = some i → s.served k' = some i → k = k'
  outcome : ∀ k r, s.outcome k = some r → ∃ i j a, s.served k = some i ∧ s.chan.result i = some (j, a) ∧
    r = retOf (s.dock.exec k).call.meth a
  returned : ∀ k r, (s.dock.exec k).phase = .returned r → s.outcome k = some r
  nodup : s.answered.Nodup
  over : ∀ k, k < s.dock.nx → ((s.dock.exec k).phase = .over ↔ k ∈ s.answered)
  known : ∀ k, k ∈ s.answered → s.outcome k ≠ none
  sent : s.dock.log.filterMap answerOf =
    s.answered.map fun k => answerTo (s.dock.exec k) ((s.outcome k).getD ⟨[], []⟩)

theorem Inv.init (cs : List Carried) (T : Nat → Chan.Target) : Inv cs (State.init T) := by
  constructor <;> simp [State.init, Dock.State.init]

/-- Nothing happens to the executions. -/
theorem Inv.same {cs : List Carried} {s t : State} (I : Inv cs s) (hx : t.dock.nx = s.dock.nx)
    (he : t.dock.exec = s.dock.exec) (hl : t.dock.log.filterMap answerOf = s.dock.log.filterMap answerOf)
    (hs : t.served = s.served) (ho : t.outcome = s.outcome) (ha : t.answered = s.answered) (hn : s.chan.n ≤ t.chan.n)
    (hr : ∀ i, i < s.chan.n → t.chan.req i = s.chan.req i)
    (hres : ∀ i x, s.chan.result i = some x → t.chan.result i = some x) : Inv cs t := by
  constructor
  · rw [hx, he, hs, ha]; exact I.fresh
  · rw [hx, he]; exact I.slot
  · rw [hs, he]
    intro k i h
    obtain ⟨h1, h2⟩ := I.served k i h
    rw [hr i h1]
    exact ⟨by omega, h2⟩
  · rw [hx, he, hs]; exact I.invoked
  · rw [hs]; exact I.inj
  · rw [ho, hs, he]
    intro k r h
    obtain ⟨i, j, a, h1, h2, h3⟩ := I.outcome k r h
    exact ⟨i, j, a, h1, hres _ _ h2, h3⟩
  · rw [he, ho]; exact I.returned
  · rw [ha]; exact I.nodup
  · rw [hx, he, ha]; exact I.over
  · rw [ha, ho]; exact I.known
  · rw [hl, ha, he, ho]; exact I.sent

/-- A step of the dock that has nothing to do with the callees. -/
theorem Inv.grown {cs : List Carried} {s t : State} (I : Inv cs s) (g : Grown cs s.dock t.dock)
    (hs : t.served = s.served) (ho : t.outcome = s.outcome) (ha : t.answered = s.answered) (hn : s.chan.n ≤ t.chan.n)
    (hr : ∀ i, i < s.chan.n → t.chan.req i = s.chan.req i)
    (hres : ∀ i x, s.chan.result i = some x → t.chan.result i = some x) : Inv cs t := by
  obtain ⟨hl, ⟨hx, he⟩ | ⟨p, x, c, f, hx, he, hc⟩⟩ := g
  · exact I.same hx he hl hs ho ha hn hr hres
  have hserved : ∀ k i, s.served k = some i → k ≠ s.dock.nx := by
    rintro k i h rfl
    rw [(I.fresh _ (Nat.le_refl _)).2.1] at h; cases h
  have hans : ∀ k, k ∈ s.answered → k ≠ s.dock.nx := by
    rintro k h rfl
    exact (I.fresh _ (Nat.le_refl _)).2.2 h
  constructor
  · rw [hx, he, hs, ha]
    intro k hk
    rw [upd_other _ _ (by omega)]
    exact I.fresh k (by omega)
  · rw [hx, he]
    intro k hk
    by_cases e : k = s.dock.nx
    · subst e; rw [upd_same]; exact hc
    · rw [upd_other _ _ e]; exact I.slot k (by omega)
  · rw [hs, he]
    intro k i h
    obtain ⟨h1, h2⟩ := I.served k i h
    rw [hr i h1, upd_other _ _ (hserved k i h)]
    exact ⟨by omega, h2⟩
  · rw [hx, he, hs]
    intro k hk hp
    by_cases e : k = s.dock.nx
    · subst e; rw [upd_same] at hp; exact absurd rfl hp
    · rw [upd_other _ _ e] at hp; exact I.invoked k (by omega) hp
  · rw [hs]; exact I.inj
  · rw [ho, hs, he]
    intro k r h
    obtain ⟨i, j, a, h1, h2, h3⟩ := I.outcome k r h
    rw [upd_other _ _ (hserved k i h1)]
    exact ⟨i, j, a, h1, hres _ _ h2, h3⟩
  · rw [he, ho]
    intro k r h
    by_cases e : k = s.dock.nx
    · subst e; rw [upd_same] at h; cases h
    · rw [upd_other _ _ e] at h; exact I.returned k r h
  · rw [ha]; exact I.nodup
  · rw [hx, he, ha]
    intro k hk
    by_cases e : k = s.dock.nx
    · subst e
      rw [upd_same]
      exact ⟨fun h => (by cases h), fun h => absurd rfl (hans _ h)⟩
    · rw [upd_other _ _ e]; exact I.over k (by omega)
  · rw [ha, ho]; exact I.known
  · rw [hl, ha, he, ho, I.sent]
    refine List.map_congr_left fun k hk => ?_
    rw [upd_other _ _ (hans k hk)]

theorem inv_step (cs : List Carried) (T : Nat → Chan.Target) (s : State) (a : Act) (t : State) (I : Inv cs s)
    (h : s.step cs T a = some t) : Inv cs t := by
  unfold State.step at h
  split at h
  · cases h
  cases a with
  | dock a =>
    simp only at h
    split at h
    · cases h
    · rename_i ha
      obtain ⟨d, hd, rfl⟩ := Option.map_eq_some_iff.mp h
      exact I.grown (grown_step cs _ _ _ (Or.inl (by simpa using ha)) hd) rfl rfl rfl (Nat.le_refl _) (fun _ _ => rfl)
        (fun _ _ h => h)
  | chan a =>
    simp only at h
    split at h
    · cases h
    · have key : ∀ b, (s.chan.step T b).map (fun d => { s with chan := d }) = some t → Inv cs t := by
        intro b hm
        obtain ⟨d, hd, rfl⟩ := Option.map_eq_some_iff.mp hm
        obtain ⟨h1, h2, h3⟩ := chan_keep hd
        exact I.same rfl rfl rfl rfl rfl rfl h1 h2 h3
      split at h
      · split at h
        · cases h
        · exact key _ h
      · exact key _ h
  | call c clock parent =>
    have both : ∀ k par d e, s.dock.step cs (.call c clock) = some d →
        s.chan.step T (.call k s.chan.n c.meth c.args par) = some e → Inv cs { s with dock := d, chan := e } := by
      intro k par d e hd he
      obtain ⟨h1, h2, h3⟩ := chan_keep he
      exact I.grown (grown_step cs _ _ _ (Or.inr (Or.inl ⟨_, _, rfl⟩)) hd) rfl rfl rfl h1 h2 h3
    have one : ∀ d b, s.dock.step cs (.call c clock) = some d → Inv cs { s with dock := d, blocked := b } := by
      intro d b hd
      exact I.grown (grown_step cs _ _ _ (Or.inr (Or.inl ⟨_, _, rfl⟩)) hd) rfl rfl rfl (Nat.le_refl _) (fun _ _ => rfl)
        (fun _ _ h => h)
    cases parent with
    | none =>
      simp only at h
      split at h
      · obtain ⟨d, hd, h⟩ := Option.bind_eq_some_iff.mp h
        obtain ⟨e, he, h⟩ := Option.bind_eq_some_iff.mp h
        cases h
        exact both _ _ _ _ hd he
      · obtain ⟨d, hd, rfl⟩ := Option.map_eq_some_iff.mp h
        exact one _ _ hd
    | some p =>
      simp only at h
      split at h
      · split at h
        · obtain ⟨d, hd, h⟩ := Option.bind_eq_some_iff.mp h
          obtain ⟨e, he, h⟩ := Option.bind_eq_some_iff.mp h
          cases h
          exact both _ _ _ _ hd he
        · obtain ⟨d, hd, rfl⟩ := Option.map_eq_some_iff.mp h
          exact one _ _ hd
      · cases h
  | returns i =>
    obtain ⟨d, hd, rfl⟩ := Option.map_eq_some_iff.mp h
    exact I.grown (grown_step cs _ _ _ (Or.inr (Or.inr ⟨_, rfl⟩)) hd) rfl rfl rfl (Nat.le_refl _) (fun _ _ => rfl)
      (fun _ _ h => h)
  | start =>
    simp only at h
    split at h <;> cases h
    exact I.same rfl rfl rfl rfl rfl rfl (Nat.le_refl _) (fun _ _ => rfl) (fun _ _ h => h)
  | onStart l name =>
    simp only at h
    repeat' split at h
    all_goals cases h
    exact I.same rfl rfl rfl rfl rfl rfl (Nat.le_refl _) (fun _ _ => rfl) (fun _ _ h => h)
  | onStarted l =>
    simp only at h
    repeat' split at h
    all_goals cases h
    exact I.same rfl rfl rfl rfl rfl rfl (Nat.le_refl _) (fun _ _ => rfl) (fun _ _ h => h)
  | invoke k =>
    simp only at h
    split at h
    · rename_i c hc
      obtain ⟨d, hd, h⟩ := Option.bind_eq_some_iff.mp h
      obtain ⟨e, he, h⟩ := Option.bind_eq_some_iff.mp h
      cases h
      obtain ⟨d1, d2, d3, d4⟩ := invoke_step hd
      obtain ⟨e1, e2, e3⟩ := chan_call he
      have hkx : k < s.dock.nx := by
        refine Nat.lt_of_not_le fun hge => ?_
        rw [(I.fresh k hge).1] at d1; cases d1
      have hks : s.served k = none := by
        cases hs : s.served k with
        | none => rfl
        | some i => exact absurd d1 (I.served k i hs).2.2.2.2
      have hka : k ∉ s.answered := fun h => by
        have := (I.over k hkx).mpr h
        rw [d1] at this; cases this
      have hcall : ∀ j, (d.exec j).call = (s.dock.exec j).call ∧ (d.exec j).peer = (s.dock.exec j).peer ∧
          (d.exec j).index = (s.dock.exec j).index := by
        intro j
        rw [d3]
        by_cases e : j = k
        · subst e; rw [upd_same]; exact ⟨rfl, rfl, rfl⟩
        · rw [upd_other _ _ e]; exact ⟨rfl, rfl, rfl⟩
      have hph : ∀ j, j ≠ k → (d.exec j).phase = (s.dock.exec j).phase := by
        intro j hj; rw [d3, upd_other _ _ hj]
      have hphk : (d.exec k).phase = .running := by rw [d3, upd_same]
      constructor
      · intro j hj
        simp only at hj ⊢
        rw [d2] at hj
        rw [hph j (by omega), upd_other _ _ (by omega)]
        exact I.fresh j hj
      · intro j hj
        simp only at hj ⊢
        rw [d2] at hj
        rw [(hcall j).1]; exact I.slot j hj
      · intro j i hj
        simp only at hj ⊢
        rw [(hcall j).1, e1, e2]
        by_cases e : j = k
        · subst e
          rw [upd_same] at hj
          cases hj
          rw [upd_same, hphk]
          exact ⟨by omega, hc, rfl, rfl, by simp⟩
        · rw [upd_other _ _ e] at hj
          obtain ⟨h1, h2⟩ := I.served j i hj
          rw [upd_other _ _ (by omega), hph j e]
          exact ⟨by omega, h2⟩
      · intro j hj hp
        simp only at hj hp ⊢
        rw [d2] at hj
        by_cases e : j = k
        · subst e; rw [upd_same]; simp
        · rw [upd_other _ _ e]; rw [hph j e] at hp; exact I.invoked j hj hp
      · intro j j' i hj hj'
        simp only at hj hj'
        by_cases e : j = k
        · subst e
          rw [upd_same] at hj
          by_cases e' : j' = j
          · exact e'.symm
          · rw [upd_other _ _ e'] at hj'
            cases hj
            exact absurd (I.served j' _ hj').1 (Nat.lt_irrefl _)
        · rw [upd_other _ _ e] at hj
          by_cases e' : j' = k
          · subst e'
            rw [upd_same] at hj'
            cases hj'
            exact absurd (I.served j _ hj).1 (Nat.lt_irrefl _)
          · rw [upd_other _ _ e'] at hj'
            exact I.inj j j' i hj hj'
      · intro j r hj
        simp only at hj ⊢
        obtain ⟨i, l, a, h1, h2, h3⟩ := I.outcome j r hj
        have hjk : j ≠ k := by rintro rfl; rw [hks] at h1; cases h1
        rw [upd_other _ _ hjk, (hcall j).1, e3]
        exact ⟨i, l, a, h1, h2, h3⟩
      · intro j r hj
        simp only at hj ⊢
        by_cases e : j = k
        · subst e; rw [hphk] at hj; cases hj
        · rw [hph j e] at hj; exact I.returned j r hj
      · exact I.nodup
      · intro j hj
        simp only at hj ⊢
        rw [d2] at hj
        by_cases e : j = k
        · subst e; rw [hphk]; exact ⟨fun h => (by cases h), fun h => absurd h hka⟩
        · rw [hph j e]; exact I.over j hj
      · exact I.known
      · simp only
        rw [d4, I.sent]
        refine List.map_congr_left fun j _ => ?_
        unfold answerTo
        rw [(hcall j).1, (hcall j).2.1, (hcall j).2.2]
    · cases h
  | finish k =>
    simp only at h
    split at h
    · rename_i i hi
      split at h
      · rename_i j ans hres
        obtain ⟨d, hd, rfl⟩ := Option.map_eq_some_iff.mp h
        obtain ⟨d1, d2, d3, d4⟩ := finish_step hd
        have hkx : k < s.dock.nx := by
          refine Nat.lt_of_not_le fun hge => ?_
          rw [(I.fresh k hge).1] at d1; cases d1
        have hka : k ∉ s.answered := fun h => by
          have := (I.over k hkx).mpr h
          rw [d1] at this; cases this
        have hcall : ∀ j, (d.exec j).call = (s.dock.exec j).call ∧ (d.exec j).peer = (s.dock.exec j).peer ∧
            (d.exec j).index = (s.dock.exec j).index := by
          intro j
          rw [d3]
          by_cases e : j = k
          · subst e; rw [upd_same]; exact ⟨rfl, rfl, rfl⟩
          · rw [upd_other _ _ e]; exact ⟨rfl, rfl, rfl⟩
        have hph : ∀ j, j ≠ k → (d.exec j).phase = (s.dock.exec j).phase := by
          intro j hj; rw [d3, upd_other _ _ hj]
        have hphk : (d.exec k).phase = .returned (retOf (s.dock.exec k).call.meth ans) := by rw [d3, upd_same]
        constructor
        · intro j hj
          simp only at hj ⊢
          rw [d2] at hj
          rw [hph j (by omega)]
          exact I.fresh j hj
        · intro j hj
          simp only at hj ⊢
          rw [d2] at hj
          rw [(hcall j).1]; exact I.slot j hj
        · intro j l hj
          simp only at hj ⊢
          rw [(hcall j).1]
          obtain ⟨h1, h2, h3, h4, h5⟩ := I.served j l hj
          refine ⟨h1, h2, h3, h4, ?_⟩
          by_cases e : j = k
          · subst e; rw [hphk]; simp
          · rw [hph j e]; exact h5
        · intro j hj hp
          simp only at hj hp ⊢
          rw [d2] at hj
          by_cases e : j = k
          · subst e; rw [hi]; simp
          · rw [hph j e] at hp; exact I.invoked j hj hp
        · exact I.inj
        · intro l r hl
          simp only at hl ⊢
          rw [(hcall l).1]
          by_cases e : l = k
          · subst e
            rw [upd_same] at hl
            cases hl
            exact ⟨i, j, ans, hi, hres, rfl⟩
          · rw [upd_other _ _ e] at hl
            exact I.outcome l r hl
        · intro l r hl
          simp only at hl ⊢
          by_cases e : l = k
          · subst e; rw [hphk] at hl; cases hl; exact upd_same ..
          · rw [hph l e] at hl; rw [upd_other _ _ e]; exact I.returned l r hl
        · exact I.nodup
        · intro l hl
          simp only at hl ⊢
          rw [d2] at hl
          by_cases e : l = k
          · subst e; rw [hphk]; exact ⟨fun h => (by cases h), fun h => absurd h hka⟩
          · rw [hph l e]; exact I.over l hl
        · intro l hl
          simp only at hl ⊢
          have : l ≠ k := by rintro rfl; exact hka hl
          rw [upd_other _ _ this]; exact I.known l hl
        · simp only
          rw [d4, I.sent]
          refine List.map_congr_left fun l hl => ?_
          have : l ≠ k := by rintro rfl; exact hka hl
          unfold answerTo
          rw [(hcall l).1, (hcall l).2.1, (hcall l).2.2, upd_other _ _ this]
      · cases h
    · cases h
  | respond k =>
    obtain ⟨d, hd, rfl⟩ := Option.map_eq_some_iff.mp h
    obtain ⟨r, d1, d2, d3, d4⟩ := respond_step hd
    have hkx : k < s.dock.nx := by
      refine Nat.lt_of_not_le fun hge => ?_
      rw [(I.fresh k hge).1] at d1; cases d1
    have hka : k ∉ s.answered := fun h => by
      have := (I.over k hkx).mpr h
      rw [d1] at this; cases this
    have hcall : ∀ j, (d.exec j).call = (s.dock.exec j).call ∧ (d.exec j).peer = (s.dock.exec j).peer ∧
        (d.exec j).index = (s.dock.exec j).index := by
      intro j
      rw [d3]
      by_cases e : j = k
      · subst e; rw [upd_same]; exact ⟨rfl, rfl, rfl⟩
      · rw [upd_other _ _ e]; exact ⟨rfl, rfl, rfl⟩
    have hph : ∀ j, j ≠ k → (d.exec j).phase = (s.dock.exec j).phase := by
      intro j hj; rw [d3, upd_other _ _ hj]
    have hphk : (d.exec k).phase = .over := by rw [d3, upd_same]
    constructor
    · intro j hj
      simp only at hj ⊢
      rw [d2] at hj
      rw [hph j (by omega)]
      obtain ⟨h1, h2, h3⟩ := I.fresh j hj
      refine ⟨h1, h2, ?_⟩
      simp only [List.mem_append, List.mem_singleton, not_or]
      exact ⟨h3, by omega⟩
    · intro j hj
      simp only at hj ⊢
      rw [d2] at hj
      rw [(hcall j).1]; exact I.slot j hj
    · intro j l hj
      simp only at hj ⊢
      rw [(hcall j).1]
      obtain ⟨h1, h2, h3, h4, h5⟩ := I.served j l hj
      refine ⟨h1, h2, h3, h4, ?_⟩
      by_cases e : j = k
      · subst e; rw [hphk]; simp
      · rw [hph j e]; exact h5
    · intro j hj hp
      simp only at hj hp ⊢
      rw [d2] at hj
      by_cases e : j = k
      · subst e; exact I.invoked j hj (by rw [d1]; simp)
      · rw [hph j e] at hp; exact I.invoked j hj hp
    · exact I.inj
    · intro l q hl
      simp only at hl ⊢
      rw [(hcall l).1]
      exact I.outcome l q hl
    · intro l q hl
      simp only at hl ⊢
      by_cases e : l = k
      · subst e; rw [hphk] at hl; cases hl
      · rw [hph l e] at hl; exact I.returned l q hl
    · simp only
      rw [List.nodup_append]
      refine ⟨I.nodup, by simp, ?_⟩
      intro a ha b hb e
      rw [List.mem_singleton] at hb
      subst hb; subst e
      exact hka ha
    · intro l hl
      simp only at hl ⊢
      rw [d2] at hl
      by_cases e : l = k
      · subst e; rw [hphk]; simp
      · rw [hph l e, I.over l hl]; simp [e]
    · intro l hl
      simp only at hl ⊢
      rcases List.mem_append.mp hl with hl | hl
      · exact I.known l hl
      · rw [List.mem_singleton] at hl
        subst hl
        rw [I.returned _ _ d1]; simp
    · simp only
      rw [d4, I.sent, List.map_append]
      congr 1
      · refine List.map_congr_left fun l hl => ?_
        unfold answerTo
        rw [(hcall l).1, (hcall l).2.1, (hcall l).2.2]
      · simp only [List.map_cons, List.map_nil]
        unfold answerTo
        rw [(hcall k).1, (hcall k).2.1, (hcall k).2.2, I.returned _ _ d1]
        rfl

theorem inv_run (cs : List Carried) (T : Nat → Chan.Target) (as : List Act) (s : State)
    (h : run (State.step cs T) (State.init T) as = some s) : Inv cs s :=
  run_inv (inv_step cs T) as _ _ (Inv.init cs T) h

end Verif.Whole
