import Verif.Props.System4
import Verif.Props.World8
import Verif.Props.World9

/-!
# C134: all features are started in fair executions
-/

namespace Verif.Props

open Verif Verif.Codec Verif.Proto Verif.System
open Verif.Dock (Carried LastNamed)

variable {C : Nat → List Carried} {T : Nat → Nat → Chan.Target} {H R : Nat → Str} {black : List Int}
  {E : World.Course C T H R black}

/-- The goroutines of `d.start()` go on, /repo/dock.go:132 and 218-222: each begins its loop, and while it is not in an
`OnStart` it calls the next. -/
inductive StartTurn : (World.State → World.Act → Prop) → Prop where
  | begins (d : Nat) : StartTurn fun _ a => a = .dock d .start
  | next (d l : Nat) : StartTurn fun _ a => ∃ name, a = .dock d (.onStart l name)

/-- The goroutine `l` that starts the features of dock `d` runs `OnStart` of the feature called `name`. -/
def Starting (S : World.State) (d l : Nat) (name : Str) : Prop := ∃ todo, (S.rest d).starts[l]? = some ⟨todo, some name⟩

/-- A goroutine of dock `d` that is not a method makes a call in step `k`, and the call never returns. -/
def NeverReturns (E : World.Course C T H R black) (k d : Nat) (c : Dock.Call) : Prop :=
  (∃ clock, E.act k = some (.dock d (.call c clock none))) ∧
  ((∃ f ∈ C d, f.name = c.slot) → ∀ m, k < m → ((E.st m).rest d).chan.result ((E.st k).rest d).chan.n = none) ∧
  ((∀ f ∈ C d, f.name ≠ c.slot) → ∀ m r, k < m → ((E.st m).sys.dock d).phase ((E.st k).sys.dock d).n ≠ .returned r)

/-- The feature is one of the dock's own, or a dock that joins at some time offers it. -/
def Known (E : World.Course C T H R black) (d : Nat) (slot : Str) : Prop :=
  (∃ f ∈ C d, f.name = slot) ∨ ∃ n d' f, E.act n = some (.sys (.join d')) ∧ LastNamed (C d') slot f ∧ f.discoverable = true

/-- `OnStart` of the features does not run for ever by itself: one that never returns has made a call, of a feature that is
known, which never returns. -/
def StartsWait (E : World.Course C T H R black) : Prop :=
  ∀ n d l name, (∀ m, n ≤ m → Starting (E.st m) d l name) →
    ∃ k c, Starting (E.st k) d l name ∧ NeverReturns E k d c ∧ Known E d c.slot

/-- When a dock starts its features, the first of its sockets is the one to the hub. -/
def HubFirst (E : World.Course C T H R black) : Prop :=
  ∀ n d, Dock.Ev.start ∈ ((E.st n).sys.dock d).log → ((E.st n).sys.dock d).sockets.head? = some .hub

/-! ## Steps of the loops -/

/-- What a step does to the loops of a dock. -/
theorem starts_step {S S' : World.State} {a : World.Act} (h : S.step C T H R black a = some S') (d : Nat) :
    ((S'.rest d).starts = (S.rest d).starts ∧ a ≠ .dock d .start ∧ (∀ l name, a ≠ .dock d (.onStart l name)) ∧
      ∀ l, a ≠ .dock d (.onStarted l)) ∨
    (a = .dock d .start ∧ (S.rest d).starts.length < Whole.startsIn (S.sys.dock d).log ∧
      (S'.rest d).starts = (S.rest d).starts ++ [⟨Dock.keysOf (C d), none⟩]) ∨
    (∃ l name todo, a = .dock d (.onStart l name) ∧ (S.rest d).starts[l]? = some ⟨todo, none⟩ ∧ name ∈ todo ∧
      (S'.rest d).starts = (S.rest d).starts.set l ⟨todo.erase name, some name⟩) ∨
    ∃ l name todo, a = .dock d (.onStarted l) ∧ (S.rest d).starts[l]? = some ⟨todo, some name⟩ ∧
      (S'.rest d).starts = (S.rest d).starts.set l ⟨todo, none⟩ := by
  cases a with
  | sys a => rw [(World.step_sys h).2.2]; exact Or.inl ⟨rfl, by simp, by simp, by simp⟩
  | dock d' a =>
    obtain ⟨h1, h2, w, hw, rfl⟩ := World.step_whole h
    by_cases e : d' = d
    swap
    · refine Or.inl ⟨?_, by simp [e], by simp [e], by simp [e]⟩
      simp only [World.State.put]
      rw [upd_other _ _ (Ne.symm e)]
    subst e
    have hst : ((S.put d' w).rest d').starts = w.starts := by simp [World.State.put]
    rw [hst]
    have hat : (S.at d').starts = (S.rest d').starts := rfl
    unfold Whole.State.step at hw
    split at hw
    · cases hw
    cases a with
    | start =>
      simp only at hw
      split at hw
      · rename_i hlt
        cases hw
        exact Or.inr (Or.inl ⟨rfl, hlt, rfl⟩)
      · cases hw
    | onStart l name =>
      simp only at hw
      split at hw
      · rename_i todo hl
        split at hw
        · rename_i hmem
          cases hw
          exact Or.inr (Or.inr (Or.inl ⟨l, name, todo, rfl, hl, hmem, rfl⟩))
        · cases hw
      · cases hw
    | onStarted l =>
      simp only at hw
      split at hw
      · rename_i todo name hl
        cases hw
        exact Or.inr (Or.inr (Or.inr ⟨l, name, todo, rfl, hl, rfl⟩))
      · cases hw
    | dock a =>
      simp only at hw
      split at hw
      · cases hw
      · obtain ⟨x, hx, rfl⟩ := Option.map_eq_some_iff.mp hw
        exact Or.inl ⟨rfl, by simp, by simp, by simp⟩
    | chan a =>
      simp only at hw
      repeat' split at hw
      all_goals first
        | (cases hw; done)
        | (obtain ⟨x, hx, rfl⟩ := Option.map_eq_some_iff.mp hw
           exact Or.inl ⟨rfl, by simp, by simp, by simp⟩)
    | call c clock parent =>
      simp only at hw
      repeat' split at hw
      all_goals first
        | (cases hw; done)
        | (obtain ⟨x, hx, rfl⟩ := Option.map_eq_some_iff.mp hw
           exact Or.inl ⟨rfl, by simp, by simp, by simp⟩)
        | (obtain ⟨x, hx, hw⟩ := Option.bind_eq_some_iff.mp hw
           obtain ⟨e, he, hw⟩ := Option.bind_eq_some_iff.mp hw
           cases hw
           exact Or.inl ⟨rfl, by simp, by simp, by simp⟩)
    | returns i =>
      obtain ⟨x, hx, rfl⟩ := Option.map_eq_some_iff.mp hw
      exact Or.inl ⟨rfl, by simp, by simp, by simp⟩
    | invoke k =>
      simp only at hw
      split at hw
      · obtain ⟨x, hx, hw⟩ := Option.bind_eq_some_iff.mp hw
        obtain ⟨e, he, hw⟩ := Option.bind_eq_some_iff.mp hw
        cases hw
        exact Or.inl ⟨rfl, by simp, by simp, by simp⟩
      · cases hw
    | finish k =>
      simp only at hw
      split at hw
      · split at hw
        · obtain ⟨x, hx, rfl⟩ := Option.map_eq_some_iff.mp hw
          exact Or.inl ⟨rfl, by simp, by simp, by simp⟩
        · cases hw
      · cases hw
    | respond k =>
      obtain ⟨x, hx, rfl⟩ := Option.map_eq_some_iff.mp hw
      exact Or.inl ⟨rfl, by simp, by simp, by simp⟩

/-- The log of a dock grows. -/
theorem begin_log (F : World.Fair E) {n m : Nat} (d : Nat) (hm : n ≤ m) :
    ∃ l, ((E.st m).sys.dock d).log = ((E.st n).sys.dock d).log ++ l :=
  Dock.course_log (T := dockCourse (World.sysCourse E F.chan) d) hm

theorem startsIn_append (l l' : List Dock.Ev) : Whole.startsIn (l ++ l') = Whole.startsIn l + Whole.startsIn l' := by
  simp [Whole.startsIn]

theorem startsIn_pos {l : List Dock.Ev} : 0 < Whole.startsIn l ↔ Dock.Ev.start ∈ l := by
  unfold Whole.startsIn
  rw [List.countP_pos_iff]
  constructor
  · rintro ⟨e, he, h⟩
    split at h
    · exact he
    · cases h
  · intro h
    exact ⟨_, h, rfl⟩

/-- There are no more loops than `go d.start()` was executed. -/
theorem loops_le (F : World.Fair E) (n d : Nat) : ((E.st n).rest d).starts.length ≤ Whole.startsIn ((E.st n).sys.dock d).log := by
  refine Trace.keep (P := fun n => ((E.st n).rest d).starts.length ≤ Whole.startsIn ((E.st n).sys.dock d).log) (n := 0) ?_ ?_ n
    (Nat.zero_le _)
  · rw [E.init]; exact Nat.le_refl _
  · intro m _ hm
    obtain ⟨l, hl⟩ := begin_log F d (Nat.le_succ m)
    rw [hl, startsIn_append]
    cases ha : E.act m with
    | none => rw [E.none_step ha]; omega
    | some a =>
      rcases starts_step (E.some_step ha) d with ⟨h, _⟩ | ⟨_, h1, h⟩ | ⟨_, _, _, _, _, _, h⟩ | ⟨_, _, _, _, _, h⟩ <;> rw [h]
      · omega
      · rw [List.length_append]; simp only [List.length_singleton]; omega
      · rw [List.length_set]; omega
      · rw [List.length_set]; omega

/-- The features of a dock are started at most once. -/
theorem one_loop (F : World.Fair E) (n d : Nat) : Whole.startsIn ((E.st n).sys.dock d).log ≤ 1 := by
  obtain ⟨as, h⟩ := E.reach n
  obtain ⟨bs, hb⟩ := World.sys_reach h
  exact C87_once_honest_partial C H R black bs _ hb d

/-- A step leaves the loop alone, or is a step of the loop. -/
theorem loop_step {n d l : Nat} {L : Whole.Loop} (h : ((E.st n).rest d).starts[l]? = some L) :
    (((E.st (n + 1)).rest d).starts[l]? = some L ∧ (∀ name, E.act n ≠ some (.dock d (.onStart l name))) ∧
      E.act n ≠ some (.dock d (.onStarted l))) ∨
    (∃ name, L.current = none ∧ name ∈ L.todo ∧ E.act n = some (.dock d (.onStart l name)) ∧
      ((E.st (n + 1)).rest d).starts[l]? = some ⟨L.todo.erase name, some name⟩) ∨
    ∃ name, L.current = some name ∧ E.act n = some (.dock d (.onStarted l)) ∧
      ((E.st (n + 1)).rest d).starts[l]? = some ⟨L.todo, none⟩ := by
  have hlt : l < ((E.st n).rest d).starts.length := by
    rcases Nat.lt_or_ge l ((E.st n).rest d).starts.length with h' | h'
    · exact h'
    · rw [List.getElem?_eq_none h'] at h; cases h
  cases ha : E.act n with
  | none => rw [E.none_step ha]; exact Or.inl ⟨h, by simp, by simp⟩
  | some a =>
    rcases starts_step (E.some_step ha) d with ⟨e, h1, h2, h3⟩ | ⟨rfl, _, e⟩ | ⟨l', name, todo, rfl, h1, h2, e⟩ |
        ⟨l', name, todo, rfl, h1, e⟩ <;> rw [e]
    · refine Or.inl ⟨h, fun name hc => h2 l name (Option.some.inj hc), fun hc => h3 l (Option.some.inj hc)⟩
    · refine Or.inl ⟨?_, by simp, by simp⟩
      rw [List.getElem?_append_left hlt, h]
    · by_cases el : l' = l
      · subst el
        rw [h1] at h
        cases h
        exact Or.inr (Or.inl ⟨name, rfl, h2, rfl, by rw [List.getElem?_set_self hlt]⟩)
      · exact Or.inl ⟨by rw [List.getElem?_set_ne el, h], by simp [el], by simp⟩
    · by_cases el : l' = l
      · subst el
        rw [h1] at h
        cases h
        exact Or.inr (Or.inr ⟨name, rfl, rfl, by rw [List.getElem?_set_self hlt]⟩)
      · exact Or.inl ⟨by rw [List.getElem?_set_ne el, h], by simp, by simp [el]⟩

/-- What is left to a loop becomes less. -/
theorem loop_later {n m d l : Nat} {L : Whole.Loop} (hm : n ≤ m) (h : ((E.st n).rest d).starts[l]? = some L) :
    ∃ L', ((E.st m).rest d).starts[l]? = some L' ∧ L'.todo.Sublist L.todo := by
  refine Trace.keep (P := fun m => ∃ L', ((E.st m).rest d).starts[l]? = some L' ∧ L'.todo.Sublist L.todo)
    ⟨L, h, List.Sublist.refl _⟩ ?_ m hm
  rintro m _ ⟨L', h1, h2⟩
  rcases loop_step h1 with ⟨h, _⟩ | ⟨name, _, _, _, h⟩ | ⟨name, _, _, h⟩
  · exact ⟨_, h, h2⟩
  · exact ⟨_, h, List.erase_sublist.trans h2⟩
  · exact ⟨_, h, h2⟩

/-- Each feature is left to a loop once. -/
theorem loop_nodup (n d l : Nat) (L : Whole.Loop) (h : ((E.st n).rest d).starts[l]? = some L) : L.todo.Nodup := by
  refine Trace.keep (P := fun n => ∀ L, ((E.st n).rest d).starts[l]? = some L → L.todo.Nodup) (n := 0) ?_ ?_ n
    (Nat.zero_le _) L h
  · intro L h
    rw [E.init] at h
    cases h
  · intro m _ ih L h
    cases ha : E.act m with
    | none => rw [E.none_step ha] at h; exact ih L h
    | some a =>
      rcases starts_step (E.some_step ha) d with ⟨e, _⟩ | ⟨rfl, _, e⟩ | ⟨l', name, todo, rfl, h1, h2, e⟩ |
          ⟨l', name, todo, rfl, h1, e⟩ <;> rw [e] at h
      · exact ih L h
      · rcases Nat.lt_or_ge l ((E.st m).rest d).starts.length with hl | hl
        · rw [List.getElem?_append_left hl] at h
          exact ih L h
        · rw [List.getElem?_append_right hl] at h
          have := List.mem_singleton.mp (List.mem_of_getElem? h)
          subst this
          exact Dock.nodup_eraseDups _
      · by_cases el : l' = l
        · subst el
          rw [List.getElem?_set] at h
          split at h
          · split at h
            · cases h
              exact (ih _ h1).erase _
            · cases h
          · exact ih L h
        · rw [List.getElem?_set_ne el] at h
          exact ih L h
      · by_cases el : l' = l
        · subst el
          rw [List.getElem?_set] at h
          split at h
          · split at h
            · cases h
              exact (ih _ h1 : todo.Nodup)
            · cases h
          · exact ih L h
        · rw [List.getElem?_set_ne el] at h
          exact ih L h

/-- No loop calls `OnStart` of a feature twice. -/
theorem onStart_once {i j d l : Nat} {name : Str} (hi : E.act i = some (.dock d (.onStart l name)))
    (hj : E.act j = some (.dock d (.onStart l name))) : i = j := by
  have main : ∀ i j, i < j → E.act i = some (.dock d (.onStart l name)) → E.act j = some (.dock d (.onStart l name)) → False := by
    intro i j hij hi hj
    have state : ∀ k, E.act k = some (.dock d (.onStart l name)) → ∃ todo, ((E.st k).rest d).starts[l]? = some ⟨todo, none⟩ ∧
        name ∈ todo ∧ ((E.st (k + 1)).rest d).starts[l]? = some ⟨todo.erase name, some name⟩ := by
      intro k hk
      rcases starts_step (E.some_step hk) d with ⟨_, _, h, _⟩ | ⟨h, _⟩ | ⟨l', name', todo, h, h1, h2, e⟩ | ⟨_, _, _, h, _⟩
      · exact absurd rfl (h l name)
      · cases h
      · cases h
        refine ⟨todo, h1, h2, ?_⟩
        rw [e, List.getElem?_set_self]
        rcases Nat.lt_or_ge l ((E.st k).rest d).starts.length with hl | hl
        · exact hl
        · rw [List.getElem?_eq_none hl] at h1; cases h1
      · cases h
    obtain ⟨todo, h1, h2, h3⟩ := state i hi
    obtain ⟨todo', h1', h2', -⟩ := state j hj
    obtain ⟨L', h4, h5⟩ := loop_later (show i + 1 ≤ j by omega) h3
    rw [h1'] at h4
    cases h4
    exact (List.Nodup.not_mem_erase (loop_nodup i d l _ h1)) (h5.subset h2')
  rcases Nat.lt_trichotomy i j with h | h | h
  · exact (main i j h hi hj).elim
  · exact h
  · exact (main j i h hj hi).elim

/-! ## Progress -/

/-- A dock that joins starts its features. -/
theorem join_starts {E : System.Course C H R black} (F : System.Fair E) {n d : Nat} (h : E.act n = some (.join d)) :
    ∃ m, n ≤ m ∧ Dock.Ev.start ∈ ((E.st m).dock d).log := by
  have hs := E.some_step h
  simp only [System.State.step] at hs
  split at hs
  case isFalse => cases hs
  split at hs
  case h_2 => cases hs
  rename_i s hs'
  have hS := Option.some.inj hs
  have ho : (E.st (n + 1)).owner (2 * (E.st n).n) = some (.dock d) := by
    rw [← hS]; simp [System.State.setDock, System.State.connect, upd]
  have ho' : (E.st (n + 1)).owner (2 * (E.st n).n + 1) = some .hub := by
    rw [← hS]; simp [System.State.setDock, System.State.connect]
  have hdock : (E.st (n + 1)).dock d = s := by rw [← hS]; simp [System.State.setDock]
  have hpg : s.isPeer (2 * (E.st n).n) = true ∧ s.greeting (2 * (E.st n).n) = true := by
    simp only [Dock.State.step] at hs'
    repeat' split at hs'
    all_goals first
      | (rw [← Option.some.inj hs']; simp [Dock.State.connected, Dock.State.isPeer]; done)
      | cases hs'
  rw [← hdock] at hpg
  generalize (E.st n).n = c at ho ho' hpg
  -- the dock registers
  obtain ⟨m1, order, hm1, horder, hl1⟩ := (F.docks d).greets hpg.2
  obtain ⟨k1, hk1⟩ := F.queued (exec_owner hm1 ho).1 hl1 (List.mem_singleton.mpr rfl)
  rw [other_even] at hk1
  obtain ⟨m2, hm2, hs2⟩ := F.gets_hub_whole hk1 (exec_owner (by omega) ho').1 (by simp [Proto.kind])
  obtain ⟨addr, port, ht2⟩ : ∃ addr port, (E.st (m2 + 1)).hub.task (2 * c + 1) = .adding addr port order := by
    have hd := F.hub (m2 + 1)
    simp only [Hub.State.step] at hs2
    repeat' split at hs2
    all_goals first
      | (rw [← Option.some.inj hs2] at hd; cases hd; done)
      | (rw [← Option.some.inj hs2]; exact ⟨_, _, upd_same ..⟩)
      | cases hs2
  -- and gets a port
  obtain ⟨m3, hm3, hl3, -⟩ := F.hubs.adds ht2
  obtain ⟨k3, hk3⟩ := F.queued_hub (exec_owner (show n + 1 ≤ m3 by omega) ho').1 hl3 (List.mem_singleton.mpr rfl)
  rw [other_odd] at hk3
  obtain ⟨m4, hm4, hs4⟩ := F.gets_whole hk3 (exec_owner (by omega) ho).1 hpg.1 (by simp [Proto.kind])
  obtain ⟨m5, order5, hm5, -, hl5⟩ := (F.docks d).announces (n := m4 + 1) (p := 2 * c) (port := BitVec.ofNat 64 port) (by
    show ((E.st (m4 + 1)).dock d).handler (2 * c) = _
    rw [hs4]; simp [Dock.State.onPacket])
  refine ⟨m5 + 1, by omega, ?_⟩
  have hl5 : ((E.st (m5 + 1)).dock d).log = ((E.st m5).dock d).log ++ _ := hl5
  rw [hl5]
  simp

/-- The goroutine begins its loop. -/
theorem loop_begins (F : World.Fair E) (W : E.WeaklyFair StartTurn) {n d : Nat} (h : Dock.Ev.start ∈ ((E.st n).sys.dock d).log) :
    ∃ m, ((E.st m).rest d).starts[0]? = some ⟨Dock.keysOf (C d), none⟩ := by
  -- the step that begins it
  have begun : ∀ m, E.act m = some (.dock d .start) → ((E.st (m + 1)).rest d).starts[0]? = some ⟨Dock.keysOf (C d), none⟩ := by
    intro m hm
    rcases starts_step (E.some_step hm) d with ⟨_, h, _⟩ | ⟨_, h1, e⟩ | ⟨_, _, _, h, _⟩ | ⟨_, _, _, h, _⟩
    · exact absurd rfl h
    · have := one_loop F m d
      have h0 : ((E.st m).rest d).starts = [] := List.eq_nil_of_length_eq_zero (by omega)
      rw [e, h0]
      rfl
    · cases h
    · cases h
  refine Classical.byContradiction fun hno => ?_
  have empty : ∀ m, ((E.st m).rest d).starts = [] := by
    intro m
    refine Trace.keep (P := fun m => ((E.st m).rest d).starts = []) (n := 0) (by rw [E.init]; rfl) ?_ m (Nat.zero_le _)
    intro m _ ih
    cases ha : E.act m with
    | none => rw [E.none_step ha]; exact ih
    | some a =>
      rcases starts_step (E.some_step ha) d with ⟨e, _⟩ | ⟨rfl, _⟩ | ⟨_, _, _, _, h, _⟩ | ⟨_, _, _, _, h, _⟩
      · rw [e]; exact ih
      · exact (hno ⟨_, begun m ha⟩).elim
      · rw [ih] at h; cases h
      · rw [ih] at h; cases h
  obtain ⟨m, a, _, ha, rfl⟩ := W _ (.begins d) n fun m hm => ⟨_, rfl, by
    obtain ⟨l, hl⟩ := begin_log F d hm
    have hpos : 0 < Whole.startsIn ((E.st m).sys.dock d).log := by
      rw [startsIn_pos, hl]; exact List.mem_append_left _ h
    have e : (World.State.at (E.st m) d).starts = [] := empty m
    simp only [World.State.step, F.up, World.alone]
    simp only [Whole.State.step, World.State.at, F.dock, F.chan]
    simp [empty m, hpos]⟩
  exact hno ⟨_, begun m ha⟩

/-- Between two features the loop goes on to the next. -/
theorem loop_next (F : World.Fair E) (W : E.WeaklyFair StartTurn) {n d l : Nat} {todo : List Str}
    (h : ((E.st n).rest d).starts[l]? = some ⟨todo, none⟩) (ht : todo ≠ []) :
    ∃ m name, n ≤ m ∧ name ∈ todo ∧ E.act m = some (.dock d (.onStart l name)) ∧
      ((E.st (m + 1)).rest d).starts[l]? = some ⟨todo.erase name, some name⟩ := by
  have can : ∀ m, n ≤ m → ((E.st m).rest d).starts[l]? = some ⟨todo, none⟩ →
      ∃ a, (∃ name, a = World.Act.dock d (.onStart l name)) ∧ (E.st m).step C T H R black a ≠ none := by
    intro m _ hp
    obtain ⟨x, hx⟩ := List.exists_mem_of_ne_nil _ ht
    refine ⟨_, ⟨x, rfl⟩, ?_⟩
    simp only [World.State.step, F.up, World.alone]
    simp only [Whole.State.step, World.State.at, F.dock, F.chan]
    simp [hp, hx]
  obtain ⟨m, a, hm, hp, ha, name, rfl⟩ := W.taken (.next d l) h can (by
    intro m _ hp hno
    rcases loop_step hp with ⟨h, _⟩ | ⟨name', _, _, h, _⟩ | ⟨_, h, _⟩
    · exact h
    · exact (hno _ h ⟨_, rfl⟩).elim
    · cases h)
  rcases loop_step hp with ⟨_, h, _⟩ | ⟨name', _, h1, h2, h3⟩ | ⟨_, h, _⟩
  · exact absurd ha (h name)
  · rw [ha] at h2
    cases h2
    exact ⟨m, name, hm, h1, ha, h3⟩
  · cases h

/-- `OnStart` returns. -/
theorem onStart_returns (F : World.Fair E) (hb : BodiesReturn E) (hd : ∀ d, ReadingsDiffer E d) (hw : StartsWait E)
    (hh : HubFirst E) {n d l : Nat} {todo : List Str} {name : Str}
    (h : ((E.st n).rest d).starts[l]? = some ⟨todo, some name⟩) :
    ∃ m, n ≤ m ∧ (∀ i, n ≤ i → i ≤ m → Starting (E.st i) d l name) ∧ E.act m = some (.dock d (.onStarted l)) ∧
      ((E.st (m + 1)).rest d).starts[l]? = some ⟨todo, none⟩ := by
  refine Classical.byContradiction fun hno => ?_
  have hall : ∀ m, n ≤ m → (∀ i, n ≤ i → i ≤ m → ((E.st i).rest d).starts[l]? = some ⟨todo, some name⟩) := by
    refine Trace.keep (P := fun m => ∀ i, n ≤ i → i ≤ m → ((E.st i).rest d).starts[l]? = some ⟨todo, some name⟩) ?_ ?_
    · intro i h1 h2
      have : i = n := by omega
      subst this
      exact h
    · intro m hm ih i h1 h2
      rcases Nat.lt_or_ge i (m + 1) with hi | hi
      · exact ih i h1 (by omega)
      · have : i = m + 1 := by omega
        subst this
        rcases loop_step (ih m hm (Nat.le_refl _)) with ⟨h, _⟩ | ⟨_, h, _⟩ | ⟨_, _, h1, h2⟩
        · exact h
        · cases h
        · exact (hno ⟨m, hm, fun i h3 h4 => ⟨_, ih i h3 h4⟩, h1, h2⟩).elim
  obtain ⟨k, c, ⟨todo', hk⟩, ⟨⟨clock, hact⟩, hlocal, hremote⟩, hknown⟩ :=
    hw n d l name fun m hm => ⟨todo, hall m hm m hm (Nat.le_refl _)⟩
  have hstart : Dock.Ev.start ∈ ((E.st k).sys.dock d).log := by
    rw [← startsIn_pos]
    have := loops_le F k d
    have hl : l < ((E.st k).rest d).starts.length := by
      rcases Nat.lt_or_ge l ((E.st k).rest d).starts.length with h' | h'
      · exact h'
      · rw [List.getElem?_eq_none h'] at hk; cases hk
    omega
  by_cases hc : ∃ f ∈ C d, f.name = c.slot
  · obtain ⟨m, a, hm, hr⟩ := C127_returns_local F hb k d c clock none hact hc
    rw [hlocal hc m hm] at hr
    cases hr
  · have hc' : ∀ f ∈ C d, f.name ≠ c.slot := fun f hf e => hc ⟨f, hf, e⟩
    obtain ⟨m, r, hm, hr⟩ := C127_returns F hb d (hd d) k c clock none hact hc' ⟨hh k d hstart, hknown.resolve_left hc⟩
    exact hremote hc' m r hm hr

/-- The loop ends, and calls `OnStart` of all features it has left. -/
theorem loop_ends (F : World.Fair E) (W : E.WeaklyFair StartTurn) (hb : BodiesReturn E) (hd : ∀ d, ReadingsDiffer E d)
    (hw : StartsWait E) (hh : HubFirst E) (d l : Nat) : ∀ (k : Nat) (todo : List Str) (n : Nat), todo.length = k →
    ((E.st n).rest d).starts[l]? = some ⟨todo, none⟩ →
    (∃ m, n ≤ m ∧ ((E.st m).rest d).starts[l]? = some ⟨[], none⟩) ∧
    ∀ name ∈ todo, ∃ i j, i < j ∧ E.act i = some (.dock d (.onStart l name)) ∧ E.act j = some (.dock d (.onStarted l)) ∧
      ∀ m, i < m → m ≤ j → Starting (E.st m) d l name := by
  intro k
  induction k with
  | zero =>
    intro todo n hk h
    obtain rfl := List.eq_nil_of_length_eq_zero hk
    exact ⟨⟨n, Nat.le_refl _, h⟩, by simp⟩
  | succ k ih =>
    intro todo n hk h
    obtain ⟨m, x, hm, hx, ha, h1⟩ := loop_next F W h (by intro e; rw [e] at hk; cases hk)
    obtain ⟨j, hj, hrun, hj', h2⟩ := onStart_returns F hb hd hw hh h1
    obtain ⟨⟨m', hm', he⟩, hrest⟩ := ih (todo.erase x) (j + 1) (by rw [List.length_erase_of_mem hx]; omega) h2
    refine ⟨⟨m', by omega, he⟩, fun name hn => ?_⟩
    by_cases e : name = x
    · subst e
      exact ⟨m, j, by omega, ha, hj', fun i h3 h4 => hrun i (by omega) h4⟩
    · exact hrest name ((List.mem_erase_of_ne e).mpr hn)

/-! ## C134 -/

/-- **C134 (partial).**  In every fair execution of a system with callees in which nothing is lost and nothing stops, methods
return and clocks give no reading twice; in which the goroutines that start features go on, an `OnStart` waits for nothing but
calls of its own features or of features that some dock offers, and the first socket of a dock that starts its features is the one
to the hub: a dock that joins starts each of its features, once, and each `OnStart` returns.  This holds whatever the docks
call each other in their `OnStart`.
Missing: that the first socket is the one to the hub, see `C134_overtaken_refuted`. -/
theorem C134_started_partial (F : World.Fair E) (W : E.WeaklyFair StartTurn) (hb : BodiesReturn E) (hd : ∀ d, ReadingsDiffer E d)
    (hw : StartsWait E) (hh : HubFirst E) (n d : Nat) (hj : E.act n = some (.sys (.join d))) :
    (∃ m, ∀ m', m ≤ m' → ((E.st m').rest d).starts = [⟨[], none⟩]) ∧
    ∀ f ∈ C d, ∃ i j, i < j ∧ E.act i = some (.dock d (.onStart 0 f.name)) ∧ E.act j = some (.dock d (.onStarted 0)) ∧
      (∀ m, i < m → m ≤ j → Starting (E.st m) d 0 f.name) ∧
      ∀ i' l, E.act i' = some (.dock d (.onStart l f.name)) → i' = i := by
  have hsj : (World.sysCourse E F.chan).act n = some (.join d) := by
    show (E.act n).bind _ = _
    rw [hj]; rfl
  obtain ⟨m0, -, h0⟩ := join_starts F.sys hsj
  obtain ⟨m1, h1⟩ := loop_begins F W h0
  have one : ∀ m l L, ((E.st m).rest d).starts[l]? = some L → l = 0 := by
    intro m l L h
    have h2 := loops_le F m d
    have h3 := one_loop F m d
    rcases Nat.lt_or_ge l ((E.st m).rest d).starts.length with h' | h'
    · omega
    · rw [List.getElem?_eq_none h'] at h; cases h
  obtain ⟨⟨m2, -, h2⟩, hall⟩ := loop_ends F W hb hd hw hh d 0 _ _ m1 rfl h1
  refine ⟨⟨m2, fun m hm => ?_⟩, fun f hf => ?_⟩
  · have h3 : ((E.st m).rest d).starts[0]? = some ⟨[], none⟩ := by
      refine Trace.keep (P := fun m => ((E.st m).rest d).starts[0]? = some ⟨[], none⟩) h2 ?_ m hm
      intro m _ h
      rcases loop_step h with ⟨h, _⟩ | ⟨_, _, h, _⟩ | ⟨_, h, _⟩
      · exact h
      · cases h
      · cases h
    have h4 := loops_le F m d
    have h5 := one_loop F m d
    match hs : ((E.st m).rest d).starts with
    | [] => rw [hs] at h3; cases h3
    | [x] => rw [hs] at h3; cases h3; rfl
    | x :: y :: l => rw [hs] at h4; simp only [List.length_cons] at h4; omega
  · obtain ⟨i, j, hij, hi, hj, hrun⟩ := hall f.name (by
      rw [Dock.keysOf, List.mem_eraseDups]
      exact List.mem_map.mpr ⟨f, hf, rfl⟩)
    refine ⟨i, j, hij, hi, hj, hrun, fun i' l hi' => ?_⟩
    have : l = 0 := by
      rcases starts_step (E.some_step hi') d with ⟨_, _, h, _⟩ | ⟨h, _⟩ | ⟨l', name', todo, h, h1, _⟩ | ⟨_, _, _, h, _⟩
      · exact absurd rfl (h l _)
      · cases h
      · cases h
        exact one _ _ _ h1
      · cases h
    subst this
    exact onStart_once hi' hi

end Verif.Props
