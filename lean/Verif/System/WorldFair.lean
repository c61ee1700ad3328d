import Verif.System.WorldFacts
import Verif.System.Fair
import Verif.Props.Chan6

/-!
# Fair executions of a system with callees

The course of the system within and of the callees of each dock, and what fairness of the whole says on them.
-/

namespace Verif.World

open Verif Verif.Codec Verif.Proto

/-- What an action is for the system within. -/
def State.sysAct (S : State) : Act → Option System.Act
  | .sys a => some a
  | .dock d (.dock a) => some (.dock d a)
  | .dock d (.call c clock _) => some (.dock d (.call c clock))
  | .dock d (.returns i) => some (.dock d (.closeChan i))
  | .dock d (.invoke k) => some (.dock d (.invoke k))
  | .dock d (.finish k) =>
    match (S.rest d).served k with
    | some i =>
      match (S.rest d).chan.result i with
      | some (_, ans) => some (.dock d (.finish k (Whole.retOf ((S.sys.dock d).exec k).call.meth ans)))
      | none => none
    | none => none
  | .dock d (.respond k) => some (.dock d (.respond k))
  | .dock _ _ => none

/-- What an action is for the callees of dock `d`. -/
def State.chanAct (C : Nat → List Dock.Carried) (S : State) (d : Nat) : Act → Option Chan.Act
  | .dock d' (.chan a) => if d' = d then some a else none
  | .dock d' (.call c _ parent) =>
    if d' = d then (Whole.calleeOf (C d) c.slot).map fun k => .call k (S.rest d).chan.n c.meth c.args parent else none
  | .dock d' (.invoke k) =>
    if d' = d then
      (Whole.calleeOf (C d) ((S.sys.dock d).exec k).call.slot).map fun c =>
        .call c (S.rest d).chan.n ((S.sys.dock d).exec k).call.meth ((S.sys.dock d).exec k).call.args none
    else none
  | _ => none

section
variable {C : Nat → List Dock.Carried} {T : Nat → Nat → Chan.Target} {H R : Nat → Str} {black : List Int}

theorem put_sys {S : State} {d : Nat} {w : Whole.State} (h : w.chan.dead = false) : (S.put d w).sys = S.sys.setDock d w.dock := by
  simp [State.put, h, System.State.setDock]

/-- A step is a step of the system within, or nothing to it. -/
theorem sys_part {S S' : State} {a : Act} (h : S.step C T H R black a = some S') (hd : ∀ d, (S'.rest d).chan.dead = false) :
    match S.sysAct a with
    | some x => S.sys.step C H R black x = some S'.sys
    | none => S'.sys = S.sys := by
  cases a with
  | sys a => exact (step_sys h).2.1
  | dock d a =>
    obtain ⟨h1, h2, w, hw, rfl⟩ := step_whole h
    have hdead : w.chan.dead = false := by simpa [State.put] using hd d
    rw [put_sys hdead]
    have same : w.dock = S.sys.dock d → S.sys.setDock d w.dock = S.sys := fun e => by rw [e, System.setDock_self]
    have one : ∀ x, System.dockAlone x = true → (S.sys.dock d).step (C d) x = some w.dock →
        S.sys.step C H R black (.dock d x) = some (S.sys.setDock d w.dock) := by
      intro x hx e
      simp [System.State.step, h1, hx, e]
    unfold Whole.State.step at hw
    split at hw
    · cases hw
    cases a with
    | dock a =>
      simp only at hw
      split at hw
      · cases hw
      · obtain ⟨x, hx, rfl⟩ := Option.map_eq_some_iff.mp hw
        exact one _ h2 hx
    | chan a =>
      simp only at hw
      repeat' split at hw
      all_goals first
        | (cases hw; done)
        | (obtain ⟨x, hx, rfl⟩ := Option.map_eq_some_iff.mp hw
           exact same rfl)
    | call c clock parent =>
      simp only at hw
      repeat' split at hw
      all_goals first
        | (cases hw; done)
        | (obtain ⟨x, hx, rfl⟩ := Option.map_eq_some_iff.mp hw
           exact one _ rfl hx)
        | (obtain ⟨x, hx, hw⟩ := Option.bind_eq_some_iff.mp hw
           obtain ⟨e, he, hw⟩ := Option.bind_eq_some_iff.mp hw
           cases hw
           exact one _ rfl hx)
    | returns i =>
      obtain ⟨x, hx, rfl⟩ := Option.map_eq_some_iff.mp hw
      exact one _ rfl hx
    | invoke k =>
      simp only at hw
      split at hw
      · obtain ⟨x, hx, hw⟩ := Option.bind_eq_some_iff.mp hw
        obtain ⟨e, he, hw⟩ := Option.bind_eq_some_iff.mp hw
        cases hw
        exact one _ rfl hx
      · cases hw
    | finish k =>
      simp only at hw
      split at hw
      · rename_i i hi
        split at hw
        · rename_i j ans hj
          obtain ⟨x, hx, rfl⟩ := Option.map_eq_some_iff.mp hw
          have hi' : (S.rest d).served k = some i := hi
          have hj' : (S.rest d).chan.result i = some (j, ans) := hj
          simp only [State.sysAct, hi', hj']
          exact one _ rfl hx
        · cases hw
      · cases hw
    | respond k =>
      obtain ⟨x, hx, rfl⟩ := Option.map_eq_some_iff.mp hw
      exact one _ rfl hx
    | start =>
      simp only at hw
      split at hw <;> cases hw
      exact same rfl
    | onStart l name =>
      simp only at hw
      repeat' split at hw
      all_goals cases hw
      exact same rfl
    | onStarted l =>
      simp only at hw
      repeat' split at hw
      all_goals cases hw
      exact same rfl

/-- A step is a step of the callees of a dock, or nothing to them. -/
theorem chan_part {S S' : State} {a : Act} (h : S.step C T H R black a = some S') (d : Nat) :
    match S.chanAct C d a with
    | some x => (S.rest d).chan.step (T d) x = some (S'.rest d).chan
    | none => (S'.rest d).chan = (S.rest d).chan := by
  cases a with
  | sys a => rw [(step_sys h).2.2]; rfl
  | dock d' a =>
    obtain ⟨h1, h2, w, hw, rfl⟩ := step_whole h
    by_cases e : d' = d
    swap
    · have hr : ((S.put d' w).rest d).chan = (S.rest d).chan := by
        simp only [State.put]; rw [upd_other _ _ (Ne.symm e)]
      rw [hr]
      cases a <;> simp [State.chanAct, e]
    subst e
    have hr : ((S.put d' w).rest d') = w := by simp [State.put]
    rw [hr]
    unfold Whole.State.step at hw
    split at hw
    · cases hw
    cases a with
    | dock a =>
      simp only at hw
      split at hw
      · cases hw
      · obtain ⟨x, hx, rfl⟩ := Option.map_eq_some_iff.mp hw
        rfl
    | chan a =>
      simp only at hw
      repeat' split at hw
      all_goals first
        | (cases hw; done)
        | (obtain ⟨x, hx, rfl⟩ := Option.map_eq_some_iff.mp hw
           simp only [State.chanAct, if_pos]
           exact hx)
    | call c clock parent =>
      simp only at hw
      repeat' split at hw
      all_goals first
        | (cases hw; done)
        | (rename_i hc
           obtain ⟨x, hx, rfl⟩ := Option.map_eq_some_iff.mp hw
           simp only [State.chanAct, if_pos, hc, Option.map_none]
           rfl)
        | (rename_i hc
           obtain ⟨x, hx, hw⟩ := Option.bind_eq_some_iff.mp hw
           obtain ⟨e, he, hw⟩ := Option.bind_eq_some_iff.mp hw
           cases hw
           simp only [State.chanAct, if_pos, hc, Option.map_some]
           exact he)
    | returns i =>
      obtain ⟨x, hx, rfl⟩ := Option.map_eq_some_iff.mp hw
      rfl
    | invoke k =>
      simp only at hw
      split at hw
      · rename_i c hc
        obtain ⟨x, hx, hw⟩ := Option.bind_eq_some_iff.mp hw
        obtain ⟨e, he, hw⟩ := Option.bind_eq_some_iff.mp hw
        cases hw
        have hc' : Whole.calleeOf (C d') ((S.sys.dock d').exec k).call.slot = some c := hc
        simp only [State.chanAct, if_pos, hc', Option.map_some]
        exact he
      · cases hw
    | finish k =>
      simp only at hw
      repeat' split at hw
      all_goals first
        | (cases hw; done)
        | (obtain ⟨x, hx, rfl⟩ := Option.map_eq_some_iff.mp hw
           rfl)
    | respond k =>
      obtain ⟨x, hx, rfl⟩ := Option.map_eq_some_iff.mp hw
      rfl
    | start =>
      simp only at hw
      split at hw <;> cases hw
      rfl
    | onStart l name =>
      simp only at hw
      repeat' split at hw
      all_goals cases hw
      rfl
    | onStarted l =>
      simp only at hw
      repeat' split at hw
      all_goals cases hw
      rfl

end

/-! ## Fairness -/

/-- The steps that happen by themselves: those of the system within, a call that has its result returns to the goroutine
that serves the request, and the goroutines of package chancall go on. -/
inductive Turn : (State → Act → Prop) → Prop where
  | sys {K : System.State → System.Act → Prop} (h : System.Turn K) : Turn fun S a => ∃ x, S.sysAct a = some x ∧ K S.sys x
  | finish (d k : Nat) : Turn fun _ a => a = .dock d (.finish k)
  | chan (d : Nat) (x : Chan.Act) (h : Props.Runs x) : Turn fun _ a => a = .dock d (.chan x)

/-- The loops over the calls, and the goroutines that wait for room in the queue of a callee. -/
inductive Loop : (State → Act → Prop) → Prop where
  | sys {K : System.State → System.Act → Prop} (h : System.Loop K) : Loop fun S a => ∃ x, S.sysAct a = some x ∧ K S.sys x
  | push (d i : Nat) : Loop fun _ a => a = .dock d (.chan (.push i))

section
variable {C : Nat → List Dock.Carried} {T : Nat → Nat → Chan.Target} {H R : Nat → Str} {black : List Int}

variable (C T H R black) in
/-- The course of a system with callees from its beginning on, possibly with pauses. -/
structure Course extends Trace (State.step C T H R black) where
  init : st 0 = State.init T

/-- A fair course in which time goes on, no packet is lost, no process stops, the hub closes no connection, and all packets
fit into frames.  Nothing is said on whether methods return. -/
structure Fair (E : Course C T H R black) : Prop where
  weak : E.WeaklyFair Turn
  strong : E.StronglyFair Loop
  time : ∀ d t, ∃ n, t ≤ ((E.st n).rest d).chan.clock
  kept : ∀ n e k, E.act n ≠ some (.sys (.lose e k))
  up : ∀ n p, (E.st n).sys.down p = false
  dock : ∀ n d, ((E.st n).sys.dock d).dead = false
  hub : ∀ n, (E.st n).sys.hub.dead = false
  opened : ∀ n p, (E.st n).sys.hub.closed p = false
  short : ∀ n e, ∀ pkt ∈ (E.st n).sys.queue e, System.fate pkt ≠ .tooLong

theorem Course.reach (E : Course C T H R black) (n : Nat) : ∃ as, run (State.step C T H R black) (State.init T) as = some (E.st n) := by
  induction n with
  | zero => exact ⟨[], by rw [E.init]; rfl⟩
  | succ n ih =>
    obtain ⟨as, h⟩ := ih
    cases ha : E.act n with
    | none => exact ⟨as, by rw [E.none_step ha]; exact h⟩
    | some a => exact ⟨as ++ [a], by rw [run_append, h]; simp [run, E.some_step ha]⟩

variable {E : Course C T H R black}

theorem course_inv (n : Nat) : Inv C T (E.st n) := by
  obtain ⟨as, h⟩ := E.reach n
  exact inv_run h

theorem Fair.chan (F : Fair E) (n d : Nat) : ((E.st n).rest d).chan.dead = false := by
  cases h : ((E.st n).rest d).chan.dead with
  | false => rfl
  | true =>
    have := (course_inv n).down d h
    rw [F.up] at this
    cases this

/-- The course of the system within. -/
def sysCourse (E : Course C T H R black) (hc : ∀ n d, ((E.st n).rest d).chan.dead = false) : System.Course C H R black where
  st := fun n => (E.st n).sys
  act := fun n => (E.act n).bind fun a => (E.st n).sysAct a
  next := fun n => by
    cases ha : E.act n with
    | none =>
      show (E.st (n + 1)).sys = (E.st n).sys
      rw [E.none_step ha]
    | some a =>
      have h := sys_part (E.some_step ha) (hc (n + 1))
      simp only [Option.bind]
      split <;> rename_i e <;> rw [e] at h <;> exact h
  init := by rw [E.init]; rfl

/-- An action of package chancall that changes nothing: a timeout is set to what it is. -/
def idle (s : Chan.State) : Chan.Act := .setTimeout 0 [] ((s.timeouts 0 []).getD 0)

theorem idle_step {T : Nat → Chan.Target} {s : Chan.State} (h : s.dead = false) : s.step T (idle s) = some s := by
  unfold Chan.State.step idle
  simp only [h, Bool.false_eq_true, if_false]
  split
  · rename_i t ht
    rw [ht]
    simp only [Option.getD]
    congr 1
    have : upd s.timeouts 0 (upd (s.timeouts 0) [] (some t)) = s.timeouts := by
      funext c
      by_cases e : c = 0
      · subst e
        rw [upd_same]
        funext m
        by_cases e : m = []
        · subst e; rw [upd_same, ht]
        · rw [upd_other _ _ e]
      · rw [upd_other _ _ e]
    rw [this]
    cases s
    simp only at h
    subst h
    rfl
  · rfl

/-- The course of the callees of a dock. -/
def chanCourse (E : Course C T H R black) (hc : ∀ n d, ((E.st n).rest d).chan.dead = false) (d : Nat) :
    Exec (Chan.State.step (T d)) (Chan.State.init (T d)) where
  st := fun n => ((E.st n).rest d).chan
  act := fun n => ((E.act n).bind fun a => (E.st n).chanAct C d a).getD (idle ((E.st n).rest d).chan)
  init := by rw [E.init]; rfl
  next := fun n => by
    cases ha : E.act n with
    | none =>
      rw [E.none_step ha]
      exact idle_step (hc n d)
    | some a =>
      have h := chan_part (E.some_step ha) d
      simp only [Option.bind]
      split at h
      · rename_i x e
        rw [e]
        exact h
      · rename_i e
        rw [e, h]
        exact idle_step (hc n d)

/-- The action of the whole that does what goroutines of the system within do by themselves. -/
def lifted : System.Act → Act
  | .dock d (.closeChan i) => .dock d (.returns i)
  | .dock d (.invoke k) => .dock d (.invoke k)
  | .dock d (.respond k) => .dock d (.respond k)
  | .dock d a => .dock d (.dock a)
  | a => .sys a

/-- What goroutines of a dock can do by themselves, they can do in the whole. -/
theorem lifted_dock {S : State} (W : Inv C T S) (hc : ∀ d, (S.rest d).chan.dead = false) (hu : ∀ p, S.sys.down p = false)
    (hd : ∀ d, (S.sys.dock d).dead = false) {d : Nat} {K : Dock.State → Dock.Act → Prop} (hK : Dock.Turn K ∨ Dock.Loop K)
    {x : Dock.Act} (hx : K (S.sys.dock d) x) (h : (S.sys.dock d).step (C d) x ≠ none) :
    S.sysAct (lifted (.dock d x)) = some (.dock d x) ∧ S.step C T H R black (lifted (.dock d x)) ≠ none := by
  have ha := System.turn_alone hK hx
  have plain : Whole.tiedD x = false → S.step C T H R black (.dock d (.dock x)) ≠ none := by
    intro ht
    simp only [State.step, hu, alone, ha]
    simp only [Whole.State.step, State.at, hd, hc, ht]
    simpa using h
  have tied : ∀ y, (S.at d).step (C d) (T d) y ≠ none → alone y = true → S.step C T H R black (.dock d y) ≠ none := by
    intro y hy hal
    simp only [State.step, hu, hal]
    simpa using hy
  rcases hK with h' | h'
  · cases h' with
    | storeHub => subst hx; exact ⟨rfl, plain rfl⟩
    | greet e => obtain ⟨o, rfl⟩ := hx; exact ⟨rfl, plain rfl⟩
    | store i => subst hx; exact ⟨rfl, plain rfl⟩
    | setReq i => subst hx; exact ⟨rfl, plain rfl⟩
    | commit i => subst hx; exact ⟨rfl, plain rfl⟩
    | receive i => subst hx; exact ⟨rfl, plain rfl⟩
    | closeChan i =>
      subst hx
      refine ⟨rfl, tied _ ?_ rfl⟩
      simp only [Whole.State.step, State.at, hd, hc]
      simpa using h
    | work p => obtain ⟨_, o, rfl⟩ := hx; exact ⟨rfl, plain rfl⟩
    | invoke k =>
      subst hx
      refine ⟨rfl, tied _ ?_ rfl⟩
      have hk : k < (S.sys.dock d).nx := by
        refine Nat.lt_of_not_le fun hle => h ?_
        obtain ⟨as, hr⟩ := W.whole d
        have := ((Whole.inv_run _ _ as _ hr).fresh k hle).1
        have : ((S.sys.dock d).exec k).phase = .over := this
        simp [Dock.State.step, hd, this]
      obtain ⟨c, hcal⟩ : ∃ c, Whole.calleeOf (C d) ((S.sys.dock d).exec k).call.slot = some c := by
        cases e : Whole.calleeOf (C d) ((S.sys.dock d).exec k).call.slot with
        | some c => exact ⟨c, rfl⟩
        | none =>
          obtain ⟨as, hr⟩ := W.whole d
          exact absurd (Whole.calleeOf_none.mp e) ((Whole.inv_run _ _ as _ hr).slot k hk)
      simp only [Whole.State.step, State.at, hd, hc, hcal, Chan.State.step]
      cases e : (S.sys.dock d).step (C d) (.invoke k) with
      | none => exact absurd e h
      | some t => simp
    | respond k =>
      subst hx
      refine ⟨rfl, tied _ ?_ rfl⟩
      simp only [Whole.State.step, State.at, hd, hc]
      simpa using h
    | callback k => subst hx; exact ⟨rfl, plain rfl⟩
    | delete k => subst hx; exact ⟨rfl, plain rfl⟩
  · cases h' with
    | visit p i => subst hx; exact ⟨rfl, plain rfl⟩
    | leave p => obtain ⟨_, o, rfl⟩ := hx; exact ⟨rfl, plain rfl⟩

theorem lifted_can {S : State} (W : Inv C T S) (hc : ∀ d, (S.rest d).chan.dead = false) (hu : ∀ p, S.sys.down p = false)
    (hd : ∀ d, (S.sys.dock d).dead = false) {K : System.State → System.Act → Prop} (hK : System.Turn K ∨ System.Loop K)
    {x : System.Act} (hx : K S.sys x) (h : S.sys.step C H R black x ≠ none) :
    S.sysAct (lifted x) = some x ∧ S.step C T H R black (lifted x) ≠ none := by
  have dock : ∀ d y (K : Dock.State → Dock.Act → Prop), Dock.Turn K ∨ Dock.Loop K → K (S.sys.dock d) y → x = .dock d y →
      S.sysAct (lifted x) = some x ∧ S.step C T H R black (lifted x) ≠ none := by
    rintro d y K hK hy rfl
    refine lifted_dock W hc hu hd hK hy ?_
    intro e
    apply h
    simp only [System.State.step, e]
    split <;> rfl
  have plain : (∀ d b, x ≠ .dock d b) → S.sysAct (lifted x) = some x ∧ S.step C T H R black (lifted x) ≠ none := by
    intro hn
    have e : lifted x = .sys x := by
      cases x <;> first | rfl | exact absurd rfl (hn _ _)
    rw [e]
    refine ⟨rfl, ?_⟩
    unfold State.step
    cases x <;> first | exact absurd rfl (hn _ _) | simpa using h
  rcases hK with h' | h'
  · cases h' with
    | dock d h' => obtain ⟨y, rfl, hy⟩ := hx; exact dock d y _ (Or.inl h') hy rfl
    | hub h' => obtain ⟨y, rfl, hy⟩ := hx; exact plain fun _ _ e => by cases e
    | dial d p => obtain ⟨_, _, rfl⟩ := hx; exact plain fun _ _ e => by cases e
    | accept e => subst hx; exact plain fun _ _ e => by cases e
    | deliver e => subst hx; exact plain fun _ _ e => by cases e
  · cases h' with
    | dock d h' => obtain ⟨y, rfl, hy⟩ := hx; exact dock d y _ (Or.inr h') hy rfl

/-- The system within takes a fair course. -/
theorem Fair.sys (F : Fair E) : System.Fair (sysCourse E F.chan) := by
  have acts : ∀ {m a x}, E.act m = some a → (E.st m).sysAct a = some x → (sysCourse E F.chan).act m = some x := by
    intro m a x h1 h2
    show (E.act m).bind _ = _
    rw [h1]
    exact h2
  constructor
  · intro K hK n h
    obtain ⟨m, a, hm, ha, x, hx, hk⟩ := F.weak _ (.sys hK) n (by
      intro m hm
      obtain ⟨x, h1, h2⟩ := h m hm
      obtain ⟨h3, h4⟩ := lifted_can (course_inv m) (F.chan m) (F.up m) (F.dock m) (Or.inl hK) h1 h2
      exact ⟨_, ⟨x, h3, h1⟩, h4⟩)
    exact ⟨m, x, hm, acts ha hx, hk⟩
  · intro K hK n h
    obtain ⟨m, a, hm, ha, x, hx, hk⟩ := F.strong _ (.sys hK) n (by
      intro k hk
      obtain ⟨m, x, hm, h1, h2⟩ := h k hk
      obtain ⟨h3, h4⟩ := lifted_can (course_inv m) (F.chan m) (F.up m) (F.dock m) (Or.inr hK) h1 h2
      exact ⟨m, _, hm, ⟨x, h3, h1⟩, h4⟩)
    exact ⟨m, x, hm, acts ha hx, hk⟩
  · intro n e k h
    obtain ⟨a, h1, h2⟩ := Option.bind_eq_some_iff.mp h
    unfold State.sysAct at h2
    repeat' split at h2
    all_goals cases h2
    exact F.kept n e k h1
  · exact F.up
  · exact F.dock
  · exact F.hub
  · exact F.opened
  · exact F.short

theorem chan_can {S : State} (hc : ∀ d, (S.rest d).chan.dead = false) (hu : ∀ p, S.sys.down p = false)
    (hd : ∀ d, (S.sys.dock d).dead = false) {d : Nat} {x : Chan.Act} (hx : Props.Runs x) (h : (S.rest d).chan.step (T d) x ≠ none) :
    S.step C T H R black (.dock d (.chan x)) ≠ none := by
  have ht : Whole.tiedC x = false := by cases x <;> first | rfl | exact absurd hx id
  simp only [State.step, hu, alone, Whole.State.step, State.at, hd, hc, ht]
  cases x <;> first | exact absurd hx id | simpa using h

/-- The callees of each dock take a fair course, and calls are made on caller objects of their own. -/
theorem Fair.chans (F : Fair E) (d : Nat) :
    Props.FairRun (T d) (chanCourse E F.chan d) ∧ Props.UnsharedRun (T d) (chanCourse E F.chan d) := by
  have acts : ∀ {m x}, E.act m = some (.dock d (.chan x)) → (chanCourse E F.chan d).act m = x := by
    intro m x h
    show ((E.act m).bind _).getD _ = _
    rw [h]
    simp [State.chanAct]
  refine ⟨⟨?_, ?_, F.time d⟩, ?_⟩
  · intro x hx n h
    obtain ⟨m, a, hm, ha, e⟩ := F.weak _ (.chan d x hx) n fun m hm =>
      ⟨_, rfl, chan_can (F.chan m) (F.up m) (F.dock m) hx (h m hm)⟩
    subst e
    exact ⟨m, hm, acts ha⟩
  · rintro x ⟨i, rfl⟩ n h
    obtain ⟨m, a, hm, ha, e⟩ := F.strong _ (.push d i) n (by
      intro k hk
      obtain ⟨m, hm, h1⟩ := h k hk
      exact ⟨m, _, hm, rfl, chan_can (F.chan m) (F.up m) (F.dock m) trivial h1⟩)
    subst e
    exact ⟨m, hm, acts ha⟩
  · intro n callee caller meth args parent e j hj hcal
    have e : ((E.act n).bind fun a => (E.st n).chanAct C d a).getD (idle ((E.st n).rest d).chan) =
      .call callee caller meth args parent := e
    have hj : j < ((E.st n).rest d).chan.n := hj
    have hcal : (((E.st n).rest d).chan.req j).caller = caller := hcal
    obtain ⟨as, hr⟩ := (course_inv (E := E) n).whole d
    have own := (Whole.chan_run _ _ as _ hr).1.own j hj
    have own : (((E.st n).rest d).chan.req j).caller = j := own
    have : caller = ((E.st n).rest d).chan.n := by
      cases h : ((E.act n).bind fun a => (E.st n).chanAct C d a) with
      | none => rw [h] at e; simp [idle] at e
      | some x =>
        rw [h] at e
        simp only [Option.getD] at e
        obtain ⟨a, h1, h2⟩ := Option.bind_eq_some_iff.mp h
        subst e
        have hstep := E.some_step h1
        unfold State.chanAct at h2
        repeat' split at h2
        all_goals first
          | (cases h2; done)
          | (obtain ⟨k, hk, h2⟩ := Option.map_eq_some_iff.mp h2
             cases h2
             rfl)
          | skip
        cases h2
        obtain ⟨_, _, w, hw, _⟩ := step_whole hstep
        simp [Whole.State.step, Whole.tiedC] at hw
    omega

end

end Verif.World
