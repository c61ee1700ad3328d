import Verif.System.Parts
import Verif.System.Pair
import Verif.Dock.Fair
import Verif.Hub.Fair
import Verif.Props.System1

/-!
# Fair executions of the system

Executions in which nothing is lost, nothing stops, and the goroutines of all processes and the connections between them
go on when they can.
-/

namespace Verif.System

open Verif Verif.Codec Verif.Proto

/-- The steps that happen by themselves: the goroutines of the docks and of the hub go on, connections are made and
accepted, packets arrive. -/
inductive Turn : (State → Act → Prop) → Prop where
  | dock (d : Nat) {K : Dock.State → Dock.Act → Prop} (h : Dock.Turn K) : Turn fun S a => ∃ x, a = .dock d x ∧ K (S.dock d) x
  | hub {K : Hub.State → Hub.Act → Prop} (h : Hub.Turn K) : Turn fun S a => ∃ x, a = .hub x ∧ K S.hub x
  | dial (d p : Nat) : Turn fun _ a => ∃ d' port, a = .dial d p d' port
  | accept (e : Nat) : Turn fun _ a => a = .accept e
  | deliver (e : Nat) : Turn fun _ a => a = .deliver e

/-- The loops over the calls. -/
inductive Loop : (State → Act → Prop) → Prop where
  | dock (d : Nat) {K : Dock.State → Dock.Act → Prop} (h : Dock.Loop K) : Loop fun S a => ∃ x, a = .dock d x ∧ K (S.dock d) x

section
variable {C : Nat → List Dock.Carried} {H : Nat → Str} {R : Nat → Str} {black : List Int}

variable (C H R black) in
/-- The course of a system from its beginning on.  There may be pauses, also one that does not end. -/
structure Course extends Trace (State.step C H R black) where
  init : st 0 = .init

/-- An execution is a course without pauses. -/
def courseOf (E : Exec (State.step C H R black) .init) : Course C H R black := ⟨E.trace, E.init⟩

/-- A fair course in which no packet is lost, no process stops, the hub closes no connection, and all packets fit into
frames. -/
structure Fair (E : Course C H R black) : Prop where
  weak : E.WeaklyFair Turn
  strong : E.StronglyFair Loop
  kept : ∀ n e k, E.act n ≠ some (.lose e k)
  up : ∀ n p, (E.st n).down p = false
  dock : ∀ n d, ((E.st n).dock d).dead = false
  hub : ∀ n, (E.st n).hub.dead = false
  opened : ∀ n p, (E.st n).hub.closed p = false
  short : ∀ n e, ∀ pkt ∈ (E.st n).queue e, fate pkt ≠ .tooLong

/-- The course of a dock. -/
def dockCourse (E : Course C H R black) (d : Nat) : Trace (Dock.State.step (C d)) where
  st := fun n => (E.st n).dock d
  act := fun n => (E.act n).bind fun a => (E.st n).dockAct a d
  next := fun n => by
    cases ha : E.act n with
    | none =>
      show (E.st (n + 1)).dock d = (E.st n).dock d
      rw [E.none_step ha]
    | some a =>
      have h := dock_part (E.some_step ha) d
      simp only [Option.bind]
      split <;> rename_i e <;> rw [e] at h <;> exact h

/-- The course of the hub. -/
def hubCourse (E : Course C H R black) : Trace (Hub.State.step R black) where
  st := fun n => (E.st n).hub
  act := fun n => (E.act n).bind fun a => (E.st n).hubAct a
  next := fun n => by
    cases ha : E.act n with
    | none =>
      show (E.st (n + 1)).hub = (E.st n).hub
      rw [E.none_step ha]
    | some a =>
      have h := hub_part (E.some_step ha)
      simp only [Option.bind]
      split <;> rename_i e <;> rw [e] at h <;> exact h

theorem turn_alone {K : Dock.State → Dock.Act → Prop} (h : Dock.Turn K ∨ Dock.Loop K) {s : Dock.State} {x : Dock.Act} (hx : K s x) :
    dockAlone x = true := by
  rcases h with h | h
  · cases h
    all_goals first
      | (cases hx; rfl)
      | (obtain ⟨_, rfl⟩ := hx; rfl)
      | (obtain ⟨_, _, rfl⟩ := hx; rfl)
  · cases h
    all_goals first
      | (cases hx; rfl)
      | (obtain ⟨_, _, rfl⟩ := hx; rfl)

theorem hubTurn_alone {K : Hub.State → Hub.Act → Prop} (h : Hub.Turn K) {s : Hub.State} {x : Hub.Act} (hx : K s x) :
    hubAlone x = true := by
  cases h <;> cases hx <;> rfl

/-- Docks get packets by deliveries. -/
theorem dockAct_recv {S T : State} {a : Act} {d e : Nat} {q : Proto} (h : S.step C H R black a = some T)
    (hx : S.dockAct a d = some (.recv e q)) : a = .deliver e ∧ ∃ pkt rest, S.queue e = pkt :: rest ∧ fate pkt = .arrives q := by
  cases a <;> simp only [State.dockAct] at hx <;> repeat' split at hx
  all_goals cases hx
  · simp [State.step, dockAlone] at h
  · exact ⟨rfl, _, _, ‹_›, ‹_›⟩

theorem dockAct_dial {S T : State} {a : Act} {d p e : Nat} (h : S.step C H R black a = some T)
    (hx : S.dockAct a d = some (.dialOK p e)) : ∃ d' port, a = .dial d p d' port ∧ e = 2 * S.n := by
  cases a <;> simp only [State.dockAct] at hx <;> repeat' split at hx
  all_goals cases hx
  · simp [State.step, dockAlone] at h
  · rename_i h' ; subst h'; exact ⟨_, _, rfl, rfl⟩

theorem dockAct_accept {S T : State} {a : Act} {d e : Nat} {port : BitVec 64} (h : S.step C H R black a = some T)
    (hx : S.dockAct a d = some (.accept e port)) : a = .accept e := by
  cases a <;> simp only [State.dockAct] at hx <;> repeat' split at hx
  all_goals cases hx
  · simp [State.step, dockAlone] at h
  · rfl

theorem hubAct_recv {S T : State} {a : Act} {e : Nat} {q : Proto} (h : S.step C H R black a = some T)
    (hx : S.hubAct a = some (.recv e q)) : a = .deliver e := by
  cases a <;> simp only [State.hubAct] at hx <;> repeat' split at hx
  all_goals cases hx
  · simp [State.step, hubAlone] at h
  · rfl

variable {E : Course C H R black}

theorem Course.reach (E : Course C H R black) (n : Nat) : ∃ as, run (State.step C H R black) .init as = some (E.st n) := by
  induction n with
  | zero => exact ⟨[], by rw [E.init]; rfl⟩
  | succ n ih =>
    obtain ⟨as, h⟩ := ih
    cases ha : E.act n with
    | none => exact ⟨as, by rw [E.none_step ha]; exact h⟩
    | some a => exact ⟨as ++ [a], by rw [run_append, h]; simp [run, E.some_step ha]⟩

theorem exec_inv (n : Nat) : Inv C H R black (E.st n) := by
  obtain ⟨as, h⟩ := E.reach n
  exact inv_run C H R black h

theorem exec_ends (n : Nat) : Ends (E.st n) := by
  obtain ⟨as, h⟩ := E.reach n
  exact ends_run C H R black h

/-- The steps of docks are those of the system. -/
theorem dock_act {m d : Nat} {x : Dock.Act} (h : (dockCourse E d).act m = some x) :
    ∃ a, E.act m = some a ∧ (E.st m).dockAct a d = some x ∧ (E.st m).step C H R black a = some (E.st (m + 1)) := by
  obtain ⟨a, h1, h2⟩ := Option.bind_eq_some_iff.mp h
  exact ⟨a, h1, h2, E.some_step h1⟩

theorem hub_act {m : Nat} {x : Hub.Act} (h : (hubCourse E).act m = some x) :
    ∃ a, E.act m = some a ∧ (E.st m).hubAct a = some x ∧ (E.st m).step C H R black a = some (E.st (m + 1)) := by
  obtain ⟨a, h1, h2⟩ := Option.bind_eq_some_iff.mp h
  exact ⟨a, h1, h2, E.some_step h1⟩

theorem dock_acts {m d : Nat} {a : Act} (h : E.act m = some a) : (dockCourse E d).act m = (E.st m).dockAct a d := by
  show (E.act m).bind _ = _
  rw [h]
  rfl

theorem hub_acts {m : Nat} {a : Act} (h : E.act m = some a) : (hubCourse E).act m = (E.st m).hubAct a := by
  show (E.act m).bind _ = _
  rw [h]
  rfl

/-- Docks take fair courses. -/
theorem Fair.docks (F : Fair E) (d : Nat) : Dock.FairCourse (C d) (dockCourse E d) := by
  have can : ∀ (m : Nat) (x : Dock.Act), dockAlone x = true → ((E.st m).dock d).step (C d) x ≠ none →
      (E.st m).step C H R black (.dock d x) ≠ none := by
    intro m x h1 h2
    simp only [State.step]
    rw [if_pos ⟨F.up m _, h1⟩]
    split
    · simp
    · exact absurd ‹_› h2
  refine ⟨?_, ?_, fun n => F.dock n d, fun n => (exec_inv n).parts.dock d, ?_⟩
  · intro K hK n h
    obtain ⟨m, a, hm, ha, x, hx, hk⟩ := F.weak _ (.dock d hK) n (by
      intro m hm
      obtain ⟨x, h1, h2⟩ := h m hm
      exact ⟨_, ⟨x, rfl, h1⟩, can m x (turn_alone (Or.inl hK) h1) h2⟩)
    refine ⟨m, x, hm, ?_, hk⟩
    rw [dock_acts ha, hx]
    simp [State.dockAct]
  · intro K hK n h
    obtain ⟨m, a, hm, ha, x, hx, hk⟩ := F.strong _ (.dock d hK) n (by
      intro k hk
      obtain ⟨m, x, hm, h1, h2⟩ := h k hk
      exact ⟨m, _, hm, ⟨x, rfl, h1⟩, can m x (turn_alone (Or.inr hK) h1) h2⟩)
    refine ⟨m, x, hm, ?_, hk⟩
    rw [dock_acts ha, hx]
    simp [State.dockAct]
  · intro n p addr h
    obtain ⟨m, a, hm, hp, ha, d', port, e⟩ := F.weak.taken (.dial d p)
      (P := fun m => ((E.st m).dock d).handler p = .dialling addr) (n := n) h
      (by
        intro m hm hp
        obtain ⟨_, hr⟩ := E.reach m
        obtain ⟨d', x, h1, h2, _⟩ := Props.C80_dial C H R black _ _ hr d p addr hp
        refine ⟨.dial d p d' x, ⟨d', x, rfl⟩, ?_⟩
        show (E.st m).step C H R black _ ≠ none
        simp only [State.step, hp]
        rw [if_pos ⟨F.up m _, F.up m _, h2, h1⟩]
        have hnew := isNew_fresh (exec_inv m) (exec_ends m) (d := d) (Nat.le_refl (2 * (E.st m).n))
        simp [Dock.State.step, F.dock m d, hp, hnew])
      (by
        intro m hm hp hno
        rcases Dock.course_hand (T := dockCourse E d) m p with h | ⟨a, ha, h⟩
        · exact h.trans hp
        · have hp' : ((dockCourse E d).st m).handler p = .dialling addr := hp
          cases h with
          | starts pkt h => rw [hp'] at h; cases h
          | visits i x y z w h => rw [hp'] at h; cases h
          | works o =>
            have hs := (dockCourse E d).some_step ha
            have hw := Dock.work_step hs (F.dock (m + 1) d)
            rw [hp'] at hw
            exact hw.elim
          | dials e addr h =>
            obtain ⟨b, hb, hx, hs⟩ := dock_act ha
            obtain ⟨d', port, e1, _⟩ := dockAct_dial hs hx
            exact absurd ⟨d', port, e1⟩ (hno _ hb))
    refine ⟨m, 2 * (E.st m).n, hm, hp, ?_⟩
    rw [dock_acts ha, e]
    simp [State.dockAct]

/-- The hub takes a fair course. -/
theorem Fair.hubs (F : Fair E) : Hub.FairCourse R black (hubCourse E) := by
  refine ⟨?_, fun n => F.hub n, fun n => (exec_inv n).parts.hub⟩
  intro K hK n h
  obtain ⟨m, a, hm, ha, x, hx, hk⟩ := F.weak _ (.hub hK) n (by
    intro m hm
    obtain ⟨x, h1, h2⟩ := h m hm
    refine ⟨_, ⟨x, rfl, h1⟩, ?_⟩
    show (E.st m).step C H R black _ ≠ none
    simp only [State.step]
    rw [if_pos ⟨F.up m _, hubTurn_alone hK h1⟩]
    split
    · simp
    · exact absurd ‹_› h2)
  refine ⟨m, x, hm, ?_, hk⟩
  rw [hub_acts ha, hx]
  rfl

/-! ## Packets -/

theorem exec_owner {n m e : Nat} {p : Proc} (hm : n ≤ m) (h : (E.st n).owner e = some p) :
    (E.st m).owner e = some p ∧ (E.st m).port e = (E.st n).port e :=
  Trace.keep (P := fun m => (E.st m).owner e = some p ∧ (E.st m).port e = (E.st n).port e) ⟨h, rfl⟩
    (fun m _ h => by
      cases ha : E.act m with
      | none => rw [E.none_step ha]; exact h
      | some a =>
        obtain ⟨h1, h2⟩ := owner_step (exec_inv m).shape (E.some_step ha) h.1
        exact ⟨h1, h2.trans h.2⟩) m hm

theorem exec_isPeer {n m d e : Nat} (hm : n ≤ m) (h : ((E.st n).dock d).isPeer e = true) : ((E.st m).dock d).isPeer e = true := by
  refine (dockCourse E d).stays (P := fun s => s.isPeer e = true) ?_ h m hm
  intro s a t h hs
  obtain ⟨l, hl⟩ := Dock.peers_step hs
  exact Dock.isPeer_mono hl h

/-- A packet whose turn it is can arrive at a dock. -/
theorem deliver_can {S : State} (I : Inv C H R black S) {d e : Nat} {pkt : Proto} {rest : List Proto} (hq : S.queue e = pkt :: rest)
    (ho : S.owner e = some (.dock d)) (hp : (S.dock d).isPeer e = true) (hh : (S.dock d).handler e = .idle)
    (hd : (S.dock d).dead = false) (hu : S.down (.dock d) = false) (hf : fate pkt ≠ .tooLong) :
    S.step C H R black (.deliver e) ≠ none := by
  have ho' : ∃ p, S.owner (other e) = some p := by
    obtain ⟨del, _, h⟩ := I.fifo e
    rw [hq] at h
    have := h.subset (List.mem_append_right _ List.mem_cons_self)
    unfold State.sentBy at this
    split at this
    · exact ⟨_, by assumption⟩
    · exact ⟨_, by assumption⟩
    · cases this
  obtain ⟨p, ho'⟩ := ho'
  simp only [State.step, hq]
  split
  · simp [State.receive, ho, hu, recv_step hd hh hp]
  · simp [ho']
  · simp [ho]
  · exact absurd ‹_› hf

theorem deliver_can_hub {S : State} (I : Inv C H R black S) {e : Nat} {pkt : Proto} {rest : List Proto} (hq : S.queue e = pkt :: rest)
    (ho : S.owner e = some .hub) (hh : S.hub.task e = .idle) (hc : S.hub.closed e = false)
    (hd : S.hub.dead = false) (hu : S.down .hub = false) (hf : fate pkt ≠ .tooLong) :
    S.step C H R black (.deliver e) ≠ none := by
  have ho' : ∃ p, S.owner (other e) = some p := by
    obtain ⟨del, _, h⟩ := I.fifo e
    rw [hq] at h
    have := h.subset (List.mem_append_right _ List.mem_cons_self)
    unfold State.sentBy at this
    split at this
    · exact ⟨_, by assumption⟩
    · exact ⟨_, by assumption⟩
    · cases this
  obtain ⟨p, ho'⟩ := ho'
  simp only [State.step, hq]
  split
  · rename_i q _
    have : S.hub.step R black (.recv e q) ≠ none := by
      simp only [Hub.State.step, hd, hh, hc]
      rw [if_neg (by simp)]
      cases q <;> simp
      split <;> simp
    simp only [State.receive, ho, hu]
    rw [if_neg (by simp)]
    split
    · simp
    · exact absurd ‹_› this
  · simp [ho']
  · simp [ho]
  · exact absurd ‹_› hf

section
variable (F : Fair E)
include F

/-- Packets stay on their way until they are delivered. -/
theorem Fair.keeps {n e k : Nat} {pkt : Proto} (h : ((E.st n).queue e)[k]? = some pkt) :
    (E.act n ≠ some (.deliver e) → ((E.st (n + 1)).queue e)[k]? = some pkt) ∧
    (E.act n = some (.deliver e) → ∀ j, k = j + 1 → ((E.st (n + 1)).queue e)[j]? = some pkt) := by
  cases hn : E.act n with
  | none =>
    rw [E.none_step hn]
    exact ⟨fun _ => h, fun h => by cases h⟩
  | some a =>
  simp only [ne_eq, Option.some.injEq]
  obtain ⟨y, z, h1, h2, h3, _⟩ := queue_step (exec_inv n).shape (E.some_step hn) (fun e k h => F.kept n e k (by rw [hn, h])) e
  refine ⟨fun ha => ?_, fun ha j hj => ?_⟩
  · rw [h1, h2 ha]
    exact List.getElem?_append_left (List.getElem?_eq_some_iff.mp h).1 |>.trans h
  · rw [h1, h3 ha]
    subst hj
    have h' : (E.st n).queue e |>.tail[j]? = some pkt := by rw [List.getElem?_tail]; exact h
    exact (List.getElem?_append_left (List.getElem?_eq_some_iff.mp h').1).trans h'

/-- The process at the end gets packets. -/
def Takes (S : State) (e : Nat) : Prop := (∃ d, S.owner e = some (.dock d) ∧ (S.dock d).isPeer e = true) ∨ S.owner e = some .hub

omit F in
theorem exec_takes {n m e : Nat} (hm : n ≤ m) (h : Takes (E.st n) e) : Takes (E.st m) e := by
  rcases h with ⟨d, h1, h2⟩ | h
  · exact Or.inl ⟨d, (exec_owner hm h1).1, exec_isPeer hm h2⟩
  · exact Or.inr (exec_owner hm h).1

/-- If packets are on their way, one arrives, provided that the process at the end gets packets sooner or later. -/
theorem Fair.moves {n t e : Nat} (hq : (E.st n).queue e ≠ []) (hT : Takes (E.st t) e) : ∃ m, n ≤ m ∧ E.act m = some (.deliver e) := by
  refine Classical.byContradiction fun hno => ?_
  have hno : ∀ m, n ≤ m → E.act m ≠ some (.deliver e) := fun m hm h => hno ⟨m, hm, h⟩
  obtain ⟨pkt, rest, hq⟩ := List.exists_cons_of_ne_nil hq
  have hk : ∀ m, n ≤ m → ((E.st m).queue e)[0]? = some pkt :=
    Trace.keep (P := fun m => ((E.st m).queue e)[0]? = some pkt) (by rw [hq]; rfl) fun m hm h => (F.keeps h).1 (hno m hm)
  have hk' : ∀ m, n ≤ m → ∃ rest, (E.st m).queue e = pkt :: rest := by
    intro m hm
    have := hk m hm
    cases x : (E.st m).queue e with
    | nil => rw [x] at this; cases this
    | cons y l => rw [x] at this; cases this; exact ⟨l, rfl⟩
  have hT := exec_takes (Nat.le_max_right n t) hT
  have hnt := Nat.le_max_left n t
  rcases hT with ⟨d, ho, hp⟩ | ho
  · obtain ⟨m1, hm1, h1⟩ := (F.docks d).idle (max n t) e
    have hid : ∀ m, m1 ≤ m → ((dockCourse E d).st m).handler e = .idle :=
      Trace.keep (P := fun m => ((dockCourse E d).st m).handler e = .idle) h1 fun m hm h => by
        rcases Dock.course_hand (T := dockCourse E d) m e with h' | ⟨a, ha, h'⟩
        · exact h'.trans h
        · cases h' with
          | starts pkt h =>
            obtain ⟨b, hb, hx, hs⟩ := dock_act ha
            exact (hno m (by omega) (by rw [hb, (dockAct_recv hs hx).1])).elim
          | visits i x y z w h' => rw [h] at h'; cases h'
          | works o =>
            have hs := (dockCourse E d).some_step ha
            have hw := Dock.work_step hs (F.dock (m + 1) d)
            rw [h] at hw
            exact hw.elim
          | dials e addr h' => rw [h] at h'; cases h'
    obtain ⟨m, a, hm, ha, e'⟩ := F.weak _ (.deliver e) m1 (by
      intro m hm
      obtain ⟨rest, hq⟩ := hk' m (by omega)
      exact ⟨_, rfl, deliver_can (exec_inv m) hq (exec_owner (by omega) ho).1 (exec_isPeer (by omega) hp) (hid m hm) (F.dock m d)
        (F.up m _) (F.short m e pkt (by rw [hq]; simp))⟩)
    exact hno m (by omega) (by rw [ha, e'])
  · obtain ⟨m1, hm1, h1⟩ := F.hubs.idle (max n t) e
    have hid : ∀ m, m1 ≤ m → ((hubCourse E).st m).task e = .idle :=
      Trace.keep (P := fun m => ((hubCourse E).st m).task e = .idle) h1 fun m hm h => by
        cases ea : (hubCourse E).act m with
        | none => rw [(hubCourse E).none_step ea]; exact h
        | some a =>
          have hs := (hubCourse E).some_step ea
          rcases Hub.task_step hs e with h' | h' | ⟨_, pkt, h'⟩
          · exact h'.trans h
          · subst h'
            have hw := Hub.work_step hs
            rw [h] at hw
            exact hw.elim
          · subst h'
            obtain ⟨b, hb, hx, hs⟩ := hub_act ea
            exact (hno m (by omega) (by rw [hb, hubAct_recv hs hx])).elim
    obtain ⟨m, a, hm, ha, e'⟩ := F.weak _ (.deliver e) m1 (by
      intro m hm
      obtain ⟨rest, hq⟩ := hk' m (by omega)
      exact ⟨_, rfl, deliver_can_hub (exec_inv m) hq (exec_owner (by omega) ho).1 (hid m hm) (F.opened m e) (F.hub m)
        (F.up m _) (F.short m e pkt (by rw [hq]; simp))⟩)
    exact hno m (by omega) (by rw [ha, e'])

/-- Every packet on its way arrives. -/
theorem Fair.arrives {n t e k : Nat} {pkt : Proto} (hk : ((E.st n).queue e)[k]? = some pkt) (hT : Takes (E.st t) e) :
    ∃ m rest q, n ≤ m ∧ E.act m = some (.deliver e) ∧ (E.st m).queue e = pkt :: rest ∧ fate pkt = .arrives q := by
  induction k generalizing n with
  | zero =>
    obtain ⟨m, hm, ha, hno⟩ := Trace.first (F.moves (n := n) (e := e) (by intro h; rw [h] at hk; cases hk) hT)
    have hq : ∀ j, n ≤ j → j ≤ m → ((E.st j).queue e)[0]? = some pkt := by
      intro j hj
      exact Trace.keep (P := fun j => j ≤ m → ((E.st j).queue e)[0]? = some pkt) (fun _ => hk)
        (fun j hj h hjm => (F.keeps (h (by omega))).1 (hno j hj (by omega))) j hj
    have := hq m hm (Nat.le_refl _)
    cases x : (E.st m).queue e with
    | nil => rw [x] at this; cases this
    | cons y l =>
      rw [x] at this
      cases this
      have hs := E.some_step ha
      simp only [State.step, x] at hs
      cases f : fate pkt with
      | arrives q => exact ⟨m, l, q, hm, ha, x, rfl⟩
      | killsSender =>
        simp only [f] at hs
        split at hs
        · rename_i p _
          have := F.up (m + 1) p
          rw [← Option.some.inj hs] at this
          simp at this
        · cases hs
      | killsReceiver =>
        simp only [f] at hs
        split at hs
        · rename_i p _
          have := F.up (m + 1) p
          rw [← Option.some.inj hs] at this
          simp at this
        · cases hs
      | tooLong => simp only [f] at hs; cases hs
  | succ k ih =>
    obtain ⟨m, hm, ha, hno⟩ := Trace.first (F.moves (n := n) (e := e) (by intro h; rw [h] at hk; cases hk) hT)
    have hq : ∀ j, n ≤ j → j ≤ m → ((E.st j).queue e)[k + 1]? = some pkt := by
      intro j hj
      exact Trace.keep (P := fun j => j ≤ m → ((E.st j).queue e)[k + 1]? = some pkt) (fun _ => hk)
        (fun j hj h hjm => (F.keeps (h (by omega))).1 (hno j hj (by omega))) j hj
    obtain ⟨m', rest, q, hm', h⟩ := ih (n := m + 1) ((F.keeps (hq m hm (Nat.le_refl _))).2 ha k rfl)
    exact ⟨m', rest, q, by omega, h⟩

omit F in
theorem recv_inv {cs : List Dock.Carried} {s t : Dock.State} {e : Nat} {q : Proto} (h : s.step cs (.recv e q) = some t) :
    s.handler e = .idle ∧ s.isPeer e = true ∧ t = ({ s with log := s.log ++ [.recv e q] } : Dock.State).onPacket cs e q := by
  unfold Dock.State.step at h
  split at h
  · cases h
  simp only at h
  split at h
  · split at h
    · exact ⟨‹_›, ‹_›, (Option.some.inj h).symm⟩
    · cases h
  · cases h

/-- What a dock sends is on its way. -/
theorem Fair.queued {n d e : Nat} {pkt : Proto} {l : List Dock.Ev} (ho : (E.st n).owner e = some (.dock d))
    (hl : ((E.st (n + 1)).dock d).log = ((E.st n).dock d).log ++ l) (hm : Dock.Ev.sent e pkt ∈ l) :
    ∃ k : Nat, ((E.st (n + 1)).queue (other e))[k]? = some pkt := by
  cases hn : E.act n with
  | none =>
    rw [E.none_step hn] at hl
    have := congrArg List.length hl
    simp at this
    subst this
    cases hm
  | some a =>
  obtain ⟨y, z, h1, _, _, h2, _⟩ := queue_step (exec_inv n).shape (E.some_step hn) (fun e k h => F.kept n e k (by rw [hn, h])) (other e)
  rw [other_other] at h2
  refine List.mem_iff_getElem?.mp ?_
  rw [h1, h2 d l ho hl]
  exact List.mem_append_right _ (mem_dockSent.mpr hm)

/-- What the hub sends is on its way. -/
theorem Fair.queued_hub {n e : Nat} {pkt : Proto} {l : List Hub.Ev} (ho : (E.st n).owner e = some .hub)
    (hl : (E.st (n + 1)).hub.log = (E.st n).hub.log ++ l) (hm : Hub.Ev.sent e pkt ∈ l) :
    ∃ k : Nat, ((E.st (n + 1)).queue (other e))[k]? = some pkt := by
  cases hn : E.act n with
  | none =>
    rw [E.none_step hn] at hl
    have := congrArg List.length hl
    simp at this
    subst this
    cases hm
  | some a =>
  obtain ⟨y, z, h1, _, _, _, h2⟩ := queue_step (exec_inv n).shape (E.some_step hn) (fun e k h => F.kept n e k (by rw [hn, h])) (other e)
  rw [other_other] at h2
  refine List.mem_iff_getElem?.mp ?_
  rw [h1, h2 l ho hl]
  exact List.mem_append_right _ (mem_hubSent.mpr hm)

/-- Packets on their way to a dock are handed to it. -/
theorem Fair.gets {n t d e k : Nat} {pkt : Proto} (hk : ((E.st n).queue e)[k]? = some pkt) (ho : (E.st n).owner e = some (.dock d))
    (hp : ((E.st t).dock d).isPeer e = true) :
    ∃ m q, n ≤ m ∧ fate pkt = .arrives q ∧ ((E.st m).dock d).handler e = .idle ∧ (E.st (m + 1)).dock d =
      ({ (E.st m).dock d with log := ((E.st m).dock d).log ++ [.recv e q] } : Dock.State).onPacket (C d) e q := by
  obtain ⟨_, hp'⟩ := isPeer_mem.mp hp
  obtain ⟨m, rest, q, hm, ha, hq, hf⟩ := F.arrives hk (t := t) (Or.inl ⟨d, (exec_ends t d e _ hp').1, hp⟩)
  have hact : (dockCourse E d).act m = some (.recv e q) := by
    simp [dock_acts ha, State.dockAct, hq, hf, (exec_owner hm ho).1]
  obtain ⟨h1, _, h2⟩ := recv_inv ((dockCourse E d).some_step hact)
  exact ⟨m, q, hm, hf, h1, h2⟩

/-- Packets on their way to the hub are handed to it. -/
theorem Fair.gets_hub {n e k : Nat} {pkt : Proto} (hk : ((E.st n).queue e)[k]? = some pkt) (ho : (E.st n).owner e = some .hub) :
    ∃ m q, n ≤ m ∧ fate pkt = .arrives q ∧ (E.st m).hub.step R black (.recv e q) = some (E.st (m + 1)).hub := by
  obtain ⟨m, rest, q, hm, ha, hq, hf⟩ := F.arrives hk (t := n) (Or.inr ho)
  have hact : (hubCourse E).act m = some (.recv e q) := by
    simp [hub_acts ha, State.hubAct, hq, hf, (exec_owner hm ho).1]
  exact ⟨m, q, hm, hf, (hubCourse E).some_step hact⟩

omit F in
theorem fate_whole {pkt q : Proto} (hf : fate pkt = .arrives q) (hp : pkt.kind < 7) : q = pkt := by
  have h := congrArg Proto.kind (fate_head hf)
  rw [head_kind, head_kind] at h
  exact (fate_control hf (by omega)).symm

/-- Packets without payload are handed to the dock as they are. -/
theorem Fair.gets_whole {n t d e k : Nat} {pkt : Proto} (hk : ((E.st n).queue e)[k]? = some pkt) (ho : (E.st n).owner e = some (.dock d))
    (hp : ((E.st t).dock d).isPeer e = true) (h7 : pkt.kind < 7) :
    ∃ m, n ≤ m ∧ (E.st (m + 1)).dock d =
      ({ (E.st m).dock d with log := ((E.st m).dock d).log ++ [.recv e pkt] } : Dock.State).onPacket (C d) e pkt := by
  obtain ⟨m, q, hm, hf, _, h⟩ := F.gets hk ho hp
  rw [fate_whole hf h7] at h
  exact ⟨m, hm, h⟩

theorem Fair.gets_hub_whole {n e k : Nat} {pkt : Proto} (hk : ((E.st n).queue e)[k]? = some pkt) (ho : (E.st n).owner e = some .hub)
    (h7 : pkt.kind < 7) : ∃ m, n ≤ m ∧ (E.st m).hub.step R black (.recv e pkt) = some (E.st (m + 1)).hub := by
  obtain ⟨m, q, hm, hf, h⟩ := F.gets_hub hk ho
  rw [fate_whole hf h7] at h
  exact ⟨m, hm, h⟩

omit F in
theorem dockAct_new {S T : State} {x : Dock.Act} {a : Act} {d e : Nat} (h : S.step C H R black a = some T) (hx : S.dockAct a d = some x)
    (he : e < 2 * S.n) : x ≠ .dialHub e ∧ ∀ p, x ≠ .dialOK p e := by
  constructor
  · rintro rfl
    cases a <;> simp only [State.dockAct] at hx <;> repeat' split at hx
    all_goals cases hx
    · simp [State.step, dockAlone] at h
    · omega
  · rintro p rfl
    obtain ⟨_, _, _, h⟩ := dockAct_dial h hx
    omega

omit F in
theorem exec_size {n m : Nat} (hm : n ≤ m) {e : Nat} {p : Proc} (h : (E.st n).owner e = some p) : e < 2 * (E.st m).n := by
  refine Nat.lt_of_not_le fun hle => ?_
  have := (exec_inv m).shape.fresh e hle
  rw [(exec_owner hm h).1] at this
  cases this

omit F in
theorem exec_ports {n m d : Nat} (hm : n ≤ m) {x : BitVec 64} (h : x ∈ ((E.st n).dock d).ports) : x ∈ ((E.st m).dock d).ports := by
  refine (dockCourse E d).stays (P := fun s => x ∈ s.ports) ?_ h m hm
  intro s a t h hs
  obtain ⟨l, hl⟩ := Dock.ports_step hs
  rw [hl]
  exact List.mem_append_left _ h

/-- Connections to ports at which a dock listens are accepted. -/
theorem Fair.accepts {n d e : Nat} (ho : (E.st n).owner e = some (.dock d)) (he : e % 2 = 1)
    (hp : (E.st n).port e ∈ ((E.st n).dock d).ports) (hn : ((E.st n).dock d).isNew e = true) :
    ∃ m, n ≤ m ∧ ((E.st (m + 1)).dock d).isPeer e = true ∧ ((E.st (m + 1)).dock d).greeting e = true := by
  obtain ⟨m, a, hm, hP, ha, hk⟩ := F.weak.taken (.accept e) (P := fun m => ((E.st m).dock d).isNew e = true) (n := n) hn
    (by
      intro m hm hP
      refine ⟨_, rfl, ?_⟩
      show (E.st m).step C H R black _ ≠ none
      obtain ⟨h1, h2⟩ := exec_owner hm ho
      simp only [State.step, h1]
      rw [if_pos ⟨F.up m _, he⟩]
      have h3 : (E.st m).port e ∈ ((E.st m).dock d).ports := by rw [h2]; exact exec_ports hm hp
      simp [Dock.State.step, F.dock m d, hP, h3])
    (by
      intro m hm hP hno
      cases hx : ((E.st (m + 1)).dock d).isNew e with
      | true => rfl
      | false =>
        exfalso
        cases ha : (dockCourse E d).act m with
        | none =>
          have : (E.st (m + 1)).dock d = (E.st m).dock d := (dockCourse E d).none_step ha
          rw [this, hP] at hx
          cases hx
        | some a =>
          have hs : ((E.st m).dock d).step (C d) a = some ((E.st (m + 1)).dock d) := (dockCourse E d).some_step ha
          obtain ⟨b, hb, hx', hs'⟩ := dock_act ha
          have hnew := dockAct_new hs' hx' (e := e) (exec_size hm ho)
          rcases Dock.peer_step hs hP hx with rfl | ⟨port, rfl⟩ | ⟨p, rfl⟩
          · exact hnew.1 rfl
          · exact hno _ hb (dockAct_accept hs' hx')
          · exact hnew.2 p rfl)
  refine ⟨m, hm, ?_⟩
  have hact : (dockCourse E d).act m = some (.accept e ((E.st m).port e)) := by
    simp [dock_acts ha, hk, State.dockAct, (exec_owner hm ho).1]
  have hs : ((E.st m).dock d).step (C d) (.accept e ((E.st m).port e)) = some ((E.st (m + 1)).dock d) := (dockCourse E d).some_step hact
  simp only [Dock.State.step] at hs
  repeat' split at hs
  all_goals first
    | (rw [← Option.some.inj hs]; simp [Dock.State.connected, Dock.State.isPeer])
    | cases hs

end

end

end Verif.System
