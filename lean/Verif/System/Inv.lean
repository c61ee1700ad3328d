import Verif.System.Wire
import Verif.Dock.Origin
import Verif.Hub.Hist

/-! # Invariants of the whole system -/

namespace Verif.System

open Verif Verif.Codec Verif.Proto

/-! ## Single steps of docks and hub -/

/-- The packets that a dock received from peer `e`. -/
def dockGot (e : Nat) (log : List Dock.Ev) : List Proto :=
  log.filterMap fun
    | .recv p pkt => if p = e then some pkt else none
    | _ => none

/-- The packets from peer `e` that left a trace in the history of the hub. -/
def hubGot (e : Nat) (log : List Hub.Ev) : List Proto :=
  log.filterMap fun
    | .register p slots _ => if p = e then some (.registerRequest slots) else none
    | .ready p slots => if p = e then some (.ready slots) else none
    | .query p slot => if p = e then some (.queryRequest slot) else none
    | _ => none

theorem dockGot_append (e : Nat) (l l' : List Dock.Ev) : dockGot e (l ++ l') = dockGot e l ++ dockGot e l' :=
  List.filterMap_append ..

theorem dockSent_append (e : Nat) (l l' : List Dock.Ev) : dockSent e (l ++ l') = dockSent e l ++ dockSent e l' :=
  List.filterMap_append ..

theorem hubGot_append (e : Nat) (l l' : List Hub.Ev) : hubGot e (l ++ l') = hubGot e l ++ hubGot e l' :=
  List.filterMap_append ..

theorem hubSent_append (e : Nat) (l l' : List Hub.Ev) : hubSent e (l ++ l') = hubSent e l ++ hubSent e l' :=
  List.filterMap_append ..

theorem mem_dockGot {e : Nat} {log : List Dock.Ev} {pkt : Proto} : pkt ∈ dockGot e log ↔ Dock.Ev.recv e pkt ∈ log := by
  unfold dockGot
  rw [List.mem_filterMap]
  constructor
  · rintro ⟨a, h, h'⟩
    split at h'
    · split at h'
      · cases h'; rename_i hp; subst hp; exact h
      · cases h'
    · cases h'
  · intro h; exact ⟨_, h, by simp⟩

theorem mem_dockSent {e : Nat} {log : List Dock.Ev} {pkt : Proto} : pkt ∈ dockSent e log ↔ Dock.Ev.sent e pkt ∈ log := by
  unfold dockSent
  rw [List.mem_filterMap]
  constructor
  · rintro ⟨a, h, h'⟩
    split at h'
    · split at h'
      · cases h'; rename_i hp; subst hp; exact h
      · cases h'
    · cases h'
  · intro h; exact ⟨_, h, by simp⟩

theorem mem_hubSent {e : Nat} {log : List Hub.Ev} {pkt : Proto} : pkt ∈ hubSent e log ↔ Hub.Ev.sent e pkt ∈ log := by
  unfold hubSent
  rw [List.mem_filterMap]
  constructor
  · rintro ⟨a, h, h'⟩
    split at h'
    · split at h'
      · cases h'; rename_i hp; subst hp; exact h
      · cases h'
    · cases h'
  · intro h; exact ⟨_, h, by simp⟩

/-- What a dock action receives from peer `e`. -/
def dockIn (e : Nat) : Dock.Act → List Proto
  | .recv p pkt => if p = e then [pkt] else []
  | _ => []

def hubIn (e : Nat) : Hub.Act → List Proto
  | .recv p pkt => if p = e then [pkt] else []
  | _ => []

theorem commit_log (s : Dock.State) (i : Nat) : ∃ l, (s.doCommit i).log = s.log ++ l ∧ ∀ e, dockGot e l = [] := by
  unfold Dock.State.doCommit
  repeat' split
  · exact ⟨_, rfl, fun e => rfl⟩
  · exact ⟨[], (List.append_nil _).symm, fun e => rfl⟩
  · refine ⟨_, rfl, fun e => ?_⟩
    refine Dock.filterMap_none ?_
    intro x hx
    obtain ⟨y, _, rfl⟩ := List.mem_map.mp hx
    rfl
  · exact ⟨[], (List.append_nil _).symm, fun e => rfl⟩

theorem dock_log {cs : List Dock.Carried} {s t : Dock.State} {a : Dock.Act} (h : s.step cs a = some t) :
    ∃ l, t.log = s.log ++ l ∧ ∀ e, dockGot e l = dockIn e a := by
  unfold Dock.State.step at h
  split at h
  · cases h
  cases a with
  | commit i =>
    simp only at h
    split at h
    · cases h
      exact commit_log s i
    · cases h
  | work p order =>
    simp only [Dock.State.work] at h
    repeat' split at h
    all_goals cases h
    all_goals first
      | exact ⟨[], (List.append_nil _).symm, fun e => rfl⟩
      | exact ⟨[_], rfl, fun e => rfl⟩
      | exact ⟨[_, _], rfl, fun e => rfl⟩
      | exact commit_log s _
  | recv p pkt =>
    simp only [Dock.State.onPacket] at h
    repeat' split at h
    all_goals cases h
    all_goals first
      | exact ⟨[.recv p _], rfl, fun e => by simp [dockGot, dockIn]; split <;> simp [*]⟩
      | exact ⟨[.recv p _] ++ [.listen _], List.append_assoc .., fun e => by simp [dockGot, dockIn]; split <;> simp [*]⟩
  | _ =>
    simp only [Dock.State.connected] at h
    repeat' split at h
    all_goals cases h
    all_goals first
      | exact ⟨[], (List.append_nil _).symm, fun e => rfl⟩
      | exact ⟨[_], rfl, fun e => rfl⟩
      | exact ⟨[_, _], rfl, fun e => rfl⟩

theorem hub_log {R : Nat → Str} {black : List Int} {s t : Hub.State} {a : Hub.Act} (h : s.step R black a = some t) :
    ∃ l, t.log = s.log ++ l ∧ ∀ e, (hubGot e l).Sublist (hubIn e a) := by
  unfold Hub.State.step at h
  split at h
  · cases h
  cases a with
  | recv p pkt =>
    simp only at h
    repeat' split at h
    all_goals cases h
    all_goals first
      | exact ⟨[], (List.append_nil _).symm, fun e => List.nil_sublist _⟩
      | exact ⟨[_], rfl, fun e => by simp [hubGot, hubIn]; split <;> simp [*]⟩
  | _ =>
    simp only at h
    repeat' split at h
    all_goals cases h
    all_goals first
      | exact ⟨[], (List.append_nil _).symm, fun e => List.nil_sublist _⟩
      | exact ⟨[_], rfl, fun e => List.Sublist.refl _⟩

/-! ## The system -/

theorem other_other (e : Nat) : other (other e) = e := by
  unfold other
  split <;> split <;> omega

theorem other_inj {a b : Nat} (h : other a = other b) : a = b := by
  rw [← other_other a, h, other_other]

/-- What the process at end `e` has handed over for the other end. -/
def State.sentBy (S : State) (e : Nat) : List Proto :=
  match S.owner e with
  | some (.dock d) => dockSent e (S.dock d).log
  | some .hub => hubSent e S.hub.log
  | none => []

section
variable (C : Nat → List Dock.Carried) (H : Nat → Str) (R : Nat → Str) (black : List Int)

/-- The components take steps of their own. -/
structure Parts (S : State) : Prop where
  dock : ∀ d, Reachable (Dock.State.step (C d)) .init (S.dock d)
  hub : Reachable (Hub.State.step R black) .init S.hub

/-- The ends of the connections. -/
structure Shape (S : State) : Prop where
  fresh : ∀ e, 2 * S.n ≤ e → S.owner e = none
  even : ∀ c, c < S.n → ∃ d, S.owner (2 * c) = some (.dock d)
  odd : ∀ c, c < S.n → S.owner (2 * c + 1) ≠ none
  host : ∀ c d, S.owner (2 * c + 1) = some .hub → S.owner (2 * c) = some (.dock d) → Hub.pickIP (R (2 * c + 1)) = H d

/-- What arrives was sent, in this order. -/
def Fifo (S : State) : Prop :=
  ∀ e, ∃ del, del.map fate = (S.got e).map Fate.arrives ∧ (del ++ S.queue e).Sublist (S.sentBy (other e))

/-- The histories of docks and hub agree with what was delivered. -/
structure Got (S : State) : Prop where
  dock : ∀ d e, dockGot e (S.dock d).log = if S.owner e = some (.dock d) then S.got e else []
  hub : ∀ e, (hubGot e S.hub.log).Sublist (if S.owner e = some .hub then S.got e else [])

theorem fifo_setDock {S : State} {d : Nat} {a : Dock.Act} {s : Dock.State} {cs : List Dock.Carried} (I : Fifo S)
    (h : (S.dock d).step cs a = some s) : Fifo (S.setDock d s) := by
  obtain ⟨l, hl, _⟩ := dock_log h
  intro e
  obtain ⟨del, h1, h2⟩ := I e
  refine ⟨del, h1, ?_⟩
  simp only [State.setDock, hl, List.drop_left]
  rw [← List.append_assoc]
  unfold State.sentBy at h2 ⊢
  simp only
  rcases ho : S.owner (other e) with _ | _ | d'
  · rw [ho] at h2
    simpa using h2
  · rw [ho] at h2
    simpa using h2
  · rw [ho] at h2
    simp only at h2 ⊢
    by_cases e' : d' = d
    · subst e'
      rw [if_pos rfl, upd_same, hl, dockSent_append]
      exact h2.append (List.Sublist.refl _)
    · rw [if_neg (by simpa using e'), upd_other _ _ e', List.append_nil]
      exact h2

theorem fifo_setHub {S : State} {a : Hub.Act} {s : Hub.State} (I : Fifo S)
    (h : S.hub.step R black a = some s) : Fifo (S.setHub s) := by
  obtain ⟨l, hl, _⟩ := hub_log h
  intro e
  obtain ⟨del, h1, h2⟩ := I e
  refine ⟨del, h1, ?_⟩
  simp only [State.setHub, hl, List.drop_left]
  rw [← List.append_assoc]
  unfold State.sentBy at h2 ⊢
  simp only
  rcases ho : S.owner (other e) with _ | _ | d'
  · rw [ho] at h2
    simpa using h2
  · rw [ho] at h2
    simp only [if_true, hl, hubSent_append]
    exact h2.append (List.Sublist.refl _)
  · rw [ho] at h2
    simpa using h2

theorem owner_connect {S : State} {a b : Proc} {port : BitVec 64} {e : Nat} (h : e < 2 * S.n) :
    (S.connect a b port).owner e = S.owner e := by
  simp only [State.connect]
  rw [upd_other _ _ (by omega), upd_other _ _ (by omega)]

/-- Nothing has been delivered to ends that are not in use. -/
theorem fresh_got {S : State} (hs : Shape H R S) (hf : Fifo S) {e : Nat} (h : 2 * S.n ≤ e) : S.got e = [] ∧ S.queue e = [] := by
  obtain ⟨del, h1, h2⟩ := hf e
  have ho : S.owner (other e) = none := hs.fresh _ (by unfold other; split <;> omega)
  unfold State.sentBy at h2
  rw [ho] at h2
  have h2 := List.sublist_nil.mp h2
  rw [List.append_eq_nil_iff] at h2
  rw [h2.1] at h1
  exact ⟨List.map_eq_nil_iff.mp h1.symm, h2.2⟩

theorem fifo_connect {S : State} {a b : Proc} {port : BitVec 64} (hs : Shape H R S) (I : Fifo S) :
    Fifo (S.connect a b port) := by
  intro e
  rcases Nat.lt_or_ge e (2 * S.n) with h | h
  · obtain ⟨del, h1, h2⟩ := I e
    refine ⟨del, h1, ?_⟩
    unfold State.sentBy at h2 ⊢
    rw [owner_connect (by unfold other; split <;> omega)]
    exact h2
  · obtain ⟨h1, h2⟩ := fresh_got H R hs I h
    exact ⟨[], by simp [State.connect, h1], by simp [State.connect, h2]⟩

theorem shape_connect {S : State} {d : Nat} {b : Proc} {port : BitVec 64} (I : Shape H R S)
    (h : b = .hub → Hub.pickIP (R (2 * S.n + 1)) = H d) : Shape H R (S.connect (.dock d) b port) := by
  constructor
  · intro e he
    simp only [State.connect] at he ⊢
    rw [upd_other _ _ (by omega), upd_other _ _ (by omega)]
    exact I.fresh e (by omega)
  · intro c hc
    by_cases e : c = S.n
    · subst e
      refine ⟨d, ?_⟩
      simp only [State.connect]
      rw [upd_other _ _ (by omega), upd_same]
    · rw [owner_connect (by simp only [State.connect] at hc; omega)]
      exact I.even c (by simp only [State.connect] at hc; omega)
  · intro c hc
    by_cases e : c = S.n
    · subst e
      simp only [State.connect, upd_same]
      simp
    · rw [owner_connect (by simp only [State.connect] at hc; omega)]
      exact I.odd c (by simp only [State.connect] at hc; omega)
  · intro c d' h1 h2
    rcases Nat.lt_or_ge c S.n with hc | hc
    · rw [owner_connect (by omega)] at h1 h2
      exact I.host c d' h1 h2
    · by_cases e : c = S.n
      · subst e
        simp only [State.connect, upd_same] at h1 h2
        rw [upd_other _ _ (by omega), upd_same] at h2
        cases h1; cases h2
        exact h rfl
      · simp only [State.connect] at h1
        rw [upd_other _ _ (by omega), upd_other _ _ (by omega), I.fresh _ (by omega)] at h1
        cases h1

theorem got_connect {S : State} {a b : Proc} {port : BitVec 64} (hs : Shape H R S) (hf : Fifo S) (I : Got S) :
    Got (S.connect a b port) := by
  constructor
  · intro d e
    rcases Nat.lt_or_ge e (2 * S.n) with h | h
    · rw [owner_connect h]; exact I.dock d e
    · have := I.dock d e
      rw [hs.fresh e h] at this
      simp only [State.connect, (fresh_got H R hs hf h).1]
      simpa using this
  · intro e
    rcases Nat.lt_or_ge e (2 * S.n) with h | h
    · rw [owner_connect h]; exact I.hub e
    · have := I.hub e
      rw [hs.fresh e h] at this
      simp only [State.connect, (fresh_got H R hs hf h).1]
      simpa using this

theorem got_setDock {S : State} {d : Nat} {a : Dock.Act} {s : Dock.State} {cs : List Dock.Carried} (I : Got S)
    (h : (S.dock d).step cs a = some s) (ha : ∀ e, dockIn e a = []) : Got (S.setDock d s) := by
  obtain ⟨l, hl, hg⟩ := dock_log h
  constructor
  · intro d' e
    simp only [State.setDock]
    by_cases e' : d' = d
    · subst e'
      rw [upd_same, hl, dockGot_append, hg, ha, List.append_nil]
      exact I.dock d' e
    · rw [upd_other _ _ e']
      exact I.dock d' e
  · exact I.hub

theorem got_setHub {S : State} {a : Hub.Act} {s : Hub.State} (I : Got S) (h : S.hub.step R black a = some s)
    (ha : ∀ e, hubIn e a = []) : Got (S.setHub s) := by
  obtain ⟨l, hl, hg⟩ := hub_log h
  constructor
  · exact I.dock
  · intro e
    simp only [State.setHub]
    have := hg e
    rw [ha] at this
    rw [hl, hubGot_append, List.sublist_nil.mp this, List.append_nil]
    exact I.hub e

theorem parts_setDock {S : State} {d : Nat} {a : Dock.Act} {s : Dock.State} (I : Parts C R black S)
    (h : (S.dock d).step (C d) a = some s) : Parts C R black (S.setDock d s) := by
  constructor
  · intro d'
    simp only [State.setDock]
    by_cases e : d' = d
    · subst e; rw [upd_same]; exact (I.dock d').step h
    · rw [upd_other _ _ e]; exact I.dock d'
  · exact I.hub

theorem parts_setHub {S : State} {a : Hub.Act} {s : Hub.State} (I : Parts C R black S)
    (h : S.hub.step R black a = some s) : Parts C R black (S.setHub s) :=
  ⟨I.dock, I.hub.step h⟩

theorem shape_same {S T : State} (I : Shape H R S) (h1 : T.n = S.n) (h2 : T.owner = S.owner) : Shape H R T := by
  constructor
  · rw [h1, h2]; exact I.fresh
  · rw [h1, h2]; exact I.even
  · rw [h1, h2]; exact I.odd
  · rw [h2]; exact I.host

/-- All of them. -/
structure Inv (S : State) : Prop where
  parts : Parts C R black S
  shape : Shape H R S
  fifo : Fifo S
  got : Got S

theorem Inv.init : Inv C H R black State.init := by
  refine ⟨⟨fun d => Reachable.refl _ _, Reachable.refl _ _⟩, ?_, ?_, ?_⟩
  · constructor <;> simp [State.init]
  · intro e; exact ⟨[], rfl, List.nil_sublist _⟩
  · constructor
    · intro d e; rfl
    · intro e; exact List.nil_sublist _

theorem inv_dock {S : State} {d : Nat} {a : Dock.Act} {s : Dock.State} (I : Inv C H R black S)
    (h : (S.dock d).step (C d) a = some s) (ha : ∀ e, dockIn e a = []) : Inv C H R black (S.setDock d s) :=
  ⟨parts_setDock C R black I.parts h, shape_same H R I.shape rfl rfl, fifo_setDock I.fifo h, got_setDock I.got h ha⟩

theorem inv_connect {S : State} {d : Nat} {b : Proc} {port : BitVec 64} (I : Inv C H R black S)
    (h : b = .hub → Hub.pickIP (R (2 * S.n + 1)) = H d) : Inv C H R black (S.connect (.dock d) b port) :=
  ⟨⟨I.parts.dock, I.parts.hub⟩, shape_connect H R I.shape h, fifo_connect H R I.shape I.fifo,
    got_connect H R I.shape I.fifo I.got⟩

/-- Packets disappear, processes stop. -/
theorem inv_less {S : State} {q : Nat → List Proto} {dn : Proc → Bool} (I : Inv C H R black S)
    (h : ∀ e, (q e).Sublist (S.queue e)) : Inv C H R black { S with queue := q, down := dn } := by
  refine ⟨⟨I.parts.dock, I.parts.hub⟩, shape_same H R I.shape rfl rfl, ?_, ⟨I.got.dock, I.got.hub⟩⟩
  intro e
  obtain ⟨del, h1, h2⟩ := I.fifo e
  exact ⟨del, h1, ((List.Sublist.refl _).append (h e)).trans h2⟩

theorem inv_receive {S T : State} {e : Nat} {pkt q : Proto} {rest : List Proto} (I : Inv C H R black S)
    (hq : S.queue e = pkt :: rest) (hf : fate pkt = .arrives q)
    (h : ({ S with queue := upd S.queue e rest, got := upd S.got e (S.got e ++ [q]) } : State).receive C R black e q = some T) :
    Inv C H R black T := by
  have F : Fifo { S with queue := upd S.queue e rest, got := upd S.got e (S.got e ++ [q]) } := by
    intro e'
    obtain ⟨del, h1, h2⟩ := I.fifo e'
    by_cases h : e' = e
    · subst h
      refine ⟨del ++ [pkt], ?_, ?_⟩
      · simp [h1, hf]
      · simp only [upd_same]
        rw [hq] at h2
        rw [List.append_assoc]
        exact h2
    · refine ⟨del, ?_, ?_⟩
      · simp only; rw [upd_other _ _ h]; exact h1
      · simp only; rw [upd_other _ _ h]; exact h2
  unfold State.receive at h
  simp only at h
  split at h
  · rename_i d ho
    split at h
    · cases h
    · split at h
      · rename_i s hs
        cases h
        refine ⟨parts_setDock C R black (S := { S with queue := _, got := _ }) ⟨I.parts.dock, I.parts.hub⟩ hs,
          shape_same H R I.shape rfl rfl, fifo_setDock F hs, ?_⟩
        obtain ⟨l, hl, hg⟩ := dock_log hs
        constructor
        · intro d' e'
          simp only [State.setDock]
          have hd := I.got.dock d' e'
          by_cases h : d' = d
          · subst h
            rw [upd_same, hl, dockGot_append, hg]
            simp only [dockIn]
            rw [hd]
            by_cases h : e' = e
            · subst h
              simp [ho]
            · rw [upd_other _ _ h, if_neg (show ¬ e = e' from fun x => h x.symm), List.append_nil]
          · rw [upd_other _ _ h, hd]
            by_cases h' : e' = e
            · subst h'
              rw [if_neg (by rw [ho]; simpa using fun x => h x.symm), if_neg (by rw [ho]; simpa using fun x => h x.symm)]
            · rw [upd_other _ _ h']
        · intro e'
          simp only [State.setDock]
          have hd := I.got.hub e'
          by_cases h' : e' = e
          · subst h'
            rw [if_neg (by simp [ho])] at hd ⊢
            exact hd
          · rw [upd_other _ _ h']; exact hd
      · cases h
  · rename_i ho
    split at h
    · cases h
    · split at h
      · rename_i s hs
        cases h
        refine ⟨parts_setHub C R black (S := { S with queue := _, got := _ }) ⟨I.parts.dock, I.parts.hub⟩ hs,
          shape_same H R I.shape rfl rfl, fifo_setHub R black F hs, ?_⟩
        obtain ⟨l, hl, hg⟩ := hub_log hs
        constructor
        · intro d' e'
          simp only [State.setHub]
          have hd := I.got.dock d' e'
          by_cases h' : e' = e
          · subst h'
            rw [if_neg (by simp [ho])] at hd ⊢
            exact hd
          · rw [upd_other _ _ h']; exact hd
        · intro e'
          simp only [State.setHub]
          have hd := I.got.hub e'
          rw [hl, hubGot_append]
          by_cases h' : e' = e
          · subst h'
            rw [if_pos ho] at hd ⊢
            rw [upd_same]
            refine hd.append ?_
            have := hg e'
            simpa [hubIn] using this
          · rw [upd_other _ _ h']
            have := hg e'
            simp only [hubIn] at this
            rw [if_neg (show ¬ e = e' from fun x => h' x.symm)] at this
            rw [List.sublist_nil.mp this, List.append_nil]
            exact hd
      · cases h
  · cases h

theorem upd_sublist {q : Nat → List Proto} {e : Nat} {l : List Proto} (h : l.Sublist (q e)) :
    ∀ e', (upd q e l e').Sublist (q e') := by
  intro e'
  by_cases h' : e' = e
  · subst h'; rw [upd_same]; exact h
  · rw [upd_other _ _ h']; exact List.Sublist.refl _

theorem inv_step (S : State) (a : Act) (T : State) (I : Inv C H R black S) (h : S.step C H R black a = some T) :
    Inv C H R black T := by
  unfold State.step at h
  cases a with
  | dock d a =>
    simp only at h
    split at h
    · rename_i hg
      split at h
      · rename_i s hs
        cases h
        refine inv_dock C H R black I hs ?_
        intro e
        cases a <;> first | rfl | exact absurd hg.2 (by simp [dockAlone])
      · cases h
    · cases h
  | hub a =>
    simp only at h
    split at h
    · rename_i hg
      split at h
      · rename_i s hs
        cases h
        refine ⟨parts_setHub C R black I.parts hs, shape_same H R I.shape rfl rfl, fifo_setHub R black I.fifo hs,
          got_setHub R black I.got hs ?_⟩
        intro e
        cases a <;> first | rfl | exact absurd hg.2 (by simp [hubAlone])
      · cases h
    · cases h
  | join d =>
    simp only at h
    split at h
    · rename_i hg
      split at h
      · rename_i s hs
        cases h
        exact inv_dock C H R black (inv_connect C H R black I (fun _ => hg.2.2)) hs (fun _ => rfl)
      · cases h
    · cases h
  | dial d p d' port =>
    simp only at h
    split at h
    · split at h
      · split at h
        · rename_i s hs
          cases h
          exact inv_dock C H R black (inv_connect C H R black I (fun x => by cases x)) hs (fun _ => rfl)
        · cases h
      · cases h
    · cases h
  | accept e =>
    simp only at h
    split at h
    · split at h
      · split at h
        · rename_i s hs
          cases h
          exact inv_dock C H R black I hs (fun _ => rfl)
        · cases h
      · cases h
    · cases h
  | deliver e =>
    simp only at h
    split at h
    · cases h
    · rename_i pkt rest hq
      have hr : rest.Sublist (S.queue e) := by rw [hq]; exact List.sublist_cons_self _ _
      split at h
      · rename_i q hf
        exact inv_receive C H R black I hq hf h
      · split at h
        · cases h; exact inv_less C H R black I (upd_sublist hr)
        · cases h
      · split at h
        · cases h; exact inv_less C H R black I (upd_sublist hr)
        · cases h
      · cases h
  | lose e k =>
    simp only at h
    split at h
    · cases h
      exact inv_less C H R black (dn := S.down) I (upd_sublist (List.eraseIdx_sublist _ _))
    · cases h
  | crash p =>
    simp only at h
    cases h
    exact inv_less C H R black (q := S.queue) I (fun _ => List.Sublist.refl _)

theorem inv_run {acts : List Act} {S : State} (h : run (State.step C H R black) .init acts = some S) : Inv C H R black S :=
  run_inv (I := Inv C H R black) (inv_step C H R black) acts _ _ (Inv.init C H R black) h

end

end Verif.System
