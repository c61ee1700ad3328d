import Verif.System.Facts
import Verif.Dock.Live
import Verif.Dock.Peers
import Verif.Hub.Live

/-!
# What docks and hub can do together when nobody disturbs them

Blocks of steps: a dock takes a packet from a connection and its goroutines finish what the packet asks for.
-/

namespace Verif.System

open Verif Verif.Codec Verif.Proto

/-- Actions that lose no packets and stop no process. -/
def harmless : Act → Bool
  | .lose _ _ => false
  | .crash _ => false
  | .dock _ (.dialFail _) => false
  | _ => true

/-! ## Single docks -/

theorem run_cons {σ α : Type} {step : σ → α → Option σ} {s t : σ} {a : α} {as : List α} (h : step s a = some t) :
    run step s (a :: as) = run step t as := by
  simp only [run, h]

theorem run_trans {σ α : Type} {step : σ → α → Option σ} {s t u : σ} {as bs : List α} (h : run step s as = some t)
    (h' : run step t bs = some u) : run step s (as ++ bs) = some u := by
  rw [run_append, h]; exact h'

theorem run_split {σ α : Type} {step : σ → α → Option σ} {s t : σ} {a : α} {as : List α} (h : run step s (a :: as) = some t) :
    ∃ u, step s a = some u ∧ run step u as = some t := by
  simp only [run] at h
  split at h
  · cases h
  · exact ⟨_, by assumption, h⟩

/-- The log of a dock only grows. -/
theorem dock_logs {cs : List Dock.Carried} {as : List Dock.Act} {s t : Dock.State} (h : run (Dock.State.step cs) s as = some t) :
    ∃ l, t.log = s.log ++ l := by
  induction as generalizing s with
  | nil => cases h; exact ⟨[], (List.append_nil _).symm⟩
  | cons a as ih =>
    obtain ⟨u, hu, h⟩ := run_split h
    obtain ⟨l, hl, _⟩ := dock_log hu
    obtain ⟨l', hl'⟩ := ih h
    exact ⟨l ++ l', by rw [hl', hl, List.append_assoc]⟩

theorem hub_logs {R : Nat → Str} {black : List Int} {as : List Hub.Act} {s t : Hub.State}
    (h : run (Hub.State.step R black) s as = some t) : ∃ l, t.log = s.log ++ l := by
  induction as generalizing s with
  | nil => cases h; exact ⟨[], (List.append_nil _).symm⟩
  | cons a as ih =>
    obtain ⟨u, hu, h⟩ := run_split h
    obtain ⟨l, hl, _⟩ := hub_log hu
    obtain ⟨l', hl'⟩ := ih h
    exact ⟨l ++ l', by rw [hl', hl, List.append_assoc]⟩

/-- A request is received, executed and answered. -/
theorem recv_serve (cs : List Dock.Carried) (s : Dock.State) (p : Nat) (clock : BitVec 64) (c : Dock.Call) (f : Dock.Carried)
    (r : Dock.Ret) (hd : s.dead = false) (hh : s.handler p = .idle) (hp : s.isPeer p = true)
    (hf : Dock.slotsOf cs c.slot = some f) : ∃ t,
    run (Dock.State.step cs) s [.recv p (.rpcRequest clock c.slot c.meth c.args c.withResult), .invoke s.nx, .finish s.nx r,
      .respond s.nx] = some t ∧ t.dead = false ∧
    t.log = s.log ++ [.recv p (.rpcRequest clock c.slot c.meth c.args c.withResult), .invoke (some (p, clock)) f.feature c,
      .returned (p, clock) f.feature c r,
      .sent p (.rpcResponse clock c.slot c.meth (if c.withResult then r.result else []) r.err)] := by
  let u : Dock.State := { s with
    log := s.log ++ [.recv p (.rpcRequest clock c.slot c.meth c.args c.withResult)]
    nx := s.nx + 1
    exec := upd s.exec s.nx ⟨p, clock, c, f.feature, .spawned⟩ }
  have hu : u.exec s.nx = ⟨p, clock, c, f.feature, .spawned⟩ := by simp [u]
  have h1 : s.step cs (.recv p (.rpcRequest clock c.slot c.meth c.args c.withResult)) = some u := by
    unfold Dock.State.step
    rw [if_neg (by rw [hd]; simp)]
    simp only [hh, hp, Dock.State.onPacket, hf]
    rfl
  refine ⟨u.served s.nx r, ?_, hd, ?_⟩
  · rw [run_cons h1]
    exact Dock.serve u s.nx r hd (by rw [hu])
  · simp [Dock.State.served, hu, u]

/-- A response is received and ends the call. -/
theorem recv_answer (cs : List Dock.Carried) (s : Dock.State) (p : Nat) (clock : BitVec 64) (slot meth : Str) (i : Nat)
    (r : Dock.Ret) (hd : s.dead = false) (hh : s.handler p = .idle) (hp : s.isPeer p = true)
    (hi : s.rpcs clock = some i) (hw : s.phase i = .waiting) (hc : s.chan i = none) (hcc : s.chanClosed i = false) : ∃ t,
    run (Dock.State.step cs) s [.recv p (.rpcResponse clock slot meth r.result r.err), .callback s.nc, .receive i, .closeChan i,
      .delete s.nc] = some t ∧ t.dead = false ∧ t.phase i = .returned r ∧ t.rpcs clock = none ∧
    t.log = s.log ++ [.recv p (.rpcResponse clock slot meth r.result r.err)] := by
  let u : Dock.State := { s with
    log := s.log ++ [.recv p (.rpcResponse clock slot meth r.result r.err)]
    nc := s.nc + 1
    cb := upd s.cb s.nc ⟨i, clock, ⟨r.result, r.err⟩, .sending⟩ }
  have hu : u.cb s.nc = ⟨i, clock, ⟨r.result, r.err⟩, .sending⟩ := by simp [u]
  have h1 : s.step cs (.recv p (.rpcResponse clock slot meth r.result r.err)) = some u := by
    unfold Dock.State.step
    rw [if_neg (by rw [hd]; simp)]
    simp only [hh, hp, Dock.State.onPacket, hi]
    rfl
  have h2 := Dock.answer (cs := cs) u s.nc hd (by rw [hu]) (by rw [hu]; exact hcc) (by rw [hu]; exact hc) (by rw [hu]; exact hw)
  rw [hu] at h2
  refine ⟨u.answered s.nc, ?_, hd, ?_, ?_, rfl⟩
  · rw [run_cons h1]
    exact h2
  · simp [Dock.State.answered, hu]
  · simp [Dock.State.answered, hu]

/-! ## Composition -/

/-- End `e` has taken a packet from its queue. -/
def State.took (S : State) (e : Nat) (q : Proto) (rest : List Proto) : State :=
  { S with queue := upd S.queue e rest, got := upd S.got e (S.got e ++ [q]) }

theorem queue_setDock {S : State} {d : Nat} {s : Dock.State} {l : List Dock.Ev} (hl : s.log = (S.dock d).log ++ l) (e : Nat) :
    (S.setDock d s).queue e = S.queue e ++ if S.owner (other e) = some (.dock d) then dockSent (other e) l else [] := by
  simp only [State.setDock, hl, List.drop_left]

theorem setDock_self (S : State) (d : Nat) : S.setDock d (S.dock d) = S := by
  have : (fun e => S.queue e ++
      if S.owner (other e) = some (.dock d) then dockSent (other e) ((S.dock d).log.drop (S.dock d).log.length) else []) =
      S.queue := by
    funext e
    simp [dockSent]
  unfold State.setDock
  rw [this, Dock.upd_self]

theorem setDock_setDock {S : State} {d : Nat} {s t : Dock.State} {l l' : List Dock.Ev} (h : s.log = (S.dock d).log ++ l)
    (h' : t.log = s.log ++ l') : (S.setDock d s).setDock d t = S.setDock d t := by
  have : (fun e => (S.setDock d s).queue e ++
      if S.owner (other e) = some (.dock d) then dockSent (other e) (t.log.drop s.log.length) else []) =
      fun e => S.queue e ++ if S.owner (other e) = some (.dock d) then dockSent (other e) (t.log.drop (S.dock d).log.length) else [] := by
    funext e
    rw [queue_setDock h, h', List.drop_left, h, List.append_assoc (S.dock d).log, List.drop_left, dockSent_append, List.append_assoc]
    split <;> simp
  unfold State.setDock at this ⊢
  simp only [upd_same, Dock.upd_upd] at this ⊢
  rw [this]

theorem setHub_self (S : State) : S.setHub S.hub = S := by
  have : (fun e => S.queue e ++
      if S.owner (other e) = some .hub then hubSent (other e) (S.hub.log.drop S.hub.log.length) else []) = S.queue := by
    funext e
    simp [hubSent]
  unfold State.setHub
  rw [this]

theorem queue_setHub {S : State} {s : Hub.State} {l : List Hub.Ev} (hl : s.log = S.hub.log ++ l) (e : Nat) :
    (S.setHub s).queue e = S.queue e ++ if S.owner (other e) = some .hub then hubSent (other e) l else [] := by
  simp only [State.setHub, hl, List.drop_left]

theorem setHub_setHub {S : State} {s t : Hub.State} {l l' : List Hub.Ev} (h : s.log = S.hub.log ++ l)
    (h' : t.log = s.log ++ l') : (S.setHub s).setHub t = S.setHub t := by
  have : (fun e => (S.setHub s).queue e ++
      if S.owner (other e) = some .hub then hubSent (other e) (t.log.drop s.log.length) else []) =
      fun e => S.queue e ++ if S.owner (other e) = some .hub then hubSent (other e) (t.log.drop S.hub.log.length) else [] := by
    funext e
    rw [queue_setHub h, h', List.drop_left, h, List.append_assoc S.hub.log, List.drop_left, hubSent_append, List.append_assoc]
    split <;> simp
  unfold State.setHub at this ⊢
  simp only at this ⊢
  rw [this]

section
variable {C : Nat → List Dock.Carried} {H : Nat → Str} {R : Nat → Str} {black : List Int}

/-- A dock takes steps of its own. -/
theorem run_dock {S : State} {d : Nat} {as : List Dock.Act} {s : Dock.State}
    (h : run (Dock.State.step (C d)) (S.dock d) as = some s) (hd : S.down (.dock d) = false) (ha : ∀ a ∈ as, dockAlone a = true) :
    run (State.step C H R black) S (as.map (.dock d)) = some (S.setDock d s) := by
  induction as generalizing S with
  | nil => cases h; rw [setDock_self]; rfl
  | cons a as ih =>
    obtain ⟨u, hu, h⟩ := run_split h
    obtain ⟨l, hl, _⟩ := dock_log hu
    obtain ⟨l', hl'⟩ := dock_logs h
    have h1 : S.step C H R black (.dock d a) = some (S.setDock d u) := by
      simp only [State.step]
      rw [if_pos ⟨hd, ha a List.mem_cons_self⟩, hu]
    have h2 := ih (S := S.setDock d u) (by simp only [State.setDock, upd_same]; exact h) hd
      (fun a h => ha a (List.mem_cons_of_mem _ h))
    rw [setDock_setDock hl hl'] at h2
    rw [List.map_cons, run_cons h1]
    exact h2

/-- The hub takes steps of its own. -/
theorem run_hub {S : State} {as : List Hub.Act} {s : Hub.State} (h : run (Hub.State.step R black) S.hub as = some s)
    (hd : S.down .hub = false) (ha : ∀ a ∈ as, hubAlone a = true) :
    run (State.step C H R black) S (as.map .hub) = some (S.setHub s) := by
  induction as generalizing S with
  | nil => cases h; rw [setHub_self]; rfl
  | cons a as ih =>
    obtain ⟨u, hu, h⟩ := run_split h
    obtain ⟨l, hl, _⟩ := hub_log hu
    obtain ⟨l', hl'⟩ := hub_logs h
    have h1 : S.step C H R black (.hub a) = some (S.setHub u) := by
      simp only [State.step]
      rw [if_pos ⟨hd, ha a List.mem_cons_self⟩, hu]
    have h2 := ih (S := S.setHub u) h hd (fun a h => ha a (List.mem_cons_of_mem _ h))
    rw [setHub_setHub hl hl'] at h2
    rw [List.map_cons, run_cons h1]
    exact h2

/-- A dock takes a packet, and then steps of its own. -/
theorem run_deliver {S : State} {d e : Nat} {pkt q : Proto} {rest : List Proto} {as : List Dock.Act} {s : Dock.State}
    (hq : S.queue e = pkt :: rest) (hf : fate pkt = .arrives q) (ho : S.owner e = some (.dock d)) (hd : S.down (.dock d) = false)
    (h : run (Dock.State.step (C d)) (S.dock d) (.recv e q :: as) = some s) (ha : ∀ a ∈ as, dockAlone a = true) :
    run (State.step C H R black) S (.deliver e :: as.map (.dock d)) = some ((S.took e q rest).setDock d s) := by
  obtain ⟨u, hu, h⟩ := run_split h
  obtain ⟨l, hl, _⟩ := dock_log hu
  obtain ⟨l', hl'⟩ := dock_logs h
  have h1 : S.step C H R black (.deliver e) = some ((S.took e q rest).setDock d u) := by
    simp only [State.step, hq, hf, State.receive, ho, hd]
    rw [if_neg (by simp), hu]
    rfl
  have h2 := run_dock (C := C) (H := H) (R := R) (black := black) (S := (S.took e q rest).setDock d u) (d := d) (as := as) (s := s)
    (by simp only [State.setDock, upd_same]; exact h) hd ha
  rw [setDock_setDock (S := S.took e q rest) hl hl'] at h2
  rw [run_cons h1]
  exact h2

/-- The hub takes a packet, and then steps of its own. -/
theorem run_deliver_hub {S : State} {e : Nat} {pkt q : Proto} {rest : List Proto} {as : List Hub.Act} {s : Hub.State}
    (hq : S.queue e = pkt :: rest) (hf : fate pkt = .arrives q) (ho : S.owner e = some .hub) (hd : S.down .hub = false)
    (h : run (Hub.State.step R black) S.hub (.recv e q :: as) = some s) (ha : ∀ a ∈ as, hubAlone a = true) :
    run (State.step C H R black) S (.deliver e :: as.map .hub) = some ((S.took e q rest).setHub s) := by
  obtain ⟨u, hu, h⟩ := run_split h
  obtain ⟨l, hl, _⟩ := hub_log hu
  obtain ⟨l', hl'⟩ := hub_logs h
  have h1 : S.step C H R black (.deliver e) = some ((S.took e q rest).setHub u) := by
    simp only [State.step, hq, hf, State.receive, ho, hd]
    rw [if_neg (by simp), hu]
    rfl
  have h2 := run_hub (C := C) (H := H) (R := R) (black := black) (S := (S.took e q rest).setHub u) (as := as) (s := s) h hd ha
  rw [setHub_setHub (S := S.took e q rest) hl hl'] at h2
  rw [run_cons h1]
  exact h2

end

/-! ## The ends of the connections belong to their peers -/

/-- The peers of a dock are its ends; what it dialled as the hub is the hub. -/
def Ends (S : State) : Prop :=
  ∀ d e k, (e, k) ∈ (S.dock d).peers → S.owner e = some (.dock d) ∧ (k = .hub → S.owner (other e) = some .hub)

theorem other_even (c : Nat) : other (2 * c) = 2 * c + 1 := by
  unfold other; rw [if_pos (by omega)]

theorem other_odd (c : Nat) : other (2 * c + 1) = 2 * c := by
  unfold other; rw [if_neg (by omega)]; omega

section
variable (C : Nat → List Dock.Carried) (H : Nat → Str) (R : Nat → Str) (black : List Int)

theorem ends_setDock {S : State} {d : Nat} {a : Dock.Act} {s : Dock.State} (I : Ends S)
    (h : (S.dock d).step (C d) a = some s)
    (hn : ∀ e k, (e, k) ∈ s.peers → (e, k) ∉ (S.dock d).peers →
      S.owner e = some (.dock d) ∧ (k = .hub → S.owner (other e) = some .hub)) : Ends (S.setDock d s) := by
  intro d' e k hk
  simp only [State.setDock] at hk ⊢
  by_cases x : d' = d
  · subst x
    rw [upd_same] at hk
    by_cases h' : (e, k) ∈ (S.dock d').peers
    · exact I d' e k h'
    · exact hn e k hk h'
  · rw [upd_other _ _ x] at hk
    exact I d' e k hk

theorem ends_same {S : State} {d : Nat} {a : Dock.Act} {s : Dock.State} (I : Ends S)
    (h : (S.dock d).step (C d) a = some s) (ha : ∀ e port, a ≠ .accept e port) (ha' : ∀ p e, a ≠ .dialOK p e)
    (ha'' : ∀ e, a ≠ .dialHub e) : Ends (S.setDock d s) := by
  refine ends_setDock C I h ?_
  intro e k h1 h2
  cases Dock.newPeer_step (C d) _ _ _ h with
  | same _ h => rw [h] at h1; exact absurd h1 h2
  | hub e => exact absurd rfl (ha'' e)
  | accept e port => exact absurd rfl (ha e port)
  | dial p e => exact absurd rfl (ha' p e)

theorem ends_connect {S : State} {a b : Proc} {port : BitVec 64} (hs : Shape H R S) (I : Ends S) : Ends (S.connect a b port) := by
  intro d e k hk
  obtain ⟨h1, h2⟩ := I d e k hk
  have he : e < 2 * S.n := by
    rcases Nat.lt_or_ge e (2 * S.n) with h | h
    · exact h
    · rw [hs.fresh e h] at h1; cases h1
  have ho : other e < 2 * S.n := by unfold other; split <;> omega
  rw [owner_connect he, owner_connect ho]
  exact ⟨h1, h2⟩

theorem ends_step (S : State) (a : Act) (T : State) (J : Inv C H R black S) (I : Ends S) (h : S.step C H R black a = some T) :
    Ends T := by
  unfold State.step at h
  cases a with
  | dock d a =>
    simp only at h
    split at h
    · rename_i hg
      split at h
      · rename_i s hs
        cases h
        refine ends_same C I hs ?_ ?_ ?_ <;> intros <;> intro x <;> subst x <;> simp [dockAlone] at hg
      · cases h
    · cases h
  | hub a =>
    simp only at h
    repeat' split at h
    all_goals cases h
    exact I
  | join d =>
    simp only at h
    split at h
    · split at h
      · rename_i s hs
        cases h
        refine ends_setDock C (a := .dialHub (2 * S.n)) (ends_connect H R J.shape I) hs ?_
        intro e k h1 h2
        cases Dock.newPeer_step (C d) _ _ _ hs with
        | same _ h => rw [h] at h1; exact absurd h1 h2
        | hub _ _ h =>
          rw [h] at h1
          simp at h1
          obtain ⟨rfl, rfl⟩ := h1
          rw [other_even]
          simp [State.connect, upd]
      · cases h
    · cases h
  | dial d p d' port =>
    simp only at h
    split at h
    · split at h
      · split at h
        · rename_i s hs
          cases h
          refine ends_setDock C (a := .dialOK p (2 * S.n)) (ends_connect H R J.shape I) hs ?_
          intro e k h1 h2
          cases Dock.newPeer_step (C d) _ _ _ hs with
          | same _ h => rw [h] at h1; exact absurd h1 h2
          | dial _ _ h =>
            rw [h] at h1
            rcases List.mem_append.mp h1 with h1 | h1
            · exact absurd h1 h2
            simp at h1
            obtain ⟨rfl, rfl⟩ := h1
            simp [State.connect, upd]
        · cases h
      · cases h
    · cases h
  | accept e =>
    simp only at h
    split at h
    · rename_i d ho
      split at h
      · split at h
        · rename_i s hs
          cases h
          refine ends_setDock C I hs ?_
          intro e' k h1 h2
          cases Dock.newPeer_step (C d) _ _ _ hs with
          | same _ h => rw [h] at h1; exact absurd h1 h2
          | accept _ _ h =>
            rw [h] at h1
            rcases List.mem_append.mp h1 with h1 | h1
            · exact absurd h1 h2
            simp at h1
            obtain ⟨rfl, rfl⟩ := h1
            exact ⟨ho, fun x => by cases x⟩
        · cases h
      · cases h
    · cases h
  | deliver e =>
    simp only [State.receive] at h
    repeat' split at h
    all_goals first | cases h; done | skip
    all_goals cases h
    · rename_i s hs
      exact ends_same C (S := { S with queue := _, got := _ }) I hs (by simp) (by simp) (by simp)
    all_goals exact I
  | lose e k =>
    simp only at h
    split at h
    all_goals cases h
    exact I
  | crash p =>
    simp only at h
    cases h
    exact I

theorem ends_run {acts : List Act} {S : State} (h : run (State.step C H R black) .init acts = some S) : Ends S :=
  (run_inv (I := fun S => Inv C H R black S ∧ Ends S)
    (fun S a T I h => ⟨inv_step C H R black S a T I.1 h, ends_step C H R black S a T I.1 I.2 h⟩) acts _ _
    ⟨Inv.init C H R black, fun d e k h => by cases h⟩ h).2

end

section
variable {C : Nat → List Dock.Carried} {H : Nat → Str} {R : Nat → Str} {black : List Int}

theorem sock_inv {S : State} (I : Inv C H R black S) (d : Nat) : Dock.SockInv (S.dock d) := by
  obtain ⟨as, hr⟩ := I.parts.dock d
  exact Dock.sockInv_run (C d) as _ hr

theorem isPeer_mem {s : Dock.State} {e : Nat} : s.isPeer e = true ↔ ∃ k, (e, k) ∈ s.peers := by
  unfold Dock.State.isPeer
  rw [List.any_eq_true]
  constructor
  · rintro ⟨⟨e', k⟩, h, he⟩
    simp at he
    subst he
    exact ⟨k, h⟩
  · rintro ⟨k, h⟩
    exact ⟨(e, k), h, by simp⟩

/-- Ends of new connections are new peers. -/
theorem isNew_fresh {S : State} (I : Inv C H R black S) (E : Ends S) {d e : Nat} (h : 2 * S.n ≤ e) : (S.dock d).isNew e = true := by
  unfold Dock.State.isNew
  rw [List.all_eq_true]
  rintro ⟨e', k⟩ hk
  have := (E d e' k hk).1
  simp
  intro x
  subst x
  rw [I.shape.fresh _ h] at this
  cases this

theorem idle_fresh {S : State} (I : Inv C H R black S) (E : Ends S) {d e : Nat} (h : 2 * S.n ≤ e) :
    (S.dock d).handler e = .idle := by
  refine Classical.byContradiction fun hh => ?_
  obtain ⟨k, hk⟩ := isPeer_mem.mp ((sock_inv I d).busy e hh)
  have := (E d e k hk).1
  rw [I.shape.fresh _ h] at this
  cases this

end

section
variable {C : Nat → List Dock.Carried} {H : Nat → Str} {R : Nat → Str} {black : List Int}

theorem map_harmless {d : Nat} {as : List Dock.Act} (h : ∀ a ∈ as, ∀ p, a ≠ .dialFail p) :
    ∀ a ∈ as.map (Act.dock d), harmless a = true := by
  intro a ha
  obtain ⟨b, hb, rfl⟩ := List.mem_map.mp ha
  cases b <;> first | rfl | exact absurd rfl (h _ hb _)

theorem map_harmless_hub {as : List Hub.Act} : ∀ a ∈ as.map Act.hub, harmless a = true := by
  intro a ha
  obtain ⟨b, hb, rfl⟩ := List.mem_map.mp ha
  rfl

/-- A request on its way is executed, and the call returns. -/
theorem finish_call {S : State} {d d' e i : Nat} {clock : BitVec 64} {c : Dock.Call} {f : Dock.Carried} (r : Dock.Ret)
    {args res : List Val} (hne : d ≠ d') (ho : S.owner e = some (.dock d)) (ho' : S.owner (other e) = some (.dock d'))
    (hu : S.down (.dock d) = false) (hu' : S.down (.dock d') = false) (hd : (S.dock d).dead = false)
    (hd' : (S.dock d').dead = false) (hh : (S.dock d).handler e = .idle) (hh' : (S.dock d').handler (other e) = .idle)
    (hp : (S.dock d).isPeer e = true) (hp' : (S.dock d').isPeer (other e) = true) (hq : S.queue e = [])
    (hq' : S.queue (other e) = [.rpcRequest clock c.slot c.meth c.args c.withResult])
    (hf : Dock.slotsOf (C d') c.slot = some f)
    (hF : fate (.rpcRequest clock c.slot c.meth c.args c.withResult) =
      .arrives (.rpcRequest clock c.slot c.meth args c.withResult))
    (hF' : fate (.rpcResponse clock c.slot c.meth (if c.withResult then r.result else []) r.err) =
      .arrives (.rpcResponse clock c.slot c.meth res r.err))
    (hi : (S.dock d).rpcs clock = some i) (hw : (S.dock d).phase i = .waiting) (hc : (S.dock d).chan i = none)
    (hcc : (S.dock d).chanClosed i = false) :
    ∃ as T, run (State.step C H R black) S as = some T ∧ (∀ a ∈ as, harmless a = true) ∧ T.down = S.down ∧
      (∀ x, (T.dock x).dead = (S.dock x).dead) ∧ (T.dock d).phase i = .returned ⟨res, r.err⟩ ∧ (T.dock d).rpcs clock = none ∧
      (T.dock d').log = (S.dock d').log ++ [.recv (other e) (.rpcRequest clock c.slot c.meth args c.withResult),
        .invoke (some (other e, clock)) f.feature { c with args := args },
        .returned (other e, clock) f.feature { c with args := args } r,
        .sent (other e) (.rpcResponse clock c.slot c.meth (if c.withResult then r.result else []) r.err)] := by
  have hee : other e ≠ e := by unfold other; split <;> omega
  obtain ⟨t, ht1, ht2, ht3⟩ := recv_serve (C d') (S.dock d') (other e) clock { c with args := args } f r hd' hh' hp' hf
  have hr1 := run_deliver (C := C) (H := H) (R := R) (black := black) hq' hF ho' hu' ht1 (by
    intro a ha; simp at ha; rcases ha with rfl | rfl | rfl <;> rfl)
  let S1 := (S.took (other e) (.rpcRequest clock c.slot c.meth args c.withResult) []).setDock d' t
  have hS1 : S1.dock d = S.dock d := by
    show upd S.dock d' t d = _
    rw [upd_other _ _ hne]
  have hQ1 : S1.queue e = [.rpcResponse clock c.slot c.meth (if c.withResult then r.result else []) r.err] := by
    show State.queue (State.setDock _ d' t) e = _
    rw [queue_setDock (S := S.took (other e) (.rpcRequest clock c.slot c.meth args c.withResult) []) (d := d') (s := t) ht3]
    show upd S.queue (other e) [] e ++ (if S.owner (other e) = some (.dock d') then _ else _) = _
    rw [upd_other _ _ hee.symm, hq, if_pos ho']
    simp [dockSent]
  obtain ⟨u, hu1, hu2, hu3, hu4, hu5⟩ := recv_answer (C d) (S1.dock d) e clock c.slot c.meth i ⟨res, r.err⟩
    (by rw [hS1]; exact hd) (by rw [hS1]; exact hh) (by rw [hS1]; exact hp) (by rw [hS1]; exact hi) (by rw [hS1]; exact hw)
    (by rw [hS1]; exact hc) (by rw [hS1]; exact hcc)
  have hr2 := run_deliver (C := C) (H := H) (R := R) (black := black) (S := S1) hQ1 hF' ho hu hu1 (by
    intro a ha; simp at ha; rcases ha with rfl | rfl | rfl | rfl <;> rfl)
  refine ⟨_, _, run_trans hr1 hr2, ?_, ?_, ?_, ?_, ?_, ?_⟩
  · intro a ha
    rcases List.mem_append.mp ha with ha | ha
    · rcases List.mem_cons.mp ha with rfl | ha
      · rfl
      · exact map_harmless (by simp) a ha
    · rcases List.mem_cons.mp ha with rfl | ha
      · rfl
      · exact map_harmless (by simp) a ha
  · rfl
  · intro x
    show (upd (upd S.dock d' t) d u x).dead = _
    by_cases h1 : x = d
    · subst h1; rw [upd_same, hu2, hd]
    · rw [upd_other _ _ h1]
      by_cases h2 : x = d'
      · subst h2; rw [upd_same, ht2, hd']
      · rw [upd_other _ _ h2]
  · show (upd (upd S.dock d' t) d u d).phase i = _
    rw [upd_same]; exact hu3
  · show (upd (upd S.dock d' t) d u d).rpcs clock = _
    rw [upd_same]; exact hu4
  · show (upd (upd S.dock d' t) d u d').log = _
    rw [upd_other _ _ hne.symm, upd_same]; exact ht3

end

end Verif.System
