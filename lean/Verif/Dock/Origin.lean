import Verif.Dock.Hist

/-!
# Where the packets of a dock come from
-/

namespace Verif.Dock

open Verif Verif.Codec Verif.Proto

/-- Peer `p` announced that it carries the slot. -/
def Told (log : List Ev) (p : Nat) (slot : Str) : Prop :=
  ∃ slots, Ev.recv p (.registerRequest slots) ∈ log ∧ slot ∈ slots

theorem Told.mono {log : List Ev} {p : Nat} {slot : Str} (h : Told log p slot) (l : List Ev) : Told (log ++ l) p slot := by
  obtain ⟨ss, h1, h2⟩ := h
  exact ⟨ss, List.mem_append_left _ h1, h2⟩

/-- What the handler of peer `p` is doing has been caused by a packet of that peer. -/
def HandOk (log : List Ev) (p : Nat) : Handler → Prop
  | .reply slots => Ev.recv p (.registerRequest slots) ∈ log
  | .cache rest => ∃ slots, Ev.recv p (.registerRequest slots) ∈ log ∧ ∀ x ∈ rest, x ∈ slots
  | .listening port => Ev.recv p (.registerResponse port) ∈ log
  | .announce => ∃ port, Ev.recv p (.registerResponse port) ∈ log
  | .dialling addr => Ev.recv p (.queryResponse addr) ∈ log
  | _ => True

theorem HandOk.mono {log : List Ev} {p : Nat} {hd : Handler} (h : HandOk log p hd) (l : List Ev) : HandOk (log ++ l) p hd := by
  cases hd with
  | reply slots => exact List.mem_append_left _ h
  | cache rest => obtain ⟨ss, h1, h2⟩ := h; exact ⟨ss, List.mem_append_left _ h1, h2⟩
  | listening port => exact List.mem_append_left _ h
  | announce => obtain ⟨x, h⟩ := h; exact ⟨x, List.mem_append_left _ h⟩
  | dialling addr => exact List.mem_append_left _ h
  | _ => trivial

/-- Why a packet was sent to peer `p`. -/
def SentOk (log : List Ev) (p : Nat) : Proto → Prop
  | .rpcRequest _ slot _ _ _ => Told log p slot
  | .ready _ => (∃ slots, Ev.recv p (.registerRequest slots) ∈ log) ∨ ∃ port, Ev.recv p (.registerResponse port) ∈ log
  | .rpcResponse .. => ∃ pkt, Ev.recv p pkt ∈ log
  | _ => True

theorem SentOk.mono {log : List Ev} {p : Nat} {pkt : Proto} (h : SentOk log p pkt) (l : List Ev) : SentOk (log ++ l) p pkt := by
  cases pkt with
  | rpcRequest => exact Told.mono h l
  | ready =>
    rcases h with ⟨x, h⟩ | ⟨x, h⟩
    · exact Or.inl ⟨x, List.mem_append_left _ h⟩
    · exact Or.inr ⟨x, List.mem_append_left _ h⟩
  | rpcResponse => obtain ⟨x, h⟩ := h; exact ⟨x, List.mem_append_left _ h⟩
  | _ => trivial

structure OrigInv (s : State) : Prop where
  hand : ∀ p, HandOk s.log p (s.handler p)
  ports : ∀ port, port ∈ s.ports ↔ ∃ p, Ev.recv p (.registerResponse port) ∈ s.log
  remote : ∀ slot p, s.remote slot = some p → Told s.log p slot
  sent : ∀ p pkt, Ev.sent p pkt ∈ s.log → SentOk s.log p pkt
  exec : ∀ k, k < s.nx → ∃ pkt, Ev.recv (s.exec k).peer pkt ∈ s.log
  execFresh : ∀ k, s.nx ≤ k → (s.exec k).phase = .over

theorem OrigInv.init : OrigInv State.init := by
  constructor <;> simp [State.init, HandOk]

/-- The general step. -/
theorem origInv_gen {s t : State} (l : List Ev) (I : OrigInv s) (hl : t.log = s.log ++ l)
    (hh : ∀ p, t.handler p = s.handler p ∨ HandOk t.log p (t.handler p))
    (hp : t.ports = s.ports) (hn : ∀ p port, Ev.recv p (.registerResponse port) ∉ l)
    (hr : ∀ slot p, t.remote slot = some p → s.remote slot = some p ∨ Told t.log p slot)
    (hs : ∀ p pkt, Ev.sent p pkt ∈ l → SentOk t.log p pkt)
    (hx : t.nx = s.nx) (he : ∀ k, (t.exec k).peer = (s.exec k).peer)
    (hf : ∀ k, (s.exec k).phase = .over → (t.exec k).phase = .over) : OrigInv t := by
  constructor
  · intro p
    rcases hh p with h | h
    · rw [h, hl]; exact (I.hand p).mono l
    · exact h
  · intro port
    rw [hp, hl, I.ports]
    constructor
    · rintro ⟨p, h⟩; exact ⟨p, List.mem_append_left _ h⟩
    · rintro ⟨p, h⟩
      rcases List.mem_append.mp h with h | h
      · exact ⟨p, h⟩
      · exact absurd h (hn p port)
  · intro slot p h
    rcases hr slot p h with h | h
    · rw [hl]; exact (I.remote slot p h).mono l
    · exact h
  · intro p pkt h
    rw [hl] at h
    rcases List.mem_append.mp h with h | h
    · rw [hl]; exact (I.sent p pkt h).mono l
    · exact hs p pkt h
  · intro k h
    rw [hx] at h
    rw [he, hl]
    obtain ⟨pkt, h⟩ := I.exec k h
    exact ⟨pkt, List.mem_append_left _ h⟩
  · intro k h
    rw [hx] at h
    exact hf k (I.execFresh k h)

/-- A step that changes nothing relevant but one handler. -/
theorem origInv_hand {s t : State} (I : OrigInv s) (l : List Ev) (hl : t.log = s.log ++ l) (p : Nat) (hd : Handler)
    (hh : t.handler = upd s.handler p hd) (hk : HandOk t.log p hd) (hp : t.ports = s.ports)
    (hn : ∀ p port, Ev.recv p (.registerResponse port) ∉ l) (hr : t.remote = s.remote)
    (hs : ∀ p pkt, Ev.sent p pkt ∈ l → SentOk t.log p pkt) (hx : t.nx = s.nx) (he : t.exec = s.exec) : OrigInv t := by
  refine origInv_gen l I hl ?_ hp hn (fun slot p h => Or.inl (hr ▸ h)) hs hx (fun k => by rw [he]) (fun k h => by rw [he]; exact h)
  intro q
  rw [hh]
  by_cases e : q = p
  · subst e; right; rw [upd_same]; exact hk
  · left; exact upd_other _ _ e

/-- A step that changes nothing relevant but the history. -/
theorem origInv_log {s t : State} (I : OrigInv s) (l : List Ev) (hl : t.log = s.log ++ l)
    (hh : t.handler = s.handler) (hp : t.ports = s.ports)
    (hn : ∀ p port, Ev.recv p (.registerResponse port) ∉ l) (hr : t.remote = s.remote)
    (hs : ∀ p pkt, Ev.sent p pkt ∈ l → SentOk t.log p pkt) (hx : t.nx = s.nx) (he : t.exec = s.exec) : OrigInv t :=
  origInv_gen l I hl (fun p => Or.inl (by rw [hh])) hp hn (fun slot p h => Or.inl (hr ▸ h)) hs hx (fun k => by rw [he])
    (fun k h => by rw [he]; exact h)

theorem origInv_commit {s : State} {i : Nat} (I : OrigInv s) : OrigInv (s.doCommit i) := by
  unfold State.doCommit
  repeat' split
  · rename_i p hp
    refine origInv_log (s := s) I [.sent p (s.request i)] rfl rfl rfl (by simp) rfl ?_ rfl rfl
    intro q pkt h
    simp at h
    obtain ⟨rfl, rfl⟩ := h
    exact (I.remote _ _ hp).mono _
  · exact origInv_log (s := s) I [] (List.append_nil _).symm rfl rfl (by simp) rfl (by simp) rfl rfl
  · refine origInv_log (s := s) I _ rfl rfl rfl (by simp) rfl ?_ rfl rfl
    intro q pkt h
    obtain ⟨a, _, h⟩ := List.mem_map.mp h
    cases h
    trivial
  · exact origInv_log (s := s) I [] (List.append_nil _).symm rfl rfl (by simp) rfl (by simp) rfl rfl

theorem origInv_recv {s : State} {cs : List Carried} {p : Nat} {pkt : Proto} (I : OrigInv s) :
    OrigInv (({ s with log := s.log ++ [.recv p pkt] } : State).onPacket cs p pkt) := by
  have hm : ∀ l, Ev.recv p pkt ∈ s.log ++ Ev.recv p pkt :: l := by simp
  unfold State.onPacket
  cases pkt with
  | ready slots => exact origInv_hand I [_] rfl p _ rfl trivial rfl (by simp) rfl (by simp) rfl rfl
  | registerRequest slots =>
    exact origInv_hand I [_] rfl p _ rfl (hm []) rfl (by simp) rfl (by simp) rfl rfl
  | queryResponse addr =>
    exact origInv_hand I [_] rfl p _ rfl (hm []) rfl (by simp) rfl (by simp) rfl rfl
  | registerResponse port =>
    constructor
    · intro q
      simp only [List.append_assoc]
      by_cases e : q = p
      · subst e; simp [HandOk]
      · rw [upd_other _ _ e]; exact (I.hand q).mono _
    · intro x
      simp only [List.mem_append, List.mem_singleton, I.ports, List.append_assoc]
      constructor
      · rintro (⟨q, h⟩ | rfl)
        · exact ⟨q, Or.inl h⟩
        · exact ⟨p, by simp⟩
      · rintro ⟨q, h | h⟩
        · exact Or.inl ⟨q, h⟩
        · simp at h; exact Or.inr h.2
    · intro slot q h
      exact ((I.remote slot q h).mono _).mono _
    · intro q pkt h
      simp at h
      exact ((I.sent q pkt h).mono _).mono _
    · intro k h
      obtain ⟨pkt, h⟩ := I.exec k h
      exact ⟨pkt, by simp [h]⟩
    · exact I.execFresh
  | rpcRequest index slot meth args wr =>
    simp only
    split
    · constructor
      · intro q; exact (I.hand q).mono _
      · intro x
        simp only [I.ports]
        constructor
        · rintro ⟨q, h⟩; exact ⟨q, List.mem_append_left _ h⟩
        · rintro ⟨q, h⟩; simp at h; exact ⟨q, h⟩
      · intro slot q h; exact (I.remote slot q h).mono _
      · intro q pkt h
        simp at h
        exact (I.sent q pkt h).mono _
      · intro k h
        by_cases e : k = s.nx
        · subst e; simp only [upd_same]; exact ⟨_, hm []⟩
        · simp only at h ⊢
          rw [upd_other _ _ e]
          obtain ⟨pkt, h⟩ := I.exec k (by omega)
          exact ⟨pkt, List.mem_append_left _ h⟩
      · intro k h
        simp only at h ⊢
        rw [upd_other _ _ (by omega)]
        exact I.execFresh k (by omega)
    · exact origInv_log I [_] rfl rfl rfl (by simp) rfl (by simp) rfl rfl
  | rpcResponse index slot meth result err =>
    simp only
    split
    · exact origInv_log I [_] rfl rfl rfl (by simp) rfl (by simp) rfl rfl
    · exact origInv_log I [_] rfl rfl rfl (by simp) rfl (by simp) rfl rfl
  | _ => exact origInv_log I [_] rfl rfl rfl (by simp) rfl (by simp) rfl rfl

theorem origInv_step (cs : List Carried) (s : State) (a : Act) (t : State) (I : OrigInv s) (h : s.step cs a = some t) :
    OrigInv t := by
  unfold State.step at h
  split at h
  · cases h
  cases a with
  | greet e order =>
    simp only at h
    split at h
    · cases h
      refine origInv_log I [_] rfl rfl rfl (by simp) rfl ?_ rfl rfl
      intro q pkt h
      simp at h
      obtain ⟨rfl, rfl⟩ := h
      trivial
    · cases h
  | call c clock =>
    simp only at h
    split at h
    · cases h; exact origInv_log I [_, _] rfl rfl rfl (by simp) rfl (by simp) rfl rfl
    · cases h; exact origInv_log I [_] rfl rfl rfl (by simp) rfl (by simp) rfl rfl
  | commit i =>
    simp only at h
    split at h
    · cases h
      exact origInv_log (origInv_commit (i := i) I) [] (List.append_nil _).symm rfl rfl (by simp) rfl (by simp) rfl rfl
    · cases h
  | recv p pkt =>
    simp only at h
    repeat' split at h
    all_goals cases h
    exact origInv_recv I
  | work p order =>
    simp only [State.work] at h
    have hp := I.hand p
    repeat' split at h
    all_goals cases h
    all_goals simp only [*, HandOk] at hp
    all_goals first
      | exact origInv_log I [] (List.append_nil _).symm rfl rfl (by simp) rfl (by simp) rfl rfl
      | exact origInv_hand I [] (List.append_nil _).symm p _ rfl trivial rfl (by simp) rfl (by simp) rfl rfl
      | skip
    · rename_i slot rest start visited i _
      exact origInv_hand (s := s.doCommit i) (origInv_commit I) [] (List.append_nil _).symm p
        (.scan slot rest start visited) (by rw [(doCommit_same s i).2.2.2.2.2.2.2.2.2.2.1]) trivial rfl (by simp) rfl
        (by simp) rfl rfl
    · refine origInv_hand I [_] rfl p _ rfl ⟨_, List.mem_append_left _ hp, fun x h => h⟩ rfl (by simp) rfl ?_ rfl rfl
      intro q pkt h
      simp at h
      obtain ⟨rfl, rfl⟩ := h
      exact Or.inl ⟨_, List.mem_append_left _ hp⟩
    · obtain ⟨ss, h1, h2⟩ := hp
      refine origInv_gen [] I (List.append_nil _).symm ?_ rfl (by simp) ?_ (by simp) rfl (fun _ => rfl) (fun _ h => h)
      · intro q
        by_cases e : q = p
        · subst e; right; simp only [upd_same]
          exact ⟨ss, h1, fun x hx => h2 x (List.mem_cons_of_mem _ hx)⟩
        · left; exact upd_other _ _ e
      · rename_i slot rest _
        intro x q h
        by_cases e : x = slot
        · subst e; simp only [upd_same] at h; cases h
          exact Or.inr ⟨ss, h1, h2 _ (List.mem_cons_self ..)⟩
        · simp only at h; rw [upd_other _ _ e] at h; exact Or.inl h
    · exact origInv_hand I [] (List.append_nil _).symm p _ rfl ⟨_, hp⟩ rfl (by simp) rfl (by simp) rfl rfl
    · refine origInv_hand I [_, _] rfl p _ rfl trivial rfl (by simp) rfl ?_ rfl rfl
      intro q pkt h
      simp at h
      obtain ⟨rfl, rfl⟩ := h
      obtain ⟨x, hp⟩ := hp
      exact Or.inr ⟨x, List.mem_append_left _ hp⟩
  | visit p i =>
    simp only at h
    repeat' split at h
    all_goals cases h
    all_goals exact origInv_hand I [] (List.append_nil _).symm p _ rfl trivial rfl (by simp) rfl (by simp) rfl rfl
  | dialOK p e =>
    simp only [State.connected] at h
    repeat' split at h
    all_goals cases h
    all_goals exact origInv_hand I [] (List.append_nil _).symm p _ rfl trivial rfl (by simp) rfl (by simp) rfl rfl
  | invoke k =>
    simp only at h
    split at h
    · cases h
      rename_i hph
      refine origInv_gen [_] I rfl (fun _ => Or.inl rfl) rfl (by simp) (fun _ _ h => Or.inl h) (by simp) rfl ?_ ?_
      · intro j; by_cases e : j = k
        · subst e; simp
        · simp only; rw [upd_other _ _ e]
      · intro j h; by_cases e : j = k
        · subst e; rw [h] at hph; cases hph
        · simp only; rw [upd_other _ _ e]; exact h
    · cases h
  | finish k r =>
    simp only at h
    split at h
    · cases h
      rename_i hph
      refine origInv_gen [_] I rfl (fun _ => Or.inl rfl) rfl (by simp) (fun _ _ h => Or.inl h) (by simp) rfl ?_ ?_
      · intro j; by_cases e : j = k
        · subst e; simp
        · simp only; rw [upd_other _ _ e]
      · intro j h; by_cases e : j = k
        · subst e; rw [h] at hph; cases hph
        · simp only; rw [upd_other _ _ e]; exact h
    · cases h
  | respond k =>
    simp only at h
    split at h
    · cases h
      rename_i r hph
      have hlt : k < s.nx := by
        rcases Nat.lt_or_ge k s.nx with h' | h'
        · exact h'
        · rw [I.execFresh k h'] at hph; cases hph
      refine origInv_gen [_] I rfl (fun _ => Or.inl rfl) rfl (by simp) (fun _ _ h => Or.inl h) ?_ rfl ?_ ?_
      · intro q pkt h
        simp at h
        obtain ⟨rfl, rfl⟩ := h
        obtain ⟨pkt, h⟩ := I.exec k hlt
        exact ⟨pkt, List.mem_append_left _ h⟩
      · intro j; by_cases e : j = k
        · subst e; simp
        · simp only; rw [upd_other _ _ e]
      · intro j h; by_cases e : j = k
        · subst e; simp
        · simp only; rw [upd_other _ _ e]; exact h
    · cases h
  | _ =>
    simp only [State.connected] at h
    repeat' split at h
    all_goals cases h
    all_goals exact origInv_log I [] (List.append_nil _).symm rfl rfl (by simp) rfl (by simp) rfl rfl

theorem origInv_run (cs : List Carried) (as : List Act) (s : State) (h : run (State.step cs) State.init as = some s) :
    OrigInv s :=
  run_inv (I := OrigInv) (origInv_step cs) as _ _ OrigInv.init h

/-- The register requests sent to peer `e`. -/
def regsTo (e : Nat) (log : List Ev) : List (List Str) :=
  log.filterMap fun
    | .sent p (.registerRequest slots) => if p = e then some slots else none
    | _ => none

/-- Each peer is greeted at most once; packets are exchanged with peers only. -/
structure PeerInv (s : State) : Prop where
  greet : ∀ e, (regsTo e s.log).length + (if s.greeting e then 1 else 0) ≤ (if s.isPeer e then 1 else 0)
  heard : ∀ p pkt, Ev.recv p pkt ∈ s.log → s.isPeer p = true
  sent : ∀ p pkt, Ev.sent p pkt ∈ s.log → s.isPeer p = true

theorem regsTo_append (e : Nat) (l l' : List Ev) : regsTo e (l ++ l') = regsTo e l ++ regsTo e l' :=
  List.filterMap_append ..

theorem regsTo_none (e : Nat) (l : List Ev) (h : ∀ p slots, Ev.sent p (.registerRequest slots) ∉ l) : regsTo e l = [] := by
  refine filterMap_none ?_
  intro x hx
  split
  · exact absurd hx (h _ _)
  · rfl

theorem peerInv_same {s t : State} (I : PeerInv s) (l : List Ev) (hl : t.log = s.log ++ l) (hg : t.greeting = s.greeting)
    (hp : t.peers = s.peers) (h1 : ∀ p slots, Ev.sent p (.registerRequest slots) ∉ l)
    (h2 : ∀ p pkt, Ev.recv p pkt ∈ l → s.isPeer p = true) (h3 : ∀ p pkt, Ev.sent p pkt ∈ l → s.isPeer p = true) :
    PeerInv t := by
  have hP : ∀ p, t.isPeer p = s.isPeer p := fun p => by unfold State.isPeer; rw [hp]
  constructor
  · intro e
    rw [hl, regsTo_append, regsTo_none e l h1, List.append_nil, hg, hP]
    exact I.greet e
  · intro p pkt h
    rw [hl] at h; rw [hP]
    rcases List.mem_append.mp h with h | h
    · exact I.heard p pkt h
    · exact h2 p pkt h
  · intro p pkt h
    rw [hl] at h; rw [hP]
    rcases List.mem_append.mp h with h | h
    · exact I.sent p pkt h
    · exact h3 p pkt h

theorem peerInv_connected {s t : State} (I : PeerInv s) (e : Nat) (k : Sock) (hl : t.log = s.log)
    (hg : t.greeting = upd s.greeting e true) (hp : t.peers = s.peers ++ [(e, k)]) (hn : s.isNew e = true) : PeerInv t := by
  have hP : ∀ p, t.isPeer p = (s.isPeer p || decide (e = p)) := fun p => by unfold State.isPeer; rw [hp]; simp
  have hN : s.isPeer e = false := by
    unfold State.isNew at hn; unfold State.isPeer
    rw [List.any_eq_false]
    rw [List.all_eq_true] at hn
    intro x hx h
    have h1 := hn x hx
    simp only [decide_eq_true_eq] at h h1
    exact h1 h
  constructor
  · intro q
    rw [hl, hg, hP]
    by_cases h : q = e
    · subst h
      have := I.greet q
      rw [hN] at this
      simp at this
      simp [this.1]
    · rw [upd_other _ _ h]
      have := I.greet q
      simpa [show ¬ e = q from fun h' => h h'.symm] using this
  · intro p pkt h
    rw [hl] at h; rw [hP, I.heard p pkt h]; rfl
  · intro p pkt h
    rw [hl] at h; rw [hP, I.sent p pkt h]; rfl

theorem peerInv_commit {s : State} {i : Nat} (O : OrigInv s) (I : PeerInv s) : PeerInv (s.doCommit i) := by
  unfold State.doCommit
  repeat' split
  · rename_i p hp
    refine peerInv_same (s := s) I [.sent p (s.request i)] rfl rfl rfl (by simp [State.request]) (by simp) ?_
    intro q pkt h
    simp at h
    obtain ⟨rfl, rfl⟩ := h
    obtain ⟨ss, h, _⟩ := O.remote _ _ hp
    exact I.heard _ _ h
  · exact peerInv_same (s := s) I [] (List.append_nil _).symm rfl rfl (by simp) (by simp) (by simp)
  · refine peerInv_same (s := s) I _ rfl rfl rfl (by simp) (by simp) ?_
    intro q pkt h
    obtain ⟨a, ha, h⟩ := List.mem_map.mp h
    cases h
    unfold State.isPeer
    rw [List.any_eq_true]
    exact ⟨a, (List.mem_filter.mp ha).1, by simp⟩
  · exact peerInv_same (s := s) I [] (List.append_nil _).symm rfl rfl (by simp) (by simp) (by simp)

theorem peerInv_step (cs : List Carried) (s : State) (a : Act) (t : State) (O : OrigInv s) (I : PeerInv s)
    (h : s.step cs a = some t) : PeerInv t := by
  unfold State.step at h
  split at h
  · cases h
  cases a with
  | dialHub e =>
    simp only at h
    split at h
    · cases h
      rename_i hp
      exact peerInv_connected I e .hub rfl rfl rfl (by simp [State.isNew, hp.2.2])
    · cases h
  | accept e port =>
    simp only at h
    split at h
    · cases h
      rename_i hp
      exact peerInv_connected I e _ rfl rfl rfl hp.1
    · cases h
  | greet e order =>
    simp only at h
    split at h
    · cases h
      rename_i hp
      have hg := I.greet e
      rw [hp.1] at hg
      have hP : s.isPeer e = true := by
        cases h : s.isPeer e
        · rw [h] at hg; simp at hg
        · rfl
      constructor
      · intro q
        simp only [regsTo_append, List.length_append]
        by_cases h : q = e
        · subst h
          simp only [upd_same]
          simp only [hP, if_true] at hg
          have : s.isPeer q = true := hP
          show _ ≤ (if s.isPeer q = true then 1 else 0)
          rw [this]
          simp [regsTo]
          have : (regsTo q s.log).length = 0 := by omega
          simpa [regsTo] using this
        · simp only [upd_other s.greeting false h]
          have := I.greet q
          have e1 : (regsTo q [Ev.sent e (.registerRequest order)]) = [] := by
            simp [regsTo, show ¬ e = q from fun h' => h h'.symm]
          rw [e1]
          exact this
      · intro p pkt h
        simp at h
        exact I.heard p pkt h
      · intro p pkt h
        simp at h
        rcases h with h | ⟨rfl, _⟩
        · exact I.sent p pkt h
        · exact hP
    · cases h
  | call c clock =>
    simp only at h
    split at h
    · cases h; exact peerInv_same I [_, _] rfl rfl rfl (by simp) (by simp) (by simp)
    · cases h; exact peerInv_same I [_] rfl rfl rfl (by simp) (by simp) (by simp)
  | commit i =>
    simp only at h
    split at h
    · cases h
      exact peerInv_same (peerInv_commit (i := i) O I) [] (List.append_nil _).symm rfl rfl (by simp) (by simp) (by simp)
    · cases h
  | recv p pkt =>
    simp only [State.onPacket] at h
    repeat' split at h
    all_goals cases h
    all_goals first
      | exact peerInv_same I [.recv p _] rfl rfl rfl (by simp) (by intro q k h; simp at h; rw [h.1]; assumption) (by simp)
      | exact peerInv_same I ([.recv p _] ++ [.listen _]) (List.append_assoc ..) rfl rfl (by simp) (by intro q k h; simp at h; rw [h.1]; assumption) (by simp)
  | work p order =>
    simp only [State.work] at h
    have hp := O.hand p
    repeat' split at h
    all_goals cases h
    all_goals simp only [*, HandOk] at hp
    all_goals first
      | exact peerInv_same I [] (List.append_nil _).symm rfl rfl (by simp) (by simp) (by simp)
      | exact peerInv_same (peerInv_commit O I) [] (List.append_nil _).symm rfl rfl (by simp) (by simp) (by simp)
      | skip
    · refine peerInv_same I [_] rfl rfl rfl (by simp) (by simp) ?_
      intro q pkt h
      simp at h
      rw [h.1]
      exact I.heard _ _ hp
    · refine peerInv_same I [_, _] rfl rfl rfl (by simp) (by simp) ?_
      intro q pkt h
      simp at h
      rw [h.1]
      obtain ⟨x, hp⟩ := hp
      exact I.heard _ _ hp
  | dialOK p e =>
    simp only at h
    split at h
    · split at h
      · cases h
        rename_i hn
        exact peerInv_connected I e _ rfl rfl rfl hn
      · cases h
    · cases h
  | respond k =>
    simp only at h
    split at h
    · cases h
      rename_i r hph
      have hlt : k < s.nx := by
        rcases Nat.lt_or_ge k s.nx with h' | h'
        · exact h'
        · rw [O.execFresh k h'] at hph; cases hph
      refine peerInv_same I [_] rfl rfl rfl (by simp) (by simp) ?_
      intro q pkt h
      simp at h
      rw [h.1]
      obtain ⟨pkt, h⟩ := O.exec k hlt
      exact I.heard _ _ h
    · cases h
  | _ =>
    simp only at h
    repeat' split at h
    all_goals cases h
    all_goals first
      | exact peerInv_same I [] (List.append_nil _).symm rfl rfl (by simp) (by simp) (by simp)
      | exact peerInv_same I [_] rfl rfl rfl (by simp) (by simp) (by simp)

theorem peerInv_run (cs : List Carried) (as : List Act) (s : State) (h : run (State.step cs) State.init as = some s) :
    OrigInv s ∧ PeerInv s :=
  run_inv (I := fun s => OrigInv s ∧ PeerInv s)
    (fun s a t I h => ⟨origInv_step cs s a t I.1 h, peerInv_step cs s a t I.1 I.2 h⟩) as _ _
    ⟨OrigInv.init, by constructor <;> simp [State.init, regsTo]⟩ h

end Verif.Dock
