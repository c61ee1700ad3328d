import Verif.System.Live

/-! # Two docks and the connection between them -/

namespace Verif.System

open Verif Verif.Codec Verif.Proto

/-! ## What a dock makes of a packet -/

/-- The dock takes a packet from peer `p`, and its handler gets to the end. -/
def Ran (cs : List Dock.Carried) (s : Dock.State) (p : Nat) (pkt : Proto) (t : Dock.State) : Prop :=
  ∃ as, (∀ a ∈ as, Dock.Own p a) ∧ run (Dock.State.step cs) s (.recv p pkt :: as) = some t

section
variable {cs : List Dock.Carried} {s : Dock.State} {p : Nat}

theorem recv_step (hd : s.dead = false) (hh : s.handler p = .idle) (hp : s.isPeer p = true) (pkt : Proto) :
    s.step cs (.recv p pkt) = some (({ s with log := s.log ++ [.recv p pkt] } : Dock.State).onPacket cs p pkt) := by
  unfold Dock.State.step
  rw [if_neg (by rw [hd]; simp)]
  simp only [hh]
  rw [if_pos hp]

theorem put_idle (h : s.handler p = .idle) : s.put p .idle = s := by
  rw [← h]; exact Dock.put_self s p

/-- A register request is answered and remembered. -/
theorem ran_register (hd : s.dead = false) (hh : s.handler p = .idle) (hp : s.isPeer p = true) (slots : List Str) :
    Ran cs s p (.registerRequest slots) { s with
      remote := Dock.learn p slots s.remote
      log := s.log ++ [.recv p (.registerRequest slots), .sent p (.ready (Dock.collectOf cs))] } := by
  have h := Dock.reply_all (cs := cs) { s with log := s.log ++ [.recv p (.registerRequest slots)] } p slots hd
  obtain ⟨as, h1, h2⟩ := h
  refine ⟨as, h1, ?_⟩
  rw [run_cons (recv_step hd hh hp _)]
  rw [show s.log ++ [.recv p (.registerRequest slots), .sent p (.ready (Dock.collectOf cs))] =
    s.log ++ [.recv p (.registerRequest slots)] ++ [.sent p (.ready (Dock.collectOf cs))] by simp]
  exact h2.trans (congrArg some (put_idle hh))

/-- A ready packet for which no call has been waiting. -/
theorem ran_ready_none (hd : s.dead = false) (hh : s.handler p = .idle) (hp : s.isPeer p = true) (slots : List Str)
    (hn : ∀ j, s.req j = true → (s.call j).slot ∉ slots) :
    Ran cs s p (.ready slots) { s with log := s.log ++ [.recv p (.ready slots)] } := by
  have h := Dock.ready_none (cs := cs) { s with log := s.log ++ [.recv p (.ready slots)] } p slots hd hn
  obtain ⟨as, h1, h2⟩ := h
  refine ⟨as, h1, ?_⟩
  rw [run_cons (recv_step hd hh hp _)]
  exact h2.trans (congrArg some (put_idle hh))

/-- A ready packet for which one call has been waiting. -/
theorem ran_ready_one (hd : s.dead = false) (hh : s.handler p = .idle) (hp : s.isPeer p = true) (slots : List Str) (i q : Nat)
    (hn : ∀ j, s.req j = true → (s.call j).slot ∈ slots → j = i) (hi : s.req i = true) (hx : s.rpcs (s.index i) = some i)
    (hr : s.remote (s.call i).slot = some q) (hm : (s.call i).slot ∈ slots) :
    Ran cs s p (.ready slots) { s with
      req := upd s.req i false, log := s.log ++ [.recv p (.ready slots), .sent q (s.request i)] } := by
  have h := Dock.ready_one (cs := cs) { s with log := s.log ++ [.recv p (.ready slots)] } p slots i q hd hn hi hx hr hm
  obtain ⟨as, h1, h2⟩ := h
  refine ⟨as, h1, ?_⟩
  rw [run_cons (recv_step hd hh hp _)]
  rw [show s.log ++ [.recv p (.ready slots), .sent q (s.request i)] =
    s.log ++ [.recv p (.ready slots)] ++ [.sent q (s.request i)] by simp]
  exact h2.trans (congrArg some (put_idle hh))

end

theorem own_alone {p : Nat} {a : Dock.Act} (h : Dock.Own p a) : dockAlone a = true := by
  rcases h with ⟨o, rfl⟩ | ⟨j, rfl⟩ <;> rfl

theorem own_harmless {p : Nat} {a : Dock.Act} (h : Dock.Own p a) : ∀ q, a ≠ .dialFail q := by
  rcases h with ⟨o, rfl⟩ | ⟨j, rfl⟩ <;> simp

/-! ## Two docks -/

/-- The docks `d` and `d'` are in the states `s` and `s'`, `a` is on its way from `d'` to `d` and `b` from `d` to `d'`;
the other docks are as in `S0`. -/
structure Pair (S0 S : State) (d d' e : Nat) (s s' : Dock.State) (a b : List Proto) : Prop where
  ne : d ≠ d'
  owner : S.owner e = some (.dock d)
  owner' : S.owner (other e) = some (.dock d')
  dock : S.dock d = s
  dock' : S.dock d' = s'
  queue : S.queue e = a
  queue' : S.queue (other e) = b
  down : S.down = S0.down
  rest : ∀ x, x ≠ d → x ≠ d' → S.dock x = S0.dock x

theorem Pair.symm {S0 S : State} {d d' e : Nat} {s s' : Dock.State} {a b : List Proto} (P : Pair S0 S d d' e s s' a b) :
    Pair S0 S d' d (other e) s' s b a :=
  ⟨P.ne.symm, P.owner', by rw [other_other]; exact P.owner, P.dock', P.dock, P.queue', by rw [other_other]; exact P.queue,
    P.down, fun x h1 h2 => P.rest x h2 h1⟩

section
variable {C : Nat → List Dock.Carried} {H : Nat → Str} {R : Nat → Str} {black : List Int}

/-- From `S` the system can get to `T` without losing packets or processes. -/
def Gets (C : Nat → List Dock.Carried) (H : Nat → Str) (R : Nat → Str) (black : List Int) (S T : State) : Prop :=
  ∃ as, run (State.step C H R black) S as = some T ∧ ∀ a ∈ as, harmless a = true

theorem Gets.trans {S T U : State} (h : Gets C H R black S T) (h' : Gets C H R black T U) : Gets C H R black S U := by
  obtain ⟨as, h1, h2⟩ := h
  obtain ⟨bs, h3, h4⟩ := h'
  refine ⟨as ++ bs, run_trans h1 h3, ?_⟩
  intro a ha
  rcases List.mem_append.mp ha with ha | ha
  · exact h2 a ha
  · exact h4 a ha

theorem pair_setDock {S0 S : State} {d d' e : Nat} {s s' t : Dock.State} {a b : List Proto} {l : List Dock.Ev}
    (P : Pair S0 S d d' e s s' a b) (hl : t.log = s.log ++ l) :
    Pair S0 (S.setDock d t) d d' e t s' a (b ++ dockSent e l) := by
  have hl' : t.log = (S.dock d).log ++ l := by rw [P.dock]; exact hl
  refine ⟨P.ne, P.owner, P.owner', ?_, ?_, ?_, ?_, P.down, ?_⟩
  · show upd S.dock d t d = t
    simp
  · show upd S.dock d t d' = s'
    rw [upd_other _ _ P.ne.symm, P.dock']
  · rw [queue_setDock hl', P.queue, P.owner', if_neg (by simpa using P.ne.symm), List.append_nil]
  · rw [queue_setDock hl', P.queue', other_other, if_pos P.owner]
  · intro x h1 h2
    show upd S.dock d t x = _
    rw [upd_other _ _ h1]
    exact P.rest x h1 h2

/-- Dock `d` takes steps of its own. -/
theorem Pair.solo {S0 S : State} {d d' e : Nat} {s s' t : Dock.State} {a b : List Proto} {l : List Dock.Ev} {as : List Dock.Act}
    (P : Pair S0 S d d' e s s' a b) (hd : S0.down (.dock d) = false) (h : run (Dock.State.step (C d)) s as = some t)
    (ha : ∀ x ∈ as, dockAlone x = true) (ha' : ∀ x ∈ as, ∀ q, x ≠ .dialFail q) (hl : t.log = s.log ++ l) :
    ∃ T, Gets C H R black S T ∧ Pair S0 T d d' e t s' a (b ++ dockSent e l) := by
  refine ⟨S.setDock d t, ⟨_, run_dock (by rw [P.dock]; exact h) (by rw [P.down]; exact hd) ha, map_harmless ha'⟩, pair_setDock P hl⟩

/-- Dock `d` takes a packet. -/
theorem Pair.take {S0 S : State} {d d' e : Nat} {s s' t : Dock.State} {a b : List Proto} {pkt q : Proto} {l : List Dock.Ev}
    (P : Pair S0 S d d' e s s' (pkt :: a) b) (hd : S0.down (.dock d) = false) (hf : fate pkt = .arrives q)
    (h : Ran (C d) s e q t) (hl : t.log = s.log ++ l) :
    ∃ T, Gets C H R black S T ∧ Pair S0 T d d' e t s' a (b ++ dockSent e l) := by
  obtain ⟨as, h1, h2⟩ := h
  have hr := run_deliver (C := C) (H := H) (R := R) (black := black) P.queue hf P.owner (by rw [P.down]; exact hd)
    (by rw [P.dock]; exact h2) (fun x hx => own_alone (h1 x hx))
  refine ⟨_, ⟨_, hr, ?_⟩, ?_⟩
  · intro x hx
    rcases List.mem_cons.mp hx with rfl | hx
    · rfl
    · exact map_harmless (fun x hx => own_harmless (h1 x hx)) x hx
  · refine pair_setDock (s := s) ?_ hl
    refine ⟨P.ne, P.owner, P.owner', P.dock, P.dock', ?_, ?_, P.down, P.rest⟩
    · show upd S.queue e a e = a
      simp
    · show upd S.queue e a (other e) = b
      rw [upd_other _ _ (by unfold other; split <;> omega), P.queue']

end

end Verif.System
