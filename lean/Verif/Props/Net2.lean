import Verif.Net.Socket
import Mathlib.Data.List.Induction

/-!
# Closing sockets and peers: C30, C31, C32
-/

namespace Verif.Props

open Verif Verif.Net

/-! ## C30 -/

/-- The sink still set means: not yet reported closed; a peer not yet made has not been reported. -/
private structure SockInv (s : Sock) : Prop where
  peersMade : ∀ i ∈ s.peers, i < s.made
  closersMade : ∀ c ∈ s.closers, ∀ i ∈ c, i < s.made
  fresh : ∀ i, s.made ≤ i → s.sink i = false ∧ SockEv.closed i ∉ s.log ∧ SockEv.connected i ∉ s.log
  conn : ∀ i, i < s.made → s.log.count (.connected i) = 1
  closed : ∀ i, i < s.made → s.log.count (.closed i) = if s.sink i then 0 else 1

private theorem sockInv_init : SockInv Sock.init := by
  constructor <;> simp [Sock.init]

private theorem sockInv_step (s : Sock) (a : SockAct) (t : Sock) (I : SockInv s) (h : s.step a = some t) :
    SockInv t := by
  obtain ⟨h1, h2, h3, h4, h5⟩ := I
  cases a with
  | connect =>
    simp only [Sock.step, Option.some.injEq] at h
    subst h
    refine ⟨?_, ?_, ?_, ?_, ?_⟩
    · intro i hi
      simp only [List.mem_append, List.mem_singleton] at hi
      rcases hi with hi | rfl
      · exact Nat.lt_succ_of_lt (h1 i hi)
      · exact Nat.lt_succ_self _
    · intro c hc i hi
      exact Nat.lt_succ_of_lt (h2 c hc i hi)
    · intro i hi
      have hi' : s.made + 1 ≤ i := hi
      obtain ⟨a1, a2, a3⟩ := h3 i (by omega)
      refine ⟨?_, ?_, ?_⟩
      · simp only; rw [upd_other _ _ (by omega)]; exact a1
      · simpa using a2
      · simp only [List.mem_append, List.mem_singleton, SockEv.connected.injEq, not_or]
        exact ⟨a3, by omega⟩
    · intro i hi
      have hi' : i < s.made + 1 := hi
      simp only [List.count_append]
      by_cases e : i = s.made
      · subst e
        rw [List.count_eq_zero_of_not_mem (h3 s.made (Nat.le_refl _)).2.2]
        simp
      · rw [h4 i (by omega)]
        simp [Ne.symm e]
    · intro i hi
      have hi' : i < s.made + 1 := hi
      simp only [List.count_append]
      by_cases e : i = s.made
      · subst e
        rw [List.count_eq_zero_of_not_mem (h3 s.made (Nat.le_refl _)).2.1]
        simp
      · rw [h5 i (by omega)]
        simp [upd, e]
  | closeStart =>
    simp only [Sock.step, Option.some.injEq] at h
    subst h
    refine ⟨h1, ?_, h3, h4, h5⟩
    intro c hc i hi
    simp only [List.mem_append, List.mem_singleton] at hc
    rcases hc with hc | rfl
    · exact h2 c hc i hi
    · exact h1 i hi
  | closeNext j =>
    simp only [Sock.step] at h
    split at h
    · rename_i p rest hj
      have hmem : (p :: rest) ∈ s.closers := List.mem_of_getElem? hj
      have hp : p < s.made := h2 _ hmem p (by simp)
      have hset : ∀ c ∈ s.closers.set j rest, ∀ i ∈ c, i < s.made := by
        intro c hc i hi
        rcases List.mem_or_eq_of_mem_set hc with hc | rfl
        · exact h2 c hc i hi
        · exact h2 _ hmem i (by simp [hi])
      split at h
      · rename_i hs
        simp only [Option.some.injEq] at h
        subst h
        refine ⟨h1, hset, ?_, ?_, ?_⟩
        · intro i hi
          have hi' : s.made ≤ i := hi
          obtain ⟨a1, a2, a3⟩ := h3 i hi'
          refine ⟨?_, ?_, ?_⟩
          · simp only; rw [upd_other _ _ (by omega)]; exact a1
          · simp only [List.mem_append, List.mem_singleton, SockEv.closed.injEq, not_or]
            exact ⟨a2, by omega⟩
          · simpa using a3
        · intro i hi
          simp only [List.count_append]
          rw [h4 i hi]; simp
        · intro i hi
          simp only [List.count_append]
          rw [h5 i hi]
          by_cases e : i = p
          · subst e; simp [hs]
          · simp [upd, e, Ne.symm e]
      · simp only [Option.some.injEq] at h
        subst h
        exact ⟨h1, hset, h3, h4, h5⟩
    · cases h
  | closeFinish j =>
    simp only [Sock.step] at h
    split at h
    · simp only [Option.some.injEq] at h
      subst h
      refine ⟨by simp, ?_, ?_, ?_, ?_⟩
      · intro c hc
        exact h2 c (List.mem_of_mem_eraseIdx hc)
      · intro i hi
        obtain ⟨a1, a2, a3⟩ := h3 i hi
        exact ⟨a1, by simpa using a2, by simpa using a3⟩
      · intro i hi
        simp only [List.count_append]; rw [h4 i hi]; simp
      · intro i hi
        simp only [List.count_append]; rw [h5 i hi]; simp
    · cases h

/-- **C30, at most once.**  Whatever the interleaving of connections and of any number of overlapping `Close`
calls, no peer is reported closed twice, and none is reported closed that was not reported connected. -/
theorem C30_closed_at_most_once (acts : List SockAct) (s : Sock) (h : run Sock.step Sock.init acts = some s)
    (i : Nat) :
    s.log.count (.closed i) ≤ 1 ∧ (SockEv.closed i ∈ s.log → s.log.count (.connected i) = 1) := by
  have I : SockInv s := run_inv sockInv_step acts _ _ sockInv_init h
  by_cases hi : i < s.made
  · refine ⟨?_, fun _ => I.conn i hi⟩
    rw [I.closed i hi]; split <;> simp
  · have := (I.fresh i (by omega)).2.1
    exact ⟨by rw [List.count_eq_zero_of_not_mem this]; simp, fun h => absurd h this⟩

/-- What holds while no connection is made during a `Close`. -/
private def Covered (s : Sock) : Prop :=
  (∀ i, i < s.made → s.sink i = true → i ∈ s.peers) ∧
  (∀ c ∈ s.closers, ∀ i ∈ s.peers, s.sink i = true → i ∈ c)

private theorem covered_step (s : Sock) (a : SockAct) (t : Sock) (ok : a = .connect → s.closers = [])
    (I : Covered s) (h : s.step a = some t) : Covered t := by
  obtain ⟨h1, h2⟩ := I
  cases a with
  | connect =>
    have hc := ok rfl
    simp only [Sock.step, Option.some.injEq] at h
    subst h
    refine ⟨?_, by simp [hc]⟩
    intro i hi hs
    have hi' : i < s.made + 1 := hi
    simp only [List.mem_append, List.mem_singleton]
    by_cases e : i = s.made
    · exact Or.inr e
    · simp only at hs
      rw [upd_other _ _ e] at hs
      exact Or.inl (h1 i (by omega) hs)
  | closeStart =>
    simp only [Sock.step, Option.some.injEq] at h
    subst h
    refine ⟨h1, ?_⟩
    intro c hc i hi hs
    simp only [List.mem_append, List.mem_singleton] at hc
    rcases hc with hc | rfl
    · exact h2 c hc i hi hs
    · exact hi
  | closeNext j =>
    simp only [Sock.step] at h
    split at h
    · rename_i p rest hj
      have hmem : (p :: rest) ∈ s.closers := List.mem_of_getElem? hj
      split at h
      · simp only [Option.some.injEq] at h
        subst h
        refine ⟨?_, ?_⟩
        · intro i hi hs
          by_cases e : i = p
          · subst e; simp at hs
          · simp only at hs; rw [upd_other _ _ e] at hs; exact h1 i hi hs
        · intro c hc i hi hs
          by_cases e : i = p
          · subst e; simp at hs
          · simp only at hs
            rw [upd_other _ _ e] at hs
            rcases List.mem_or_eq_of_mem_set hc with hc | rfl
            · exact h2 c hc i hi hs
            · have := h2 _ hmem i hi hs
              simpa [e] using this
      · rename_i hp
        simp only [Option.some.injEq] at h
        subst h
        refine ⟨h1, ?_⟩
        intro c hc i hi hs
        rcases List.mem_or_eq_of_mem_set hc with hc | rfl
        · exact h2 c hc i hi hs
        · have := h2 _ hmem i hi hs
          have e : i ≠ p := by rintro rfl; exact hp hs
          simpa [e] using this
    · cases h
  | closeFinish j =>
    simp only [Sock.step] at h
    split at h
    · rename_i hj
      have hmem : ([] : List Nat) ∈ s.closers := List.mem_of_getElem? hj
      simp only [Option.some.injEq] at h
      subst h
      refine ⟨?_, by simp⟩
      intro i hi hs
      have := h2 _ hmem i (h1 i hi hs) hs
      simp at this
    · cases h

/-- No connection is made while a `Close` call is in progress. -/
def QuietCloses (acts : List SockAct) : Prop :=
  ∀ pre post t, acts = pre ++ .connect :: post → run Sock.step Sock.init pre = some t → t.closers = []

private theorem covered_run (acts : List SockAct) (s : Sock) (q : QuietCloses acts)
    (h : run Sock.step Sock.init acts = some s) : Covered s := by
  induction acts using List.reverseRecOn generalizing s with
  | nil => cases h; constructor <;> simp [Sock.init]
  | append_singleton as a ih =>
    rw [run_append] at h
    cases e : run Sock.step Sock.init as with
    | none => simp [e] at h
    | some t =>
      simp only [e, Option.bind_some, run] at h
      split at h
      · cases h
      · rename_i u hu
        cases h
        refine covered_step t a _ ?_ (ih t ?_ e) hu
        · rintro rfl; exact q as [] t rfl e
        · intro pre post t' h1 h2
          exact q pre (post ++ [a]) t' (by simp [h1]) h2

/-- **C30.**  When a `Close` returns, every peer the socket ever had has been reported closed exactly once; the
`Close` calls may overlap each other, but connections are not made during one (see `C30_accept_race`).  The
bound of one holds for the rest of the execution, so later calls do not report again. -/
theorem C30_closed_exactly_once (acts more : List SockAct) (j : Nat) (s t : Sock)
    (quiet : QuietCloses (acts ++ [.closeFinish j]))
    (hs : run Sock.step Sock.init (acts ++ [.closeFinish j]) = some s)
    (ht : run Sock.step s more = some t) (i : Nat) (hi : SockEv.connected i ∈ s.log) :
    s.log.count (.closed i) = 1 ∧ t.log.count (.closed i) = 1 := by
  have I : SockInv s := run_inv sockInv_step _ _ _ sockInv_init hs
  have hm : i < s.made := by
    by_contra hc
    exact (I.fresh i (by omega)).2.2 hi
  have C := covered_run _ _ quiet hs
  have hp : s.peers = [] := by
    rw [run_append] at hs
    cases e : run Sock.step Sock.init acts with
    | none => simp [e] at hs
    | some u =>
      simp only [e, Option.bind_some, run, Sock.step] at hs
      split at hs
      · cases hs
      · rename_i v hv
        split at hv
        · cases hv; cases hs; rfl
        · cases hv
  have hsink : s.sink i = false := by
    by_contra hc
    have := C.1 i hm (by simpa using hc)
    simp [hp] at this
  have h1 : s.log.count (.closed i) = 1 := by rw [I.closed i hm]; simp [hsink]
  refine ⟨h1, ?_⟩
  have J : SockInv t ∧ (i < t.made ∧ t.sink i = false) := by
    refine run_inv (I := fun t => SockInv t ∧ (i < t.made ∧ t.sink i = false)) ?_ more _ _ ⟨I, hm, hsink⟩ ht
    rintro a act b ⟨Ia, ha, hb⟩ hstep
    refine ⟨sockInv_step a act b Ia hstep, ?_⟩
    cases act <;> simp only [Sock.step] at hstep
    · cases hstep
      exact ⟨Nat.lt_succ_of_lt ha, by simp only; rw [upd_other _ _ (by omega)]; exact hb⟩
    · cases hstep; exact ⟨ha, hb⟩
    · split at hstep
      · split at hstep
        · cases hstep
          refine ⟨ha, ?_⟩
          simp only [upd]; split
          · rfl
          · exact hb
        · cases hstep; exact ⟨ha, hb⟩
      · cases hstep
    · split at hstep
      · cases hstep; exact ⟨ha, hb⟩
      · cases hstep
  rw [J.1.closed i J.2.1]; simp [J.2.2]

/-- Two peers, two overlapping `Close` calls. -/
example : ((run Sock.step Sock.init [.connect, .connect, .closeStart, .closeStart, .closeNext 0, .closeNext 1,
    .closeNext 1, .closeFinish 1]).map (·.log)) =
      some [.connected 0, .connected 1, .closed 0, .closed 1, .closeReturned] := by
  rfl

/-- **C30 needs the restriction.**  A connection accepted while `Close` walks over the peers is dropped from
`s.peers` by the assignment of nil and is not reported closed in any continuation. -/
theorem C30_accept_race :
    ∃ acts s, run Sock.step Sock.init acts = some s ∧ SockEv.connected 1 ∈ s.log ∧
      s.log.getLast? = some .closeReturned ∧
      ∀ more t, run Sock.step s more = some t → SockEv.closed 1 ∉ t.log := by
  refine ⟨[.connect, .closeStart, .connect, .closeNext 0, .closeFinish 0], _, rfl, by decide, rfl, ?_⟩
  intro more t h
  have : (∀ c ∈ t.closers, 1 ∉ c) ∧ 1 ∉ t.peers ∧ 2 ≤ t.made ∧ SockEv.closed 1 ∉ t.log := by
    refine run_inv (I := fun t => (∀ c ∈ t.closers, 1 ∉ c) ∧ 1 ∉ t.peers ∧ 2 ≤ t.made ∧ SockEv.closed 1 ∉ t.log)
      ?_ more _ _ ?_ h
    · rintro a act b ⟨h1, h2, h3, h4⟩ hstep
      cases act <;> simp only [Sock.step] at hstep
      case connect =>
        cases hstep
        refine ⟨h1, ?_, by simp only; omega, by simpa using h4⟩
        simp only [List.mem_append, List.mem_singleton, not_or]
        exact ⟨h2, by omega⟩
      case closeStart =>
        cases hstep
        refine ⟨?_, h2, h3, h4⟩
        intro c hc
        simp only [List.mem_append, List.mem_singleton] at hc
        rcases hc with hc | rfl
        · exact h1 c hc
        · exact h2
      case closeNext j =>
        split at hstep
        · rename_i p rest hj
          have hm := h1 _ (List.mem_of_getElem? hj)
          simp only [List.mem_cons, not_or] at hm
          have hset : ∀ c ∈ a.closers.set j rest, 1 ∉ c := by
            intro c hc
            rcases List.mem_or_eq_of_mem_set hc with hc | rfl
            · exact h1 c hc
            · exact hm.2
          split at hstep
          · cases hstep
            exact ⟨hset, h2, h3, by simp [h4, hm.1]⟩
          · cases hstep; exact ⟨hset, h2, h3, h4⟩
        · cases hstep
      case closeFinish j =>
        split at hstep
        · cases hstep
          exact ⟨fun c hc => h1 c (List.mem_of_mem_eraseIdx hc), by simp, h3, by simpa using h4⟩
        · cases hstep
    · decide
  exact this.2.2.2

/-! ## C31 -/

/-- **C31 refuted.**  In no execution in which the local side does not itself call `close` is `OnClosed` ever
called: not after the remote end has disconnected, and not later. -/
theorem C31_remote_disconnect_refuted (α : Type) :
    (∃ s, run Life.step (Life.init α) [.readError] = some s ∧ s.recv = .stopped) ∧
    ∀ (acts : List (LifeAct α)) (s : Life α), run Life.step (Life.init α) acts = some s →
      LifeAct.closeLock ∉ acts → LifeEv.onClosed ∉ s.log := by
  refine ⟨⟨_, rfl, rfl⟩, ?_⟩
  intro acts s h hn
  have : s.close = .none ∧ LifeEv.onClosed ∉ s.log := by
    refine run_inv_on (I := fun s => s.close = .none ∧ LifeEv.onClosed ∉ s.log)
      (A := fun a => a ≠ LifeAct.closeLock) ?_ acts _ _ ?_ ⟨rfl, by simp [Life.init]⟩ h
    · rintro a act b ha ⟨h1, h2⟩ hstep
      unfold Life.step at hstep
      split at hstep
      · cases hstep
      · split at hstep <;> (try split at hstep) <;> simp_all <;> (subst hstep; simp_all)
    · intro a ha e; exact hn (e ▸ ha)
  exact this.2

/-! ## C32 -/

/-- The number of `OnPacket` calls. -/
def packetCount {α : Type} (log : List (LifeEv α)) : Nat :=
  log.countP (fun e => match e with | .onPacket _ => true | _ => false)

/-- **C32 refuted.**  (1) `close` between the test and the use of the sink makes the receive routine call a method
on nil: the process panics.  (2) A receive routine that has already loaded the sink delivers after `close` has
returned. -/
theorem C32_no_delivery_refuted :
    (∃ acts s, run Life.step (Life.init Nat) acts = some s ∧ s.panicked = true) ∧
    (∃ acts s pre post obj, run Life.step (Life.init Nat) acts = some s ∧
      s.log = pre ++ .closeReturned :: post ∧ LifeEv.onPacket obj ∈ post) := by
  refine ⟨⟨[.object 7, .check, .closeLock, .closeNotify, .closeClear, .load], _, rfl, rfl⟩,
    ⟨[.object 7, .check, .load, .closeLock, .closeNotify, .closeClear, .closeConn, .call], _,
      [.onClosed], [.onPacket 7], 7, rfl, rfl, by simp⟩⟩

/-- **C32, partial.**  Once a `close` has returned, at most one more packet is delivered; and none is, and there
is no crash, unless the receive routine was between the test of the sink and the call.  Missing from the full
property: that case, see `C32_no_delivery_refuted`. -/
theorem C32_no_delivery_partial (α : Type) (acts more : List (LifeAct α)) (s t : Life α)
    (hs : run Life.step (Life.init α) acts = some s) (hc : LifeEv.closeReturned ∈ s.log)
    (ht : run Life.step s more = some t) :
    packetCount t.log ≤ packetCount s.log + 1 ∧
    (s.panicked = false → (∀ o, s.recv ≠ .checked o) → (∀ o, s.recv ≠ .loaded o) →
      packetCount t.log = packetCount s.log ∧ t.panicked = false) := by
  have hsink : s.sink = false := by
    have : (s.close = .cleared ∨ LifeEv.closeReturned ∈ s.log) → s.sink = false := by
      refine run_inv (I := fun s => (s.close = .cleared ∨ LifeEv.closeReturned ∈ s.log) → s.sink = false)
        ?_ acts _ _ (by simp [Life.init]) hs
      intro a act b h1 hstep
      unfold Life.step at hstep
      split at hstep
      · cases hstep
      · split at hstep <;> (try split at hstep) <;> simp_all <;> (subst hstep; simp_all)
    exact this (Or.inr hc)
  constructor
  · have : t.sink = false ∧ (packetCount t.log = packetCount s.log ∨
        (packetCount t.log = packetCount s.log + 1 ∧ ∀ o, t.recv ≠ .checked o ∧ t.recv ≠ .loaded o)) := by
      refine run_inv (I := fun t => t.sink = false ∧ (packetCount t.log = packetCount s.log ∨
        (packetCount t.log = packetCount s.log + 1 ∧ ∀ o, t.recv ≠ .checked o ∧ t.recv ≠ .loaded o)))
        ?_ more _ _ ⟨hsink, Or.inl rfl⟩ ht
      rintro a act b ⟨h1, h2⟩ hstep
      unfold Life.step at hstep
      split at hstep
      · cases hstep
      · split at hstep <;> (try split at hstep) <;> simp_all <;>
          (subst hstep; simp_all [packetCount])
    rcases this.2 with h | h <;> omega
  · intro hp h1 h2
    have : t.sink = false ∧ t.panicked = false ∧ packetCount t.log = packetCount s.log ∧
        ∀ o, t.recv ≠ .checked o ∧ t.recv ≠ .loaded o := by
      refine run_inv (I := fun t => t.sink = false ∧ t.panicked = false ∧ packetCount t.log = packetCount s.log ∧
        ∀ o, t.recv ≠ .checked o ∧ t.recv ≠ .loaded o) ?_ more _ _ ⟨hsink, hp, rfl, fun o => ⟨h1 o, h2 o⟩⟩ ht
      rintro a act b ⟨h1, h2, h3, h4⟩ hstep
      unfold Life.step at hstep
      split at hstep
      · cases hstep
      · split at hstep <;> (try split at hstep) <;> simp_all <;>
          (subst hstep; simp_all [packetCount])
    exact ⟨this.2.2.1, this.2.1⟩

/-- A run meeting the hypotheses: a packet before `close`, and one that arrives after it and is discarded. -/
example : (run Life.step (Life.init Nat) [.object 1, .check, .load, .call, .closeLock, .closeNotify, .closeClear,
    .closeConn, .object 2, .check, .readError]).map (·.log) = some [.onPacket 1, .onClosed, .closeReturned] := by
  rfl

end Verif.Props
