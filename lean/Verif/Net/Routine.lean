import Verif.Fair

/-!
# The two routines of a peer and `close`, /repo/network/peer.go:54-115

What keeps the goroutines of a connection alive and what ends them.  Objects are only distinguished by being nil or not,
and the contents of the stream play no role.
-/

namespace Verif.Net.Routine

open Verif

/-- The connection: one that follows the documentation of `net.Conn`, where `Close` makes blocked reads and writes return
with an error, or one of the mock, /repo/network/mock.go:151-173, where it does so for the reads of the other end only; its
writes that have begun go on waiting for room, later ones fail.  That a write in between crashes the process is the subject
of `Verif.Net.Pair`. -/
inductive Kind where
  | lawful
  | mock
  deriving DecidableEq

/-- The send routine, /repo/network/peer.go:64-77. -/
inductive Sender where
  /-- at line 66 -/
  | waiting
  /-- in `conn.Write`, line 72 -/
  | writing
  /-- it has returned -/
  | ended
  deriving DecidableEq

/-- The receive routine, /repo/network/peer.go:80-100. -/
inductive Receiver where
  /-- in `conn.Read`, line 82 -/
  | reading
  /-- in lines 88-98 -/
  | handling
  /-- it has returned -/
  | ended
  deriving DecidableEq

/-- A call of `close`, /repo/network/peer.go:103-115; the mutex admits one at a time. -/
inductive Closer where
  | idle
  /-- in `Send(nil)`, between lines 55 and 59 -/
  | sending
  /-- behind `Send(nil)` -/
  | sent
  /-- it has returned -/
  | returned
  deriving DecidableEq

/-- A peer, /repo/network/peer.go:31-40; `true` stands for the nil object. -/
structure Peer where
  /-- `sendPackets` -/
  queue : List Bool
  /-- the number of goroutines in `Send` of an object, between lines 55 and 59 -/
  pending : Nat
  sender : Sender
  receiver : Receiver
  closer : Closer
  /-- `conn.Close` has been called, line 114 -/
  shut : Bool
  /-- the other end is closed or the connection broken, and all that arrived before has been read -/
  lost : Bool
  /-- history: a nil object has entered the queue -/
  told : Bool
  deriving DecidableEq

/-- `newPeer` and `run`, /repo/network/peer.go:18-29, 62-100. -/
def Peer.init : Peer := ⟨[], 0, .waiting, .reading, .idle, false, false, false⟩

/-- The steps, /repo/network/peer.go:54-115. -/
inductive Act where
  /-- `Send` of an object, line 55 -/
  | check
  /-- line 59 -/
  | push
  /-- line 66 and 67 -/
  | take
  /-- `conn.Write` succeeds -/
  | wrote
  /-- `conn.Write` fails, line 73 -/
  | unwritten
  /-- `conn.Read` succeeds -/
  | read
  /-- `conn.Read` fails, line 83 -/
  | unread
  /-- lines 88-98 are done -/
  | handled
  /-- `close` is called; line 55 of its `Send(nil)` -/
  | close
  /-- line 59 of its `Send(nil)` -/
  | nil
  /-- `conn.Close`, line 114 -/
  | shut
  /-- the other end is closed, or the connection breaks -/
  | lose
  deriving DecidableEq

/-- One step.  /repo/network/peer.go:54-115; the capacity 20 of the channel, line 14.  On lawful connections writes and
reads fail after the own `conn.Close`; reads fail on all connections, and writes may fail on lawful ones, when the
connection is lost. -/
def Peer.step (k : Kind) (s : Peer) : Act → Option Peer
  | .check => if s.queue.length = 20 then some s else some { s with pending := s.pending + 1 }
  | .push =>
    if 0 < s.pending ∧ s.queue.length < 20 then some { s with pending := s.pending - 1, queue := s.queue ++ [false] } else none
  | .take =>
    match s.sender, s.queue with
    | .waiting, true :: rest => some { s with queue := rest, sender := .ended }
    | .waiting, false :: rest => some { s with queue := rest, sender := .writing }
    | _, _ => none
  | .wrote => if s.sender = .writing ∧ (k = .mock ∨ s.shut = false) then some { s with sender := .waiting } else none
  | .unwritten =>
    if s.sender = .writing ∧ (s.shut ∨ (k = .lawful ∧ s.lost)) then some { s with sender := .ended } else none
  | .read =>
    if s.receiver = .reading ∧ s.lost = false ∧ (k = .mock ∨ s.shut = false) then some { s with receiver := .handling } else none
  | .unread =>
    if s.receiver = .reading ∧ (s.lost ∨ (k = .lawful ∧ s.shut)) then some { s with receiver := .ended } else none
  | .handled => if s.receiver = .handling then some { s with receiver := .reading } else none
  | .close =>
    if s.closer = .idle ∨ s.closer = .returned then
      some { s with closer := if s.queue.length = 20 then .sent else .sending } else none
  | .nil =>
    if s.closer = .sending ∧ s.queue.length < 20 then
      some { s with closer := .sent, queue := s.queue ++ [true], told := true } else none
  | .shut => if s.closer = .sent then some { s with closer := .returned, shut := true } else none
  | .lose => some { s with lost := true }

/-! ## Fairness -/

/-- The receive of line 66 and the result of a write to a lawful connection that is closed.  /repo/network/peer.go:66-75. -/
def Sends (k : Kind) (s : Peer) (a : Act) : Prop := a = .take ∨ (a = .unwritten ∧ s.shut = true ∧ k = .lawful)

/-- The result of a read that cannot succeed, and the end of the handling of packets.  /repo/network/peer.go:82-98. -/
def Receives (_ : Peer) (a : Act) : Prop := a = .unread ∨ a = .handled

/-- An execution of a peer in which both routines go on if they can.  /repo/network/peer.go:62-100. -/
structure Fair (k : Kind) (T : Trace (Peer.step k)) : Prop where
  init : T.st 0 = .init
  weak : T.WeaklyFair fun K => K = Sends k ∨ K = Receives

/-! ## Steps -/

/-- What no step undoes. -/
theorem keeps {k : Kind} {s t : Peer} {a : Act} (h : s.step k a = some t) :
    (s.shut = true → t.shut = true) ∧ (s.lost = true → t.lost = true) ∧ (s.told = true → t.told = true) ∧
      (s.sender = .ended → t.sender = .ended) ∧ (s.receiver = .ended → t.receiver = .ended) := by
  cases a <;> simp only [Peer.step] at h <;> repeat' split at h
  all_goals first | (cases h; done) | (cases h; simp_all)

/-- A nil object that has entered the queue is still there, unless the send routine has ended. -/
def Told (s : Peer) : Prop := s.told = true → s.sender = .ended ∨ true ∈ s.queue

theorem told_step {k : Kind} {s t : Peer} {a : Act} (I : Told s) (h : s.step k a = some t) : Told t := by
  unfold Told at *
  cases a <;> simp only [Peer.step] at h <;> repeat' split at h
  all_goals first | (cases h; done) | (cases h; simp_all)

section
variable {k : Kind} {T : Trace (Peer.step k)}

theorem Fair.told (F : Fair k T) (n : Nat) : Told (T.st n) :=
  T.stays (P := Told) (fun _ _ _ => told_step) (n := 0) (by rw [F.init]; intro h; cases h) n (Nat.zero_le _)

/-- The receive routine ends when its reads cannot succeed any more. -/
theorem Fair.receiver (F : Fair k T) {n : Nat} (h : (T.st n).lost = true ∨ (k = .lawful ∧ (T.st n).shut = true)) :
    ∃ m, n ≤ m ∧ (T.st m).receiver = .ended := by
  -- once it is reading it ends
  have hshut : ∀ m, n ≤ m → ((T.st m).lost = true ∨ (k = .lawful ∧ (T.st m).shut = true)) :=
    T.stays (P := fun s => s.lost = true ∨ (k = .lawful ∧ s.shut = true))
      (fun s a t hs ht => hs.imp (keeps ht).2.1 fun h => ⟨h.1, (keeps ht).1 h.2⟩) h
  have step1 : ∀ n', n ≤ n' → (T.st n').receiver = .reading → ∃ m, n' ≤ m ∧ (T.st m).receiver = .ended := by
    intro n' hn' hr
    obtain ⟨m, a, hm, hp, ha, hk⟩ := F.weak.taken (K := Receives) (.inr rfl)
      (P := fun m => (T.st m).receiver = .reading) hr
      (fun m hm hp => ⟨.unread, .inl rfl, by
        have := hshut m (by omega)
        simp only [Peer.step]
        rw [if_pos ⟨hp, this⟩]
        simp⟩)
      (fun m hm hp hno => by
        have hs := hshut m (by omega)
        cases e : T.act m with
        | none => rw [T.none_step e]; exact hp
        | some a =>
          have ht := T.some_step e
          have hna := hno a e
          cases a <;> simp only [Peer.step] at ht <;> repeat' split at ht
          all_goals first
            | (cases ht; done)
            | (exact absurd (Or.inl rfl) hna)
            | (exact absurd (Or.inr rfl) hna)
            | skip
          all_goals first
            | (have ht := Option.some.inj ht; rw [← ht]; exact hp)
            | (rename_i hc; rcases hs with hs | ⟨hk, hs⟩
               · rw [hs] at hc; cases hc.2.1
               · rcases hc.2.2 with h | h
                 · rw [hk] at h; cases h
                 · rw [hs] at h; cases h))
    refine ⟨m + 1, by omega, ?_⟩
    have ht := T.some_step ha
    rcases hk with rfl | rfl
    · simp only [Peer.step] at ht
      split at ht
      · rw [← Option.some.inj ht]
      · cases ht
    · simp only [Peer.step, hp] at ht
      cases ht
  cases hr : (T.st n).receiver with
  | ended => exact ⟨n, Nat.le_refl _, hr⟩
  | reading => exact step1 n (Nat.le_refl _) hr
  | handling =>
    obtain ⟨m, a, hm, hp, ha, hk⟩ := F.weak.taken (K := Receives) (.inr rfl)
      (P := fun m => (T.st m).receiver = .handling) hr
      (fun m hm hp => ⟨.handled, .inr rfl, by simp [Peer.step, hp]⟩)
      (fun m hm hp hno => by
        cases e : T.act m with
        | none => rw [T.none_step e]; exact hp
        | some a =>
          have ht := T.some_step e
          have hna := hno a e
          cases a <;> simp only [Peer.step] at ht <;> repeat' split at ht
          all_goals first
            | (cases ht; done)
            | (exact absurd (Or.inl rfl) hna)
            | (exact absurd (Or.inr rfl) hna)
            | (have ht := Option.some.inj ht; rw [← ht]; exact hp)
            | (rename_i hc; rw [hp] at hc; cases hc.1))
    have ht := T.some_step ha
    have hr' : (T.st (m + 1)).receiver = .reading := by
      rcases hk with rfl | rfl
      · simp [Peer.step, hp] at ht
      · simp only [Peer.step, hp, if_true] at ht
        rw [← Option.some.inj ht]
    obtain ⟨m', h1, h2⟩ := step1 (m + 1) (by omega) hr'
    exact ⟨m', by omega, h2⟩

/-- The send routine of a lawful connection ends if something is in the queue, or being written, when the connection is closed. -/
theorem Fair.sender (F : Fair k T) (hl : k = .lawful) {n : Nat} (hs : (T.st n).shut = true)
    (h : (T.st n).sender = .writing ∨ (T.st n).queue ≠ []) : ∃ m, n ≤ m ∧ (T.st m).sender = .ended := by
  have hshut : ∀ m, n ≤ m → (T.st m).shut = true :=
    T.stays (P := fun s => s.shut = true) (fun s a t hs ht => (keeps ht).1 hs) hs
  have step1 : ∀ n', n ≤ n' → (T.st n').sender = .writing → ∃ m, n' ≤ m ∧ (T.st m).sender = .ended := by
    intro n' hn' hr
    obtain ⟨m, a, hm, hp, ha, hk⟩ := F.weak.taken (K := Sends k) (.inl rfl)
      (P := fun m => (T.st m).sender = .writing) hr
      (fun m hm hp => ⟨.unwritten, .inr ⟨rfl, hshut m (by omega), hl⟩, by
        simp [Peer.step, hp, hshut m (by omega)]⟩)
      (fun m hm hp hno => by
        have hs := hshut m (by omega)
        cases e : T.act m with
        | none => rw [T.none_step e]; exact hp
        | some a =>
          have ht := T.some_step e
          have hna := hno a e
          cases a <;> simp only [Peer.step] at ht <;> repeat' split at ht
          all_goals first
            | (cases ht; done)
            | (exact absurd (Or.inr ⟨rfl, hs, hl⟩) hna)
            | (have ht := Option.some.inj ht; rw [← ht]; exact hp)
            | (rename_i hc; rcases hc.2 with h | h
               · rw [hl] at h; cases h
               · rw [hs] at h; cases h)
            | (rename_i hc _; rw [hp] at hc; cases hc))
    refine ⟨m + 1, by omega, ?_⟩
    have ht := T.some_step ha
    rcases hk with rfl | ⟨rfl, hs, _⟩
    · simp only [Peer.step, hp] at ht
      cases ht
    · simp only [Peer.step] at ht
      split at ht
      · rw [← Option.some.inj ht]
      · cases ht
  rcases h with h | h
  · exact step1 n (Nat.le_refl _) h
  · by_cases hw : (T.st n).sender = .writing
    · exact step1 n (Nat.le_refl _) hw
    by_cases hd : (T.st n).sender = .ended
    · exact ⟨n, Nat.le_refl _, hd⟩
    have hwait : (T.st n).sender = .waiting := by
      cases e : (T.st n).sender with
      | waiting => rfl
      | writing => exact absurd e hw
      | ended => exact absurd e hd
    obtain ⟨m, a, hm, hp, ha, hk⟩ := F.weak.taken (K := Sends k) (.inl rfl)
      (P := fun m => (T.st m).sender = .waiting ∧ (T.st m).queue ≠ []) ⟨hwait, h⟩
      (fun m hm hp => ⟨.take, .inl rfl, by
        simp only [Peer.step, hp.1]
        cases e : (T.st m).queue with
        | nil => exact absurd e hp.2
        | cons x rest => cases x <;> simp⟩)
      (fun m hm hp hno => by
        cases e : T.act m with
        | none => rw [T.none_step e]; exact hp
        | some a =>
          have ht := T.some_step e
          have hna := hno a e
          cases a <;> simp only [Peer.step] at ht <;> repeat' split at ht
          all_goals first
            | (cases ht; done)
            | (exact absurd (Or.inl rfl) hna)
            | (have ht := Option.some.inj ht; rw [← ht]; exact ⟨hp.1, by simp [hp.2]⟩)
            | (rename_i hc; rw [hp.1] at hc; cases hc.1))
    have ht := T.some_step ha
    rcases hk with rfl | ⟨rfl, _, _⟩
    · simp only [Peer.step, hp.1] at ht
      split at ht
      · exact ⟨m + 1, by omega, by rw [← Option.some.inj ht]⟩
      · obtain ⟨m', h1, h2⟩ := step1 (m + 1) (by omega) (by rw [← Option.some.inj ht])
        exact ⟨m', by omega, h2⟩
      · cases ht
    · simp [Peer.step, hp.1] at ht

end

end Verif.Net.Routine
