import Verif.Net.Routine
import Verif.Props.Net8

/-! # C135: the goroutines of a connection that is closed -/

namespace Verif.Props

open Verif Verif.Net.Routine

variable {k : Kind} {T : Trace (Peer.step k)}

/-- C135: after `conn.Close` of `close` the receive routine of a connection that follows the documentation of `net.Conn`
ends, and that of every connection does when the other end is closed; provided that the handlers return. -/
theorem C135_receive (F : Fair k T) (n : Nat) (h : (T.st n).lost = true ∨ (k = .lawful ∧ (T.st n).shut = true)) :
    ∃ m, n ≤ m ∧ ∀ j, m ≤ j → (T.st j).receiver = .ended := by
  obtain ⟨m, hm, he⟩ := F.receiver h
  exact ⟨m, hm, T.stays (P := fun s => s.receiver = .ended) (fun _ _ _ hs ht => (keeps ht).2.2.2.2 hs) he⟩

/-- C135: after `conn.Close` the send routine of a connection that follows the documentation of `net.Conn` ends, provided that the nil object of this or an earlier call of `close` has
entered the queue.  What is missing is the same without this condition; see `C135_leak_refuted`. -/
theorem C135_send_partial {T : Trace (Peer.step .lawful)} (F : Fair .lawful T) (n i : Nat) (h : (T.st n).shut = true) (hi : T.act i = some .nil) :
    ∃ m, ∀ j, m ≤ j → (T.st j).sender = .ended := by
  have ht := T.some_step hi
  have htold : (T.st (i + 1)).told = true := by
    simp only [Peer.step] at ht
    split at ht
    · rw [← Option.some.inj ht]
    · cases ht
  have htold := T.stays (P := fun s => s.told = true) (fun _ _ _ hs ht => (keeps ht).2.2.1 hs) htold
    (max n (i + 1)) (by omega)
  have hshut := T.stays (P := fun s => s.shut = true) (fun _ _ _ hs ht => (keeps ht).1 hs) h (max n (i + 1)) (by omega)
  have hend : ∃ m, (T.st m).sender = .ended := by
    rcases F.told _ htold with he | hm
    · exact ⟨_, he⟩
    · obtain ⟨m, _, he⟩ := F.sender rfl hshut (.inr (fun e => by rw [e] at hm; cases hm))
      exact ⟨m, he⟩
  obtain ⟨m, he⟩ := hend
  exact ⟨m, T.stays (P := fun s => s.sender = .ended) (fun _ _ _ hs ht => (keeps ht).2.2.2.1 hs) he⟩

/-- C135, exactly when the send routine remains: it is waiting at an empty queue when `conn.Close` is called, and nothing
ever enters the queue again. -/
theorem C135_send_exact {T : Trace (Peer.step .lawful)} (F : Fair .lawful T) (n : Nat) (h : (T.st n).shut = true) :
    (∀ m, (T.st m).sender ≠ .ended) ↔ ∀ m, n ≤ m → (T.st m).sender = .waiting ∧ (T.st m).queue = [] := by
  constructor
  · intro hno m hm
    have hshut := T.stays (P := fun s => s.shut = true) (fun _ _ _ hs ht => (keeps ht).1 hs) h m hm
    constructor
    · cases e : (T.st m).sender with
      | waiting => rfl
      | writing => obtain ⟨j, _, hj⟩ := F.sender rfl hshut (.inl e); exact absurd hj (hno j)
      | ended => exact absurd e (hno m)
    · refine Classical.byContradiction fun e => ?_
      obtain ⟨j, _, hj⟩ := F.sender rfl hshut (.inr e)
      exact absurd hj (hno j)
  · intro hall m he
    have := T.stays (P := fun s => s.sender = .ended) (fun _ _ _ hs ht => (keeps ht).2.2.2.1 hs) he (max n m) (by omega)
    rw [(hall (max n m) (by omega)).1] at this
    cases this

/-! ## A fair execution -/

/-- An object is sent and written, bytes are read, and the connection is closed. -/
def closingActs : List Act :=
  [.check, .push, .read, .take, .wrote, .handled, .check, .close, .nil, .push, .read, .shut, .handled, .unread, .take]

private theorem runs_take {σ α : Type} {step : σ → α → Option σ} {s : σ} {as : List α} (h : run step s as ≠ none) (n : Nat) :
    run step s (as.take n) ≠ none := by
  intro hn
  rw [← List.take_append_drop n as, run_append, hn] at h
  exact h rfl

/-- It is the beginning of a fair execution, in which both routines end. -/
theorem closing_fair : ∃ T : Trace (Peer.step .lawful), Fair .lawful T ∧ T.act 8 = some .nil ∧ (T.st 12).shut = true ∧
    (T.st 12).receiver = .handling ∧ (T.st 12).sender = .waiting ∧
    (T.st 15).receiver = .ended ∧ (T.st 15).sender = .ended ∧ (T.st 15).queue = [false] := by
  let T := restTrace (Peer.step .lawful) .init closingActs (runs_take (by decide))
  have rest : ∀ n, 15 ≤ n → T.st n = (run (Peer.step .lawful) .init closingActs).getD .init := by
    intro n hn
    show (run _ _ (closingActs.take n)).getD _ = _
    rw [List.take_of_length_le (show closingActs.length ≤ n from hn)]
  refine ⟨T, ⟨rfl, ?_⟩, rfl, rfl, rfl, rfl, rfl, rfl, rfl⟩
  intro K hK n h
  obtain ⟨a, h1, h2⟩ := h (max n 15) (by omega)
  rw [rest _ (by omega)] at h1 h2
  rcases hK with rfl | rfl
  · rcases h1 with rfl | ⟨rfl, _, _⟩ <;> exact absurd (by decide) h2
  · rcases h1 with rfl | rfl <;> exact absurd (by decide) h2

example : ∃ T : Trace (Peer.step .lawful), Fair .lawful T ∧ (∃ m, 12 ≤ m ∧ ∀ j, m ≤ j → (T.st j).receiver = .ended) ∧
    ∃ m, ∀ j, m ≤ j → (T.st j).sender = .ended := by
  obtain ⟨T, F, h1, h2, _⟩ := closing_fair
  exact ⟨T, F, C135_receive F 12 (.inr ⟨rfl, h2⟩), C135_send_partial F 12 8 h2 h1⟩

/-! ## What goes wrong -/

/-- A send routine that waits at an empty queue goes on waiting until somebody calls `Send` or `close`. -/
private theorem idle {s t : Peer} {as : List Act} (h1 : s.sender = .waiting) (h2 : s.queue = []) (h3 : s.pending = 0)
    (h4 : s.closer ≠ .sending) (hc : .check ∉ as) (hl : .close ∉ as) (h : run (Peer.step k) s as = some t) :
    t.sender = .waiting := by
  induction as generalizing s with
  | nil => cases h; exact h1
  | cons a as ih =>
    simp only [run] at h
    cases e : s.step k a with
    | none => rw [e] at h; cases h
    | some u =>
      rw [e] at h
      have hne1 : a ≠ .check := fun h => hc (by rw [h]; exact List.mem_cons_self)
      have hne2 : a ≠ .close := fun h => hl (by rw [h]; exact List.mem_cons_self)
      have : u.sender = .waiting ∧ u.queue = [] ∧ u.pending = 0 ∧ u.closer ≠ .sending := by
        cases a <;> simp only [Peer.step] at e <;> repeat' split at e
        all_goals first | (cases e; done) | (cases e; simp_all)
      exact ih this.1 this.2.1 this.2.2.1 this.2.2.2 (fun h => hc (List.mem_cons_of_mem _ h))
        (fun h => hl (List.mem_cons_of_mem _ h)) h

/-- Twenty objects fill the queue; `close` discards its nil; the objects are written before `conn.Close`. -/
def leakActs : List Act :=
  (List.replicate 20 [Act.check, .push]).flatten ++ [.close] ++ (List.replicate 20 [Act.take, .wrote]).flatten ++ [.shut, .unread]

/-- C135 refuted for the send routine: `close` has returned and the receive routine has ended, but the send routine waits
for ever, unless somebody sends to the closed connection. -/
theorem C135_leak_refuted : ∃ s, run (Peer.step .lawful) .init leakActs = some s ∧ s.closer = .returned ∧ s.shut = true ∧
    s.receiver = .ended ∧
    ∀ as t, .check ∉ as → .close ∉ as → run (Peer.step .lawful) s as = some t → t.sender = .waiting := by
  refine ⟨⟨[], 0, .waiting, .ended, .returned, true, false, false⟩, by decide, rfl, rfl, rfl, ?_⟩
  intro as t h1 h2 h
  exact idle rfl rfl rfl (by decide) h1 h2 h

/-- C135 refuted for connections that the other end closes: the receive routine ends, and nothing else happens; the send
routine and the connection remain. -/
theorem C135_other_end_refuted : ∃ s, run (Peer.step k) .init [.lose, .unread] = some s ∧ s.receiver = .ended ∧
    ∀ as t, .check ∉ as → .close ∉ as → run (Peer.step k) s as = some t → t.sender = .waiting ∧ t.shut = false := by
  refine ⟨⟨[], 0, .waiting, .ended, .idle, false, true, false⟩, by cases k <;> decide, rfl, ?_⟩
  intro as t h1 h2 h
  refine ⟨idle rfl rfl rfl (by decide) h1 h2 h, ?_⟩
  have : (t.closer = .idle ∧ t.shut = false) :=
    run_inv_on (step := Peer.step k) (I := fun s => s.closer = .idle ∧ s.shut = false)
      (A := fun a => a ≠ .close) (by
        intro s a t ha hI hs
        cases a <;> simp only [Peer.step] at hs <;> repeat' split at hs
        all_goals first | (cases hs; done) | (cases hs; simp_all)) as _ t (fun a ha e => h2 (e ▸ ha)) ⟨rfl, rfl⟩ h
  exact this.2

/-- A write fails, which ends the send routine; nineteen further objects enter the queue, and a twentieth between the two
lines of `Send(nil)`. -/
def stuckCloseActs : List Act :=
  [.check, .push, .take, .lose, .unwritten, .unread] ++ (List.replicate 19 [Act.check, .push]).flatten ++ [.check, .close, .push]

/-- C135 refuted for `close` itself: it never returns, and `conn.Close` is never called, whatever happens. -/
theorem C135_blocked_refuted : ∃ s, run (Peer.step .lawful) .init stuckCloseActs = some s ∧
    ∀ as t, run (Peer.step .lawful) s as = some t → t.closer = .sending ∧ t.shut = false := by
  refine ⟨⟨List.replicate 20 false, 0, .ended, .ended, .sending, false, true, false⟩, by decide, ?_⟩
  intro as t h
  have : (t.closer = .sending ∧ t.shut = false ∧ t.sender = .ended ∧ t.queue.length = 20) :=
    run_inv_on (step := Peer.step .lawful)
      (I := fun s => s.closer = .sending ∧ s.shut = false ∧ s.sender = .ended ∧ s.queue.length = 20)
      (A := fun _ => True) (by
        intro s a t _ hI hs
        cases a <;> simp only [Peer.step] at hs <;> repeat' split at hs
        all_goals first | (cases hs; done) | (cases hs; simp_all)) as _ t (fun _ _ => trivial) ⟨rfl, rfl, rfl, by decide⟩ h
  exact ⟨this.1, this.2.1⟩

/-- C135 refuted for the mock: after `close` the receive routine remains until the other end closes the connection. -/
theorem C135_mock_refuted : ∃ s, run (Peer.step .mock) .init [.close, .nil, .take, .shut] = some s ∧
    s.closer = .returned ∧ s.sender = .ended ∧
    ∀ as t, .lose ∉ as → run (Peer.step .mock) s as = some t → t.receiver ≠ .ended := by
  refine ⟨⟨[], 0, .ended, .reading, .returned, true, false, true⟩, by decide, rfl, rfl, ?_⟩
  intro as t h1 h
  have : (t.lost = false ∧ t.receiver ≠ .ended) :=
    run_inv_on (step := Peer.step .mock) (I := fun s => s.lost = false ∧ s.receiver ≠ .ended)
      (A := fun a => a ≠ .lose) (by
        intro s a t ha hI hs
        cases a <;> simp only [Peer.step] at hs <;> repeat' split at hs
        all_goals first | (cases hs; done) | (cases hs; simp_all)) as _ t (fun a ha e => h1 (e ▸ ha)) ⟨rfl, by decide⟩ h
  exact this.2

end Verif.Props
