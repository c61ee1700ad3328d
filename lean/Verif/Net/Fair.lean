import Verif.Net.Peer
import Verif.Fair
import Mathlib.Data.List.Perm.Basic

/-!
# A connection in fair executions

Lemmas about /repo/network/peer.go:54-100: while nobody closes the connection and no write fails, every object that `Send`
does not discard is handed to `OnPacket` at the other end.
-/

namespace Verif.Net

open Verif

section
variable {α : Type} {S : Serializer α}

/-- The serializer is faithful on the objects `good`: their bytes are frames that carry `recv` of them.  `Marshal`, `Slice`
and `Unmarshal` as used in /repo/network/peer.go:71-94. -/
structure Faithful (S : Serializer α) (good : α → Prop) (recv : α → α) (enc : α → List Byte) : Prop where
  empty : S.slice [] = 0
  marshal : ∀ o, good o → S.marshal o = .ok (enc o)
  frame : ∀ o, good o → Frame S (enc o) (recv o)

/-- No close, no failing write, and only good objects are sent.  /repo/network/peer.go:54-77, 102-115. -/
def Calm (good : α → Prop) (a : Act α) : Prop :=
  (∀ obj, a = .check obj → ∃ o, obj = some o ∧ good o) ∧ ∀ k, a ≠ .transmit (some k)

/-- What holds as long as nobody closes the connection and no write fails. -/
structure Live (good : α → Prop) (recv : α → α) (enc : α → List Byte) (S : Serializer α) (s : Link α) : Prop where
  dead : s.dead = false
  gone : s.gone = false
  sending : s.sending = true
  cap : s.queue.length ≤ 20
  order : s.accepted = s.sent.map some ++ s.queue
  objs : ∀ x ∈ s.accepted ++ s.pending, ∃ o, x = some o ∧ good o
  stream : ∃ ds us, s.sent = ds ++ us ∧ s.delivered = ds.map recv ∧ s.recvBuf ++ s.wire = (us.map enc).flatten ∧
    S.slice s.recvBuf = 0

theorem live_init {good : α → Prop} {recv : α → α} {enc : α → List Byte} (hS : Faithful S good recv enc) :
    Live good recv enc S (Link.init α) := by
  refine ⟨rfl, rfl, rfl, by simp [Link.init], rfl, by simp [Link.init], [], [], rfl, rfl, rfl, hS.empty⟩

theorem frames_map {good : α → Prop} {recv : α → α} {enc : α → List Byte} (hS : Faithful S good recv enc) (us : List α)
    (h : ∀ o ∈ us, good o) : Frames S (us.map enc) (us.map recv) := by
  induction us with
  | nil => exact .nil
  | cons u us ih => exact .cons (hS.frame u (h u List.mem_cons_self)) (ih fun o ho => h o (List.mem_cons_of_mem _ ho))

theorem Live.good_sent {good : α → Prop} {recv : α → α} {enc : α → List Byte} {s : Link α} (I : Live good recv enc S s) :
    ∀ o ∈ s.sent, good o := by
  intro o ho
  obtain ⟨p, h1, h2⟩ := I.objs (some o) (by rw [I.order]; simp [ho])
  cases h1
  exact h2

/-- What a read does: it delivers some of the objects, and keeps the rest. -/
theorem recv_live {good : α → Prop} {recv : α → α} {enc : α → List Byte} (hS : Faithful S good recv enc) {s t : Link α}
    (I : Live good recv enc S s) {n : Nat} (h : s.step S (.recv n) = some t) :
    ∃ ds us k, s.sent = ds ++ us ∧ s.delivered = ds.map recv ∧ k ≤ us.length ∧
      t = { s with wire := s.wire.drop n, recvBuf := t.recvBuf, delivered := s.delivered ++ (us.take k).map recv } ∧
      s.recvBuf ++ s.wire.take n = ((us.take k).map enc).flatten ++ t.recvBuf ∧
      t.recvBuf ++ t.wire = ((us.drop k).map enc).flatten ∧ S.slice t.recvBuf = 0 ∧ 0 < n ∧ n ≤ s.wire.length := by
  obtain ⟨ds, us, h1, h2, h3, h4⟩ := I.stream
  have hg : ∀ o ∈ us, good o := fun o ho => I.good_sent o (by rw [h1]; exact List.mem_append_right _ ho)
  have hf := frames_map hS us hg
  have hx : s.recvBuf ++ s.wire.take n <+: (us.map enc).flatten ++ [] := by
    rw [List.append_nil, ← h3, List.prefix_append_right_inj]
    exact List.take_prefix _ _
  have ht : Tail S ([] : List Byte) := by
    intro p hp; rw [List.prefix_nil.mp hp]; exact hS.empty
  obtain ⟨k, y, k1, k2, k3, _, _⟩ := split_prefix hf [] ht _ hx
  have hlen : ((us.map enc).take k).length ≤ s.recvBuf.length + (s.wire.take n).length := by
    have := (hf.take k).flatten_length
    have e := congrArg List.length k2
    simp only [List.length_append] at e
    omega
  have hrec : recvChunk S s.recvBuf (s.wire.take n) = ((us.map recv).take k, some y) := by
    unfold recvChunk
    rw [k2]
    exact recvLoop_frames (hf.take k) y k3 _ hlen
  simp only [Link.step] at h
  split at h
  · cases h
  rename_i hc
  simp only [not_or] at hc
  rw [hrec] at h
  cases h
  rw [← List.map_take] at k2
  refine ⟨ds, us, k, h1, h2, by simpa using k1, by rw [← List.map_take], k2, ?_, k3, by omega, by omega⟩
  have e : (us.map enc).flatten = ((us.take k).map enc).flatten ++ ((us.drop k).map enc).flatten := by
    rw [← List.flatten_append, ← List.map_append, List.take_append_drop]
  have e2 : s.recvBuf ++ s.wire = (s.recvBuf ++ s.wire.take n) ++ s.wire.drop n := by simp
  rw [e2, k2, e, List.append_assoc] at h3
  exact List.append_cancel_left h3

theorem live_step {good : α → Prop} {recv : α → α} {enc : α → List Byte} (hS : Faithful S good recv enc) {s t : Link α}
    {a : Act α} (hc : Calm good a) (I : Live good recv enc S s) (h : s.step S a = some t) : Live good recv enc S t := by
  cases a with
  | check obj =>
    obtain ⟨o, rfl, ho⟩ := hc.1 obj rfl
    simp only [Link.step] at h
    split at h
    · cases h
    split at h
    · cases h; exact ⟨I.dead, I.gone, I.sending, I.cap, I.order, I.objs, I.stream⟩
    · cases h
      refine ⟨I.dead, I.gone, I.sending, I.cap, I.order, ?_, I.stream⟩
      intro x hx
      simp only [List.mem_append, List.mem_singleton] at hx
      rcases hx with hx | hx | rfl
      · exact I.objs x (by simp [hx])
      · exact I.objs x (by simp [hx])
      · exact ⟨o, rfl, ho⟩
  | push i =>
    simp only [Link.step] at h
    split at h
    · cases h
    rename_i obj hobj
    split at h
    · cases h
    rename_i hq
    simp only [not_or, cSendChanSize] at hq
    cases h
    refine ⟨I.dead, I.gone, I.sending, by simp; omega, ?_, ?_, I.stream⟩
    · simp only; rw [I.order, List.append_assoc]
    · intro x hx
      simp only [List.mem_append, List.mem_singleton] at hx
      rcases hx with (hx | rfl) | hx
      · exact I.objs x (by simp [hx])
      · exact I.objs x (List.mem_append_right _ (List.mem_of_getElem? hobj))
      · exact I.objs x (List.mem_append_right _ (List.mem_of_mem_eraseIdx hx))
  | transmit fail =>
    cases fail with
    | some k => exact absurd rfl (hc.2 k)
    | none =>
      simp only [Link.step] at h
      split at h
      · cases h
      split at h
      · cases h
      · rename_i rest hq
        obtain ⟨o, ho, _⟩ := I.objs none (by rw [I.order, hq]; simp)
        cases ho
      · rename_i obj rest hq
        obtain ⟨o, ho, hgo⟩ := I.objs (some obj) (by rw [I.order, hq]; simp)
        cases ho
        rw [hS.marshal obj hgo] at h
        simp only at h
        cases h
        obtain ⟨ds, us, h1, h2, h3, h4⟩ := I.stream
        have hcap := I.cap
        rw [hq] at hcap
        simp only [List.length_cons] at hcap
        refine ⟨I.dead, I.gone, I.sending, by simp only; omega, ?_, I.objs, ds, us ++ [obj], ?_, h2, ?_, h4⟩
        · simp only; rw [I.order, hq]; simp
        · simp only; rw [h1, List.append_assoc]
        · simp only; rw [← List.append_assoc, h3]; simp
  | recv n =>
    obtain ⟨ds, us, k, h1, h2, h3, h4, h5, h6, h7, h8, h9⟩ := recv_live hS I h
    rw [h4]
    refine ⟨I.dead, I.gone, I.sending, I.cap, I.order, I.objs, ds ++ us.take k, us.drop k, ?_, ?_, ?_, h7⟩
    · simp only; rw [h1, List.append_assoc, List.take_append_drop]
    · simp only; rw [h2, List.map_append]
    · rw [h4] at h6; exact h6

/-! ## What steps do to the lists -/

/-- The objects of a connection only get further. -/
structure Grows (s t : Link α) : Prop where
  accepted : s.accepted <+: t.accepted
  sent : s.sent <+: t.sent
  delivered : s.delivered <+: t.delivered

theorem Grows.refl (s : Link α) : Grows s s := ⟨List.prefix_rfl, List.prefix_rfl, List.prefix_rfl⟩

theorem Grows.trans (s t u : Link α) (h : Grows s t) (k : Grows t u) : Grows s u :=
  ⟨h.1.trans k.1, h.2.trans k.2, h.3.trans k.3⟩

theorem grows_step (s : Link α) (a : Act α) (t : Link α) (h : s.step S a = some t) : Grows s t := by
  cases a <;> simp only [Link.step] at h <;> repeat' split at h
  all_goals cases h
  all_goals exact ⟨by simp, by simp, by simp⟩

/-- Only the send routine writes. -/
theorem sent_step {s t : Link α} {a : Act α} (h : s.step S a = some t) (ha : ∀ f, a ≠ .transmit f) : t.sent = s.sent := by
  cases a with
  | transmit f => exact absurd rfl (ha f)
  | _ =>
    simp only [Link.step] at h
    repeat' split at h
    all_goals cases h
    all_goals rfl

/-- Only the receive routine reads. -/
theorem recv_step {s t : Link α} {a : Act α} (h : s.step S a = some t) (ha : ∀ n, a ≠ .recv n) :
    t.recvBuf = s.recvBuf ∧ t.delivered = s.delivered := by
  cases a with
  | recv n => exact absurd rfl (ha n)
  | _ =>
    simp only [Link.step] at h
    repeat' split at h
    all_goals cases h
    all_goals exact ⟨rfl, rfl⟩

/-- The first `r` of the goroutines in `Send`, with what has entered the queue, are all that there was at the beginning, and
more. -/
def Kept (l : List (Option α)) (r : Nat) (t : Link α) : Prop :=
  r ≤ t.pending.length ∧ ∃ rest, (t.accepted ++ t.pending.take r).Perm (l ++ rest)

theorem kept_step {l : List (Option α)} {r : Nat} {s t : Link α} {a : Act α} (h : s.step S a = some t) (k : Kept l r s) :
    Kept l r t ∨ (0 < r ∧ Kept l (r - 1) t) := by
  obtain ⟨k1, rest, k2⟩ := k
  cases a with
  | check obj =>
    simp only [Link.step] at h
    split at h
    · cases h
    split at h
    · cases h; exact .inl ⟨k1, rest, k2⟩
    · cases h
      refine .inl ⟨by simp; omega, rest, ?_⟩
      simp only
      rw [List.take_append_of_le_length k1]
      exact k2
  | push i =>
    simp only [Link.step] at h
    split at h
    · cases h
    rename_i obj hobj
    split at h
    · cases h
    cases h
    obtain ⟨hi, ho⟩ := List.getElem?_eq_some_iff.mp hobj
    have hl : (s.pending.take r).length = r := List.length_take_of_le k1
    by_cases hr : i < r
    · refine .inr ⟨by omega, by simp only; rw [List.length_eraseIdx_of_lt hi]; omega, rest, ?_⟩
      simp only
      refine List.Perm.trans ?_ k2
      rw [List.append_assoc]
      refine List.Perm.append_left _ ?_
      have e : (s.pending.eraseIdx i).take (r - 1) = (s.pending.take r).eraseIdx i := by
        conv => lhs; rw [← List.take_append_drop r s.pending, List.eraseIdx_append_of_lt_length (by omega)]
        exact List.take_left' (by rw [List.length_eraseIdx_of_lt (by omega), hl])
      have eo : (s.pending.take r)[i]'(by omega) = obj := by rw [List.getElem_take]; exact ho
      rw [e, List.singleton_append, ← eo]
      exact List.getElem_cons_eraseIdx_perm (by omega)
    · refine .inl ⟨by simp only; rw [List.length_eraseIdx_of_lt hi]; omega, rest ++ [obj], ?_⟩
      simp only
      have e : (s.pending.eraseIdx i).take r = s.pending.take r := by
        conv => lhs; rw [← List.take_append_drop r s.pending, List.eraseIdx_append_of_length_le (by omega)]
        exact List.take_left' hl
      rw [e]
      rw [List.append_assoc, ← List.append_assoc l]
      refine List.Perm.trans ?_ (k2.append_right [obj])
      rw [List.append_assoc]
      exact List.Perm.append_left _ List.perm_append_comm
  | transmit f =>
    simp only [Link.step] at h
    repeat' split at h
    all_goals cases h
    all_goals exact .inl ⟨k1, rest, k2⟩
  | recv n =>
    simp only [Link.step] at h
    repeat' split at h
    all_goals cases h
    all_goals exact .inl ⟨k1, rest, k2⟩

/-- The first goroutine entering leaves one less. -/
theorem kept_enter {l : List (Option α)} {r : Nat} {s t : Link α} (h : s.step S (.push 0) = some t) (k : Kept l (r + 1) s) :
    Kept l r t := by
  obtain ⟨k1, rest, k2⟩ := k
  simp only [Link.step] at h
  split at h
  · cases h
  rename_i obj hobj
  split at h
  · cases h
  cases h
  obtain ⟨x, xs, hp⟩ : ∃ x xs, s.pending = x :: xs := by
    cases hp : s.pending with
    | nil => rw [hp] at hobj; cases hobj
    | cons x xs => exact ⟨x, xs, rfl⟩
  rw [hp] at hobj k1 k2
  cases hobj
  refine ⟨by simp [hp] at k1 ⊢; omega, rest, ?_⟩
  simp only [hp, List.eraseIdx_cons_zero, List.append_assoc, List.singleton_append]
  exact k2

/-! ## Fair executions -/

/-- The send routine goes on, /repo/network/peer.go:64-77. -/
def Sends (_ : Link α) (a : Act α) : Prop := a = .transmit none

/-- The receive routine goes on, /repo/network/peer.go:80-99, whatever number of bytes it gets. -/
def Reads (_ : Link α) (a : Act α) : Prop := ∃ n, a = .recv n

/-- Of the goroutines that are about to send into the channel the one that came first does, /repo/network/peer.go:59. -/
def Enters (_ : Link α) (a : Act α) : Prop := a = .push 0

/-- An execution of a connection from the beginning, in which nobody closes it, no write fails and good objects are sent.
The routines go on if they can, and a goroutine in `Send` that finds room in the channel again and again gets it. -/
structure FairLink (S : Serializer α) (good : α → Prop) (T : Trace (Link.step S)) : Prop where
  init : T.st 0 = Link.init α
  calm : ∀ n a, T.act n = some a → Calm good a
  weak : T.WeaklyFair fun K => K = Sends ∨ K = Reads
  strong : T.StronglyFair fun K => K = Enters

variable {good : α → Prop} {recv : α → α} {enc : α → List Byte} {T : Trace (Link.step S)}

theorem FairLink.live (F : FairLink S good T) (hS : Faithful S good recv enc) (n : Nat) : Live good recv enc S (T.st n) := by
  induction n with
  | zero => rw [F.init]; exact live_init hS
  | succ n ih =>
    cases e : T.act n with
    | none => rw [T.none_step e]; exact ih
    | some a => exact live_step hS (F.calm n a e) ih (T.some_step e)

theorem Trace.grows (T : Trace (Link.step S)) {n m : Nat} (h : n ≤ m) : Grows (T.st n) (T.st m) :=
  T.later Grows.refl Grows.trans grows_step h

/-- While an object is waiting in the queue, one is written. -/
theorem FairLink.sends_one (F : FairLink S good T) (hS : Faithful S good recv enc) {n : Nat}
    (h : (T.st n).sent.length < (T.st n).accepted.length) :
    ∃ m, n ≤ m ∧ (T.st n).sent.length < (T.st m).sent.length ∧ (T.st m).queue.length < 20 := by
  have hne : ∀ {s : Link α}, Live good recv enc S s → s.sent.length < s.accepted.length → ∃ o rest, s.queue = some o :: rest ∧ good o := by
    intro s I hl
    have := I.order
    cases hq : s.queue with
    | nil => rw [hq] at this; rw [this] at hl; simp at hl
    | cons x rest =>
      obtain ⟨o, rfl, ho⟩ := I.objs x (by rw [this, hq]; simp)
      exact ⟨o, rest, rfl, ho⟩
  have hstep : ∀ {s : Link α}, Live good recv enc S s → s.sent.length < s.accepted.length → ∃ t, s.step S (.transmit none) = some t ∧
      s.sent.length < t.sent.length ∧ t.queue.length < 20 := by
    intro s I hl
    obtain ⟨o, rest, hq, ho⟩ := hne I hl
    have hcap := I.cap
    rw [hq] at hcap
    simp only [List.length_cons] at hcap
    refine ⟨_, by simp only [Link.step, I.dead, I.sending, hq, hS.marshal o ho]; simp; rfl, by simp, by simp; omega⟩
  obtain ⟨m, a, hm, hp, ha, hk⟩ := F.weak.taken (K := Sends) (.inl rfl)
    (P := fun m => (T.st m).sent.length < (T.st m).accepted.length ∧ (T.st n).sent.length ≤ (T.st m).sent.length) ⟨h, Nat.le_refl _⟩
    (fun m hm hp => by
      obtain ⟨t, ht, _⟩ := hstep (F.live hS m) hp.1
      exact ⟨_, rfl, by rw [ht]; simp⟩)
    (fun m hm hp hno => by
      have g := Trace.grows T (Nat.le_succ m)
      refine ⟨?_, Nat.le_trans hp.2 g.sent.length_le⟩
      refine Nat.lt_of_lt_of_le (m := (T.st m).accepted.length) ?_ g.accepted.length_le
      cases e : T.act m with
      | none => rw [T.none_step e]; exact hp.1
      | some a =>
        have hs := T.some_step e
        rw [sent_step hs fun f hf => by
          subst hf
          cases f with
          | none => exact hno _ e rfl
          | some k => exact (F.calm m _ e).2 k rfl]
        exact hp.1)
  cases hk
  obtain ⟨t, ht, h1, h2⟩ := hstep (F.live hS m) hp.1
  rw [T.some_step ha] at ht
  cases ht
  exact ⟨m + 1, by omega, by omega, h2⟩

/-- Everything that entered the queue is written. -/
theorem FairLink.sends_all (F : FairLink S good T) (hS : Faithful S good recv enc) (k : Nat) {n : Nat}
    (h : k ≤ (T.st n).accepted.length) : ∃ m, n ≤ m ∧ k ≤ (T.st m).sent.length := by
  induction k with
  | zero => exact ⟨n, Nat.le_refl _, Nat.zero_le _⟩
  | succ k ih =>
    obtain ⟨m, hm, hk⟩ := ih (by omega)
    by_cases he : k < (T.st m).sent.length
    · exact ⟨m, hm, he⟩
    · have := (Trace.grows T hm).accepted.length_le
      obtain ⟨m', h1, h2, _⟩ := F.sends_one hS (n := m) (by omega)
      exact ⟨m', by omega, by omega⟩

/-- What is written is delivered, the next one. -/
theorem FairLink.reads_one (F : FairLink S good T) (hS : Faithful S good recv enc) (u : α) : ∀ (r n : Nat),
    (T.st n).sent[(T.st n).delivered.length]? = some u → (enc u).length ≤ (T.st n).recvBuf.length + r →
    ∃ m, n ≤ m ∧ (T.st n).delivered.length < (T.st m).delivered.length := by
  -- the next object is not complete in the buffer
  have hus : ∀ {s : Link α}, Live good recv enc S s → ∀ {ds us : List α}, s.sent = ds ++ us → s.delivered = ds.map recv →
      s.recvBuf ++ s.wire = (us.map enc).flatten → s.sent[s.delivered.length]? = some u →
      ∃ rest, us = u :: rest ∧ s.recvBuf.length < (enc u).length ∧ 0 < s.wire.length := by
    intro s I ds us h1 h2 h3 hu
    have hu' : us[0]? = some u := by
      rw [h1, h2] at hu
      rw [List.getElem?_append_right (by simp)] at hu
      simpa using hu
    cases us with
    | nil => cases hu'
    | cons x rest =>
      cases hu'
      have hg : good u := I.good_sent u (by rw [h1]; simp)
      obtain ⟨_, _, _, _, _, h4⟩ := I.stream
      have hlt : s.recvBuf.length < (enc u).length := by
        rcases Nat.lt_or_ge s.recvBuf.length (enc u).length with h | h
        · exact h
        · exfalso
          have hp : enc u <+: s.recvBuf := by
            refine List.prefix_of_prefix_length_le (l₃ := (enc u) ++ (rest.map enc).flatten) (List.prefix_append _ _) ?_ h
            have : s.recvBuf ++ s.wire = enc u ++ (rest.map enc).flatten := by simpa using h3
            rw [← this]
            exact List.prefix_append _ _
          obtain ⟨y, hy⟩ := hp
          rw [← hy, (hS.frame u hg).slice_full] at h4
          exact (hS.frame u hg).pos (List.eq_nil_of_length_eq_zero h4)
      refine ⟨rest, rfl, hlt, ?_⟩
      have := congrArg List.length h3
      simp only [List.map_cons, List.flatten_cons, List.length_append] at this
      omega
  intro r
  induction r with
  | zero =>
    intro n hu hl
    obtain ⟨ds, us, h1, h2, h3, h4⟩ := (F.live hS n).stream
    obtain ⟨_, _, h, _⟩ := hus (F.live hS n) h1 h2 h3 hu
    omega
  | succ r ih =>
    intro n hu hl
    have hu' : ∀ m, n ≤ m → (T.st m).delivered = (T.st n).delivered → (T.st m).sent[(T.st m).delivered.length]? = some u := by
      intro m hm hd
      rw [hd]
      obtain ⟨y, hy⟩ := (Trace.grows T hm).sent
      rw [← hy, List.getElem?_append_left (List.getElem?_eq_some_iff.mp hu).1]
      exact hu
    obtain ⟨m, a, hm, hp, ha, c, rfl⟩ := F.weak.taken (K := Reads) (.inr rfl)
      (P := fun m => (T.st m).recvBuf = (T.st n).recvBuf ∧ (T.st m).delivered = (T.st n).delivered) ⟨rfl, rfl⟩
      (fun m hm hp => by
        have I := F.live hS m
        obtain ⟨ds, us, h1, h2, h3, h4⟩ := I.stream
        obtain ⟨_, _, _, h⟩ := hus I h1 h2 h3 (hu' m hm hp.2)
        refine ⟨_, ⟨1, rfl⟩, ?_⟩
        simp only [Link.step, I.gone]
        have hc : ¬(false = true ∨ 1 = 0 ∨ cRecvBytesSize < 1 ∨ (T.st m).wire.length < 1) := by
          rintro (h' | h' | h' | h')
          · cases h'
          · cases h'
          · simp [cRecvBytesSize] at h'
          · exact absurd h' (Nat.not_lt.mpr h)
        rw [if_neg hc]
        split <;> simp)
      (fun m hm hp hno => by
        cases e : T.act m with
        | none => rw [T.none_step e]; exact hp
        | some a =>
          have := recv_step (T.some_step e) fun c hc => hno _ e ⟨c, hc⟩
          rw [this.1, this.2]
          exact hp)
    have I := F.live hS m
    obtain ⟨ds, us, k, h1, h2, h3, h4, h5, h6, h7, h8, h9⟩ := recv_live hS I (T.some_step ha)
    have hlen : (T.st (m + 1)).delivered = (T.st m).delivered ++ (us.take k).map recv := by rw [h4]
    have hne : us ≠ [] := by
      intro e
      have := (List.getElem?_eq_some_iff.mp (hu' m hm hp.2)).1
      rw [h1, h2, e] at this
      simp at this
    have hpos : 0 < us.length := List.length_pos_iff.mpr hne
    cases k with
    | zero =>
      have hb : (T.st (m + 1)).recvBuf = (T.st m).recvBuf ++ (T.st m).wire.take c := by simpa using h5.symm
      have hd : (T.st (m + 1)).delivered = (T.st n).delivered := by rw [hlen, hp.2]; simp
      obtain ⟨m', g1, g2⟩ := ih (m + 1) (hu' (m + 1) (by omega) hd) (by
        rw [hb, hp.1, List.length_append, List.length_take]; omega)
      exact ⟨m', by omega, by rw [hd] at g2; exact g2⟩
    | succ k =>
      refine ⟨m + 1, by omega, ?_⟩
      rw [hlen, hp.2]
      simp only [List.length_append, List.length_map, List.length_take]
      omega

/-- Everything that is written is delivered. -/
theorem FairLink.reads_all (F : FairLink S good T) (hS : Faithful S good recv enc) (k : Nat) {n : Nat}
    (h : k ≤ (T.st n).sent.length) : ∃ m, n ≤ m ∧ k ≤ (T.st m).delivered.length := by
  induction k with
  | zero => exact ⟨n, Nat.le_refl _, Nat.zero_le _⟩
  | succ k ih =>
    obtain ⟨m, hm, hk⟩ := ih (by omega)
    by_cases he : k < (T.st m).delivered.length
    · exact ⟨m, hm, he⟩
    · have := (Trace.grows T hm).sent.length_le
      obtain ⟨m', h1, h2⟩ := F.reads_one hS ((T.st m).sent[(T.st m).delivered.length]'(by omega)) _ m
        (List.getElem?_eq_getElem (by omega)) (Nat.le_add_left _ _)
      exact ⟨m', by omega, by omega⟩

/-- There is room in the queue again and again. -/
theorem FairLink.room (F : FairLink S good T) (hS : Faithful S good recv enc) (n : Nat) :
    ∃ m, n ≤ m ∧ (T.st m).queue.length < 20 := by
  by_cases h : (T.st n).queue.length < 20
  · exact ⟨n, Nat.le_refl _, h⟩
  · obtain ⟨m, h1, _, h2⟩ := F.sends_one hS (n := n) (by rw [(F.live hS n).order]; simp; omega)
    exact ⟨m, h1, h2⟩

/-- Every goroutine in `Send` gets its object into the queue. -/
theorem FairLink.enters (F : FairLink S good T) (hS : Faithful S good recv enc) {l : List (Option α)} :
    ∀ (r n : Nat), Kept l r (T.st n) → ∃ m, n ≤ m ∧ Kept l 0 (T.st m) := by
  intro r
  induction r with
  | zero => intro n h; exact ⟨n, Nat.le_refl _, h⟩
  | succ r ih =>
    intro n h
    suffices hh : ∃ m, n ≤ m ∧ Kept l r (T.st m) by
      obtain ⟨m, h1, h2⟩ := hh
      obtain ⟨m', h3, h4⟩ := ih m h2
      exact ⟨m', by omega, h4⟩
    refine Classical.byContradiction fun hno => ?_
    have hall : ∀ m, n ≤ m → Kept l (r + 1) (T.st m) := Trace.keep (P := fun m => Kept l (r + 1) (T.st m)) h fun m hm hp => by
      cases e : T.act m with
      | none => rw [T.none_step e]; exact hp
      | some a =>
        rcases kept_step (T.some_step e) hp with h | ⟨_, h⟩
        · exact h
        · exact absurd ⟨m + 1, by omega, h⟩ hno
    obtain ⟨m, a, hm, ha, hk⟩ := F.strong Enters rfl n fun k hk => by
      obtain ⟨m, h1, h2⟩ := F.room hS k
      refine ⟨m, _, h1, rfl, ?_⟩
      have := (hall m (by omega)).1
      cases hp : (T.st m).pending with
      | nil => rw [hp] at this; simp at this
      | cons x xs =>
        simp only [Link.step, hp, (F.live hS m).dead, cSendChanSize]
        simp; omega
    cases hk
    exact hno ⟨m + 1, by omega, kept_enter (T.some_step ha) (hall m hm)⟩

/-- Everything that `Send` has not discarded arrives. -/
theorem FairLink.arrives (F : FairLink S good T) (hS : Faithful S good recv enc) (n : Nat) :
    ∃ m, n ≤ m ∧ ∃ (ps : List α) (rest : List (Option α)), (ps.map some).Perm ((T.st n).accepted ++ (T.st n).pending ++ rest) ∧
      (T.st n).accepted <+: ps.map some ∧ ps.map recv <+: (T.st m).delivered := by
  obtain ⟨m1, h1, _, rest, h2⟩ := F.enters hS (l := (T.st n).accepted ++ (T.st n).pending) (T.st n).pending.length n
    ⟨Nat.le_refl _, [], by simp⟩
  obtain ⟨m2, h3, h4⟩ := F.sends_all hS (n := m1) _ (Nat.le_refl _)
  obtain ⟨m3, h5, h6⟩ := F.reads_all hS (n := m2) _ h4
  refine ⟨m3, by omega, (T.st m3).sent.take (T.st m1).accepted.length, rest, ?_, ?_, ?_⟩
  all_goals
    have I := F.live hS m3
    have g := (Trace.grows T (show m1 ≤ m3 by omega)).accepted
    have gs := (Trace.grows T (show m2 ≤ m3 by omega)).sent.length_le
    have e : ((T.st m3).sent.take (T.st m1).accepted.length).map some = (T.st m1).accepted := by
      rw [I.order] at g
      have : (T.st m1).accepted <+: (T.st m3).sent.map some :=
        List.prefix_of_prefix_length_le g (List.prefix_append _ _) (by simp; omega)
      rw [List.map_take]
      exact (List.prefix_iff_eq_take.mp this).symm
  · rw [e]
    simpa using h2
  · rw [e]
    exact (Trace.grows T h1).accepted
  · obtain ⟨ds, us, k1, k2, _, _⟩ := I.stream
    rw [k2, k1, List.take_append_of_le_length (by rw [k2] at h6; simpa using h6), List.map_take]
    exact List.take_prefix _ _

end

end Verif.Net
