import Verif.Props.Net8
import Verif.Props.World8

/-!
# C158: what arrives at a text connection
-/

namespace Verif.Props

open Verif Verif.Net

/-- A string that a text connection hands up as one: its only NUL is at its end, /repo/network/txt_serializer.go:19-27. -/
def Line (x : Str) : Prop := ∃ t : Str, x = t ++ [0] ∧ 0 ∉ t

/-- What has entered the queue of a connection, put together. -/
def stream (l : List (Option Str)) : Str := (l.filterMap id).flatten

theorem stream_append (l k : List (Option Str)) : stream (l ++ k) = stream l ++ stream k := by
  simp [stream, List.filterMap_append]

theorem stream_some (l : List Str) : stream (l.map some) = l.flatten := by
  simp [stream]

/-! ## Lines -/

theorem txtSlice_zero (b : Str) : txtSlice b = 0 ↔ 0 ∉ b := by
  induction b with
  | nil => simp [txtSlice]
  | cons c b ih =>
    simp only [txtSlice, List.mem_cons, not_or]
    split
    · rename_i h; simp [h]
    · rename_i h
      split
      · rename_i h'; exact ⟨fun _ => ⟨fun e => h e.symm, ih.mp h'⟩, fun _ => rfl⟩
      · rename_i h'
        exact ⟨fun e => absurd e (by omega), fun ⟨_, e⟩ => absurd (ih.mpr e) h'⟩

theorem txtSlice_line (b : Str) (h : txtSlice b ≠ 0) : Line (b.take (txtSlice b)) ∧ txtSlice b ≤ b.length := by
  induction b with
  | nil => exact absurd rfl h
  | cons c b ih =>
    simp only [txtSlice] at h ⊢
    split
    · rename_i hc
      exact ⟨⟨[], by simp [hc], by simp⟩, by simp⟩
    · rename_i hc
      rw [if_neg hc] at h
      split
      · rename_i h'; rw [if_pos h'] at h; exact absurd rfl h
      · rename_i h'
        obtain ⟨⟨t, h1, h2⟩, h3⟩ := ih h'
        refine ⟨⟨c :: t, by simp [h1], ?_⟩, by simp; omega⟩
        simp only [List.mem_cons, not_or]
        exact ⟨fun e => hc e.symm, h2⟩

/-- The loop over the buffer cuts it into lines. -/
theorem txt_loop : ∀ (fuel : Nat) (b : Str), b.length ≤ fuel →
    ∃ ls rest, recvLoop txtSerializer fuel b = (ls, some rest) ∧ (∀ x ∈ ls, Line x) ∧ 0 ∉ rest ∧ ls.flatten ++ rest = b := by
  intro fuel
  induction fuel with
  | zero =>
    intro b hb
    obtain rfl := List.eq_nil_of_length_eq_zero (Nat.le_zero.mp hb)
    exact ⟨[], [], rfl, by simp, by simp, rfl⟩
  | succ fuel ih =>
    intro b hb
    by_cases h : txtSlice b = 0
    · exact ⟨[], b, by simp [recvLoop, txtSerializer, h], by simp, (txtSlice_zero b).mp h, rfl⟩
    · obtain ⟨h1, h2⟩ := txtSlice_line b h
      obtain ⟨ls, rest, h3, h4, h5, h6⟩ := ih (b.drop (txtSlice b)) (by rw [List.length_drop]; omega)
      refine ⟨b.take (txtSlice b) :: ls, rest, ?_, ?_, h5, ?_⟩
      · have e : Codec.fill (txtSlice b) (b.take (txtSlice b)) = b.take (txtSlice b) := by
          unfold Codec.fill
          simp [List.length_take, Nat.min_eq_left h2]
        have h3' : recvLoop ⟨Res.ok, Res.ok, txtSlice⟩ fuel (b.drop (txtSlice b)) = (ls, some rest) := h3
        simp only [recvLoop, txtSerializer, if_neg h, e, h3']
      · intro x hx
        rcases List.mem_cons.mp hx with rfl | hx
        · exact h1
        · exact h4 x hx
      · rw [List.flatten_cons, List.append_assoc, h6, List.take_append_drop]

/-- There is only one way to cut. -/
theorem lines_prefix : ∀ (ls ks : List Str) (t u : Str), (∀ x ∈ ls, Line x) → (∀ x ∈ ks, Line x) → 0 ∉ u →
    ls.flatten ++ t <+: ks.flatten ++ u → ls <+: ks := by
  intro ls
  induction ls with
  | nil => intro ks t u _ _ _ _; exact List.nil_prefix
  | cons x ls ih =>
    intro ks t u hl hk hu h
    obtain ⟨a, rfl, ha⟩ := hl x List.mem_cons_self
    cases ks with
    | nil =>
      exfalso
      have : (0 : Byte) ∈ ([] : List Str).flatten ++ u := h.subset (by simp)
      simp only [List.flatten_nil, List.nil_append] at this
      exact hu this
    | cons y ks =>
      obtain ⟨b, rfl, hb⟩ := hk y List.mem_cons_self
      have e : a = b ∧ (ls.flatten ++ t <+: ks.flatten ++ u) := by
        obtain ⟨z, h⟩ := h
        simp only [List.flatten_cons, List.append_assoc, List.singleton_append] at h
        rcases List.append_eq_append_iff.mp h with ⟨c, h1, h2⟩ | ⟨c, h1, h2⟩
        · cases c with
          | nil =>
            simp only [List.append_nil, List.nil_append, List.cons_append, List.cons.injEq, true_and] at h1 h2
            exact ⟨h1.symm, z, by rw [List.append_assoc]; exact h2⟩
          | cons d c =>
            simp only [List.cons_append, List.cons.injEq] at h2
            exact absurd (by rw [h1, ← h2.1]; simp) hb
        · cases c with
          | nil =>
            simp only [List.append_nil, List.nil_append, List.cons_append, List.cons.injEq, true_and] at h1 h2
            exact ⟨h1, z, by rw [List.append_assoc]; exact h2.symm⟩
          | cons d c =>
            simp only [List.cons_append, List.cons.injEq] at h2
            exact absurd (by rw [h1, ← h2.1]; simp) ha
      obtain ⟨rfl, e⟩ := e
      exact List.prefix_cons_iff.mpr (.inr ⟨ls, rfl, ih ks t u (fun x hx => hl x (List.mem_cons_of_mem _ hx))
        (fun x hx => hk x (List.mem_cons_of_mem _ hx)) hu e⟩)

/-! ## All executions -/

/-- What holds of a text connection. -/
structure TxtInv (s : Link Str) : Prop where
  dead : s.dead = false
  gone : s.gone = false
  lines : ∀ x ∈ s.delivered, Line x
  rest : 0 ∉ s.recvBuf
  order : s.sending = true → s.accepted = s.sent.map some ++ s.queue
  whole : s.sending = true → s.delivered.flatten ++ s.recvBuf ++ s.wire = s.sent.flatten
  part : s.delivered.flatten ++ s.recvBuf ++ s.wire <+: stream s.accepted

theorem txtInv_step (s : Link Str) (a : Net.Act Str) (t : Link Str) (I : TxtInv s) (h : s.step txtSerializer a = some t) : TxtInv t := by
  cases a with
  | check obj =>
    simp only [Link.step] at h
    repeat' split at h
    all_goals cases h
    all_goals exact ⟨I.dead, I.gone, I.lines, I.rest, I.order, I.whole, I.part⟩
  | push i =>
    simp only [Link.step] at h
    split at h
    · cases h
    split at h
    · cases h
    cases h
    refine ⟨I.dead, I.gone, I.lines, I.rest, fun hs => ?_, I.whole, ?_⟩
    · simp only; rw [I.order hs, List.append_assoc]
    · simp only; rw [stream_append]; exact I.part.trans (List.prefix_append _ _)
  | transmit fail =>
    simp only [Link.step] at h
    split at h
    · cases h
    rename_i hsd
    have hs : s.sending = true := by
      cases e : s.sending
      · exact absurd (.inr e) hsd
      · rfl
    split at h
    · cases h
    · rename_i rest hq
      cases h
      exact ⟨I.dead, I.gone, I.lines, I.rest, fun e => by simp at e, fun e => by simp at e, I.part⟩
    · rename_i obj rest hq
      have ho := I.order hs
      have hw := I.whole hs
      have hst : stream s.accepted = s.sent.flatten ++ obj ++ stream rest := by
        rw [ho, hq, stream_append, stream_some]
        simp [stream]
      have hm : txtSerializer.marshal obj = .ok obj := rfl
      rw [hm] at h
      simp only at h
      cases fail with
      | none =>
        cases h
        refine ⟨I.dead, I.gone, I.lines, I.rest, fun _ => ?_, fun _ => ?_, ?_⟩
        · simp only; rw [ho, hq]; simp
        · simp only; rw [← List.append_assoc, hw]; simp
        · simp only; rw [← List.append_assoc, hw, hst]; exact List.prefix_append _ _
      | some k =>
        cases h
        refine ⟨I.dead, I.gone, I.lines, I.rest, fun e => by simp at e, fun e => by simp at e, ?_⟩
        simp only
        rw [← List.append_assoc, hw, hst, List.append_assoc]
        exact (List.prefix_append_right_inj _).mpr ((List.take_prefix _ _).trans (List.prefix_append _ _))
  | recv n =>
    simp only [Link.step] at h
    split at h
    · cases h
    obtain ⟨ls, rest, h1, h2, h3, h4⟩ := txt_loop (s.recvBuf.length + (s.wire.take n).length) (s.recvBuf ++ s.wire.take n) (by simp)
    have h1' : recvChunk txtSerializer s.recvBuf (s.wire.take n) = (ls, some rest) := h1
    rw [h1'] at h
    cases h
    have e : (s.delivered ++ ls).flatten ++ rest ++ s.wire.drop n = s.delivered.flatten ++ s.recvBuf ++ s.wire := by
      rw [List.flatten_append, List.append_assoc s.delivered.flatten, h4, List.append_assoc, List.append_assoc, List.take_append_drop,
        List.append_assoc]
    refine ⟨I.dead, I.gone, fun x hx => ?_, h3, I.order, fun hs => ?_, ?_⟩
    · rcases List.mem_append.mp hx with hx | hx
      · exact I.lines x hx
      · exact h2 x hx
    · simp only; rw [e]; exact I.whole hs
    · simp only; rw [e]; exact I.part

theorem txtInv_init : TxtInv (Link.init Str) :=
  ⟨rfl, rfl, by simp [Link.init], by simp [Link.init], fun _ => rfl, fun _ => rfl, by simp [Link.init]⟩

theorem txtInv_reach {s : Link Str} (h : Reachable (Link.step txtSerializer) (Link.init _) s) : TxtInv s := by
  obtain ⟨as, h⟩ := h
  exact run_inv (I := TxtInv) txtInv_step as _ _ txtInv_init h

/-- **C158.**  In every execution of a text connection, whatever strings are sent, with NULs anywhere or none, however they are cut
into reads and whether or not writes fail and the connection is closed: neither process ends, and the strings handed to `OnPacket` are
the lines of what was sent: put together, with some bytes after them among which is no NUL, they are the beginning of all strings that
entered the queue put together, and each of them ends with its only NUL.  If the send routine still runs and nothing is on its way,
they are all lines. -/
theorem C158_lines (s : Link Str) (h : Reachable (Link.step txtSerializer) (Link.init _) s) :
    s.dead = false ∧ s.gone = false ∧ (∀ x ∈ s.delivered, Line x) ∧
    ∃ tail : Str, 0 ∉ tail ∧ s.delivered.flatten ++ tail <+: stream s.accepted ∧
      (s.sending = true → s.queue = [] → s.wire = [] → s.delivered.flatten ++ tail = stream s.accepted) := by
  have I := txtInv_reach h
  refine ⟨I.dead, I.gone, I.lines, s.recvBuf, I.rest, (List.prefix_append _ _).trans I.part, fun hs hq hw => ?_⟩
  have h1 := I.whole hs
  rw [hw, List.append_nil] at h1
  rw [h1, I.order hs, hq, List.append_nil, stream_some]

/-! ## Fair executions -/

/-- The connection is not closed and no write fails. -/
structure TxtLive (s : Link Str) : Prop where
  inv : TxtInv s
  sending : s.sending = true
  cap : s.queue.length ≤ 20
  objs : ∀ x ∈ s.accepted ++ s.pending, ∃ o, x = some o

/-- Fair executions of a text connection that is not closed and on which no write fails; any strings are sent. -/
abbrev FairText (T : Trace (Link.step txtSerializer)) : Prop := FairLink txtSerializer (fun _ => True) T

variable {T : Trace (Link.step txtSerializer)}

theorem txtLive (F : FairText T) (n : Nat) : TxtLive (T.st n) := by
  refine Trace.keep (P := fun n => TxtLive (T.st n)) (n := 0) ?_ ?_ n (Nat.zero_le _)
  · rw [F.init]; exact ⟨txtInv_init, rfl, by simp [Link.init], by simp [Link.init]⟩
  · intro m _ I
    cases e : T.act m with
    | none => rw [T.none_step e]; exact I
    | some a =>
      have hc := F.calm m a e
      have h := T.some_step e
      have J := txtInv_step _ _ _ I.inv h
      generalize T.st (m + 1) = t at h J
      generalize T.st m = s at h I
      cases a with
      | check obj =>
        obtain ⟨o, rfl, -⟩ := hc.1 obj rfl
        simp only [Link.step] at h
        repeat' split at h
        all_goals cases h
        · exact ⟨J, I.sending, I.cap, I.objs⟩
        · refine ⟨J, I.sending, I.cap, fun x hx => ?_⟩
          simp only [List.mem_append, List.mem_singleton] at hx
          rcases hx with hx | hx | rfl
          · exact I.objs x (by simp [hx])
          · exact I.objs x (by simp [hx])
          · exact ⟨o, rfl⟩
      | push i =>
        simp only [Link.step] at h
        split at h
        · cases h
        rename_i obj hobj
        split at h
        · cases h
        rename_i hr
        cases h
        refine ⟨J, I.sending, ?_, fun x hx => ?_⟩
        · simp only [cSendChanSize, not_or] at hr
          simp only [List.length_append, List.length_singleton]
          omega
        · simp only [List.mem_append, List.mem_singleton] at hx
          rcases hx with (hx | rfl) | hx
          · exact I.objs x (by simp [hx])
          · exact I.objs x (List.mem_append_right _ (List.mem_of_getElem? hobj))
          · exact I.objs x (List.mem_append_right _ (List.mem_of_mem_eraseIdx hx))
      | transmit fail =>
        cases fail with
        | some k => exact absurd rfl (hc.2 k)
        | none =>
          simp only [Link.step] at h
          split at h
          · cases h
          split at h
          · cases h
          · rename_i rest hq
            obtain ⟨o, ho⟩ := I.objs none (by rw [I.inv.order I.sending, hq]; simp)
            cases ho
          · rename_i obj rest hq
            have hm : txtSerializer.marshal obj = .ok obj := rfl
            rw [hm] at h
            cases h
            have hcap := I.cap
            rw [hq] at hcap
            simp only [List.length_cons] at hcap
            exact ⟨J, I.sending, by simp only; omega, I.objs⟩
      | recv k =>
        simp only [Link.step] at h
        repeat' split at h
        all_goals cases h
        · exact ⟨J, I.sending, I.cap, I.objs⟩
        · exact ⟨J, I.sending, I.cap, I.objs⟩

/-- While a string is waiting in the queue, one is written. -/
theorem txt_sends_one (F : FairText T) {n : Nat} (h : (T.st n).sent.length < (T.st n).accepted.length) :
    ∃ m, n ≤ m ∧ (T.st n).sent.length < (T.st m).sent.length ∧ (T.st m).queue.length < 20 := by
  have hstep : ∀ {s : Link Str}, TxtLive s → s.sent.length < s.accepted.length → ∃ t, s.step txtSerializer (.transmit none) = some t ∧
      s.sent.length < t.sent.length ∧ t.queue.length < 20 := by
    intro s I hl
    have := I.inv.order I.sending
    cases hq : s.queue with
    | nil => rw [hq] at this; rw [this] at hl; simp at hl
    | cons x rest =>
      obtain ⟨o, rfl⟩ := I.objs x (by rw [this, hq]; simp)
      have hcap := I.cap
      rw [hq] at hcap
      simp only [List.length_cons] at hcap
      have hm : txtSerializer.marshal o = .ok o := rfl
      refine ⟨_, by simp only [Link.step, I.inv.dead, I.sending, hq, hm]; simp; rfl, by simp, by simp; omega⟩
  obtain ⟨m, a, hm, hp, ha, hk⟩ := F.weak.taken (K := Sends) (.inl rfl)
    (P := fun m => (T.st m).sent.length < (T.st m).accepted.length ∧ (T.st n).sent.length ≤ (T.st m).sent.length) ⟨h, Nat.le_refl _⟩
    (fun m hm hp => by
      obtain ⟨t, ht, _⟩ := hstep (txtLive F m) hp.1
      exact ⟨_, rfl, by rw [ht]; simp⟩)
    (fun m hm hp hno => by
      have g := Trace.grows T (Nat.le_succ m)
      refine ⟨?_, Nat.le_trans hp.2 g.sent.length_le⟩
      refine Nat.lt_of_lt_of_le (m := (T.st m).accepted.length) ?_ g.accepted.length_le
      cases e : T.act m with
      | none => rw [T.none_step e]; exact hp.1
      | some a =>
        have hs := T.some_step e
        rw [sent_step hs fun f hf => by
          subst hf
          cases f with
          | none => exact hno _ e rfl
          | some k => exact (F.calm m _ e).2 k rfl]
        exact hp.1)
  cases hk
  obtain ⟨t, ht, h1, h2⟩ := hstep (txtLive F m) hp.1
  rw [T.some_step ha] at ht
  cases ht
  exact ⟨m + 1, by omega, by omega, h2⟩

theorem txt_sends_all (F : FairText T) (k : Nat) {n : Nat} (h : k ≤ (T.st n).accepted.length) :
    ∃ m, n ≤ m ∧ k ≤ (T.st m).sent.length := by
  induction k with
  | zero => exact ⟨n, Nat.le_refl _, Nat.zero_le _⟩
  | succ k ih =>
    obtain ⟨m, hm, hk⟩ := ih (by omega)
    by_cases he : k < (T.st m).sent.length
    · exact ⟨m, hm, he⟩
    · have := (Trace.grows T hm).accepted.length_le
      obtain ⟨m', h1, h2, _⟩ := txt_sends_one F (n := m) (by omega)
      exact ⟨m', by omega, by omega⟩

theorem txt_enters (F : FairText T) {l : List (Option Str)} :
    ∀ (r n : Nat), Kept l r (T.st n) → ∃ m, n ≤ m ∧ Kept l 0 (T.st m) := by
  intro r
  induction r with
  | zero => intro n h; exact ⟨n, Nat.le_refl _, h⟩
  | succ r ih =>
    intro n h
    suffices hh : ∃ m, n ≤ m ∧ Kept l r (T.st m) by
      obtain ⟨m, h1, h2⟩ := hh
      obtain ⟨m', h3, h4⟩ := ih m h2
      exact ⟨m', by omega, h4⟩
    refine Classical.byContradiction fun hno => ?_
    have hall : ∀ m, n ≤ m → Kept l (r + 1) (T.st m) := Trace.keep (P := fun m => Kept l (r + 1) (T.st m)) h fun m hm hp => by
      cases e : T.act m with
      | none => rw [T.none_step e]; exact hp
      | some a =>
        rcases kept_step (T.some_step e) hp with h | ⟨_, h⟩
        · exact h
        · exact absurd ⟨m + 1, by omega, h⟩ hno
    obtain ⟨m, a, hm, ha, hk⟩ := F.strong Enters rfl n fun k hk => by
      obtain ⟨m, h1, h2⟩ : ∃ m, k ≤ m ∧ (T.st m).queue.length < 20 := by
        by_cases h : (T.st k).queue.length < 20
        · exact ⟨k, Nat.le_refl _, h⟩
        · obtain ⟨m, h1, _, h2⟩ := txt_sends_one F (n := k) (by
            rw [(txtLive F k).inv.order (txtLive F k).sending]; simp; omega)
          exact ⟨m, h1, h2⟩
      refine ⟨m, _, h1, rfl, ?_⟩
      have := (hall m (by omega)).1
      cases hp : (T.st m).pending with
      | nil => rw [hp] at this; simp at this
      | cons x xs =>
        simp only [Link.step, hp, (txtLive F m).inv.dead, cSendChanSize]
        simp; omega
    cases hk
    exact hno ⟨m + 1, by omega, kept_enter (T.some_step ha) (hall m hm)⟩

/-- The bytes that have been read. -/
private def got (s : Link Str) : Str := s.delivered.flatten ++ s.recvBuf

private theorem got_step {s t : Link Str} {a : Net.Act Str} (h : s.step txtSerializer a = some t) (I : TxtInv s) :
    got s <+: got t ∧ (∀ k, a = .recv k → got t = got s ++ s.wire.take k ∧ 0 < k ∧ k ≤ s.wire.length) := by
  cases a with
  | recv n =>
    simp only [Link.step] at h
    split at h
    · cases h
    rename_i hn
    obtain ⟨ls, rest, h1, h2, h3, h4⟩ := txt_loop (s.recvBuf.length + (s.wire.take n).length) (s.recvBuf ++ s.wire.take n) (by simp)
    have h1' : recvChunk txtSerializer s.recvBuf (s.wire.take n) = (ls, some rest) := h1
    rw [h1'] at h
    cases h
    have e : (s.delivered ++ ls).flatten ++ rest = s.delivered.flatten ++ s.recvBuf ++ s.wire.take n := by
      rw [List.flatten_append, List.append_assoc s.delivered.flatten, h4, List.append_assoc]
    refine ⟨by unfold got; simp only; rw [e]; exact List.prefix_append _ _, fun k hk => ?_⟩
    cases hk
    exact ⟨by unfold got; simp only; rw [e], by omega, by omega⟩
  | _ =>
    have := recv_step h (by simp)
    unfold got
    rw [this.1, this.2]
    exact ⟨List.prefix_rfl, fun k hk => by cases hk⟩

/-- Every byte that is written is read. -/
private theorem txt_reads (F : FairText T) (k : Nat) {n : Nat} (h : k ≤ (T.st n).sent.flatten.length) :
    ∃ m, n ≤ m ∧ k ≤ (got (T.st m)).length := by
  induction k with
  | zero => exact ⟨n, Nat.le_refl _, Nat.zero_le _⟩
  | succ k ih =>
    obtain ⟨m, hm, hk⟩ := ih (by omega)
    by_cases he : k < (got (T.st m)).length
    · exact ⟨m, hm, he⟩
    have hlen : ∀ m', m ≤ m' → k + 1 ≤ (got (T.st m')).length + (T.st m').wire.length := by
      intro m' hm'
      have I := txtLive F m'
      have e : got (T.st m') ++ (T.st m').wire = (T.st m').sent.flatten := I.inv.whole I.sending
      obtain ⟨y, hy⟩ := (Trace.grows T (show n ≤ m' by omega)).sent
      have := congrArg List.length e
      rw [← hy, List.flatten_append, List.length_append, List.length_append] at this
      omega
    obtain ⟨m1, a, hm1, hp, ha, c, rfl⟩ := F.weak.taken (K := Reads) (.inr rfl)
      (P := fun m' => (got (T.st m')).length = k) (n := m) (by omega)
      (fun m' hm' hp => by
        have I := txtLive F m'
        have := hlen m' hm'
        refine ⟨_, ⟨1, rfl⟩, ?_⟩
        simp only [Link.step, I.inv.gone]
        have hc : ¬(false = true ∨ 1 = 0 ∨ cRecvBytesSize < 1 ∨ (T.st m').wire.length < 1) := by
          rintro (h' | h' | h' | h')
          · cases h'
          · cases h'
          · simp [cRecvBytesSize] at h'
          · omega
        rw [if_neg hc]
        split <;> simp)
      (fun m' hm' hp hno => by
        cases e : T.act m' with
        | none => rw [T.none_step e]; exact hp
        | some a =>
          have := recv_step (T.some_step e) fun c hc => hno _ e ⟨c, hc⟩
          unfold got at hp ⊢
          rw [this.1, this.2]
          exact hp)
    obtain ⟨e, h1, h2⟩ := (got_step (T.some_step ha) (txtLive F m1).inv).2 c rfl
    refine ⟨m1 + 1, by omega, ?_⟩
    rw [e, List.length_append, List.length_take]
    omega

/-- **C158, fair executions.**  In every fair execution of a text connection that nobody closes and on which no write fails: of the
strings passed to `Send` up to any time, those that were not discarded, `l`, have at some time all arrived, whatever strings they are:
what was handed to `OnPacket` by then, with some bytes after it among which is no NUL, begins with some strings that have entered the
queue, in this order, among which are all of `l`. -/
theorem C158_arrives (F : FairText T) (n : Nat) :
    ∃ m, n ≤ m ∧ ∃ (l more : List Str) (ps : List Str) (tail : Str),
      (sendsIn (actsUntil T n)).Perm (l.map some ++ (T.st n).dropped.map Prod.fst) ∧ ps.Perm (l ++ more) ∧
      (T.st n).accepted <+: ps.map some ∧ ps.map some <+: (T.st m).accepted ∧
      (∀ x ∈ (T.st m).delivered, Line x) ∧ 0 ∉ tail ∧ ps.flatten <+: (T.st m).delivered.flatten ++ tail := by
  have all_some : ∀ {l : List (Option Str)}, (∀ x ∈ l, ∃ o, x = some o) → l = (l.filterMap id).map some := by
    intro l
    induction l with
    | nil => intro _; rfl
    | cons x l ih =>
      intro h
      obtain ⟨o, rfl⟩ := h x List.mem_cons_self
      simpa using ih fun y hy => h y (List.mem_cons_of_mem _ hy)
  obtain ⟨m1, h1, _, rest, h2⟩ := txt_enters F (l := (T.st n).accepted ++ (T.st n).pending) (T.st n).pending.length n
    ⟨Nat.le_refl _, [], by simp⟩
  obtain ⟨m2, h3, h4⟩ := txt_sends_all F (n := m1) _ (Nat.le_refl _)
  obtain ⟨m3, h5, h6⟩ := txt_reads F (n := m2) _ (Nat.le_refl _)
  have I1 := txtLive F m1
  have I2 := txtLive F m2
  have I3 := txtLive F m3
  have e1 : (T.st m1).accepted = ((T.st m1).accepted.filterMap id).map some :=
    all_some fun x hx => I1.objs x (List.mem_append_left _ hx)
  have e0 := all_some (txtLive F n).objs
  refine ⟨m3, by omega, ((T.st n).accepted ++ (T.st n).pending).filterMap id, rest.filterMap id, (T.st m1).accepted.filterMap id,
    (T.st m3).recvBuf, ?_, ?_, ?_, ?_, I3.inv.lines, I3.inv.rest, ?_⟩
  · rw [← e0]
    exact C122_sent_once txtSerializer _ _ (actsUntil_run T F.init n)
  · rw [← List.filterMap_append]
    refine List.Perm.filterMap id ?_
    simpa using h2
  · rw [← e1]; exact (Trace.grows T h1).accepted
  · rw [← e1]; exact (Trace.grows T (by omega)).accepted
  · -- what had entered by `m1` is written by `m2` and read by `m3`
    have w2 : got (T.st m2) ++ (T.st m2).wire = (T.st m2).sent.flatten := I2.inv.whole I2.sending
    have w3 : got (T.st m3) ++ (T.st m3).wire = (T.st m3).sent.flatten := I3.inv.whole I3.sending
    have p1 : (T.st m1).accepted.filterMap id <+: (T.st m2).sent := by
      have g := (Trace.grows T h3).accepted
      rw [I2.inv.order I2.sending] at g
      have : (T.st m1).accepted <+: (T.st m2).sent.map some :=
        List.prefix_of_prefix_length_le g (List.prefix_append _ _) (by simpa using h4)
      have := this.filterMap id
      simpa using this
    have p2 : (T.st m2).sent.flatten <+: got (T.st m3) := by
      obtain ⟨y, hy⟩ := (Trace.grows T h5).sent
      refine List.prefix_of_prefix_length_le (l₃ := (T.st m3).sent.flatten) ?_ (by rw [← w3]; exact List.prefix_append _ _) h6
      rw [← hy, List.flatten_append]
      exact List.prefix_append _ _
    obtain ⟨z, hz⟩ := p1
    refine List.IsPrefix.trans ?_ p2
    rw [← hz, List.flatten_append]
    exact List.prefix_append _ _

/-- **C158, one string.**  If `Send` is called once, with a string that consists of the lines `ls` and some bytes after them among which
is no NUL, then in every fair execution `OnPacket` is called with the lines, in this order, and never again. -/
theorem C158_once (F : FairText T) (i : Nat) (ls : List Str) (tail : Str) (hl : ∀ x ∈ ls, Line x) (ht : 0 ∉ tail)
    (hi : T.act i = some (.check (some (ls.flatten ++ tail)))) (only : ∀ j x, T.act j = some (.check x) → j = i) :
    ∃ m, ∀ m', m ≤ m' → (T.st m').delivered = ls := by
  have sends : ∀ n, sendsIn (actsUntil T n) = if i < n then [some (ls.flatten ++ tail)] else [] := by
    intro n
    induction n with
    | zero => rfl
    | succ n ih =>
      have e : sendsIn (actsUntil T (n + 1)) = sendsIn (actsUntil T n) ++ sendsIn (T.act n).toList := by
        unfold sendsIn actsUntil
        rw [List.range_succ, List.filterMap_append, List.filterMap_append]
        cases h : T.act n <;> simp [h]
      rw [e, ih]
      by_cases hn : n = i
      · subst hn
        rw [hi, if_neg (by omega), if_pos (by omega)]
        rfl
      · have : sendsIn (T.act n).toList = [] := by
          cases h : T.act n with
          | none => rfl
          | some a =>
            cases a with
            | check x => exact absurd (only n x h) hn
            | _ => rfl
        rw [this, List.append_nil]
        by_cases hlt : i < n
        · rw [if_pos hlt, if_pos (by omega)]
        · rw [if_neg hlt, if_neg (by omega)]
  have perm : ∀ n, (sendsIn (actsUntil T n)).Perm ((T.st n).accepted ++ (T.st n).pending ++ (T.st n).dropped.map Prod.fst) :=
    fun n => C122_sent_once txtSerializer _ _ (actsUntil_run T F.init n)
  -- the string is not discarded
  have drop : ∀ n, (T.st n).dropped = [] := by
    intro n
    refine Trace.keep (P := fun n => (T.st n).dropped = []) (n := 0) ?_ ?_ n (Nat.zero_le _)
    · rw [F.init]; rfl
    · intro m _ ih
      cases e : T.act m with
      | none => rw [T.none_step e]; exact ih
      | some a =>
        have h := T.some_step e
        cases a with
        | check x =>
          obtain rfl := only m x e
          have hp := perm m
          rw [sends m, if_neg (by omega)] at hp
          have hnil := List.nil_perm.mp hp
          simp only [List.append_eq_nil_iff] at hnil
          have I := txtLive F m
          have ho := I.inv.order I.sending
          rw [hnil.1.1] at ho
          have hq : (T.st m).queue = [] := (List.append_eq_nil_iff.mp ho.symm).2
          simp only [Link.step, hq, cSendChanSize] at h
          repeat' split at h
          · cases h
          · rename_i h'; cases h'
          · rw [← Option.some.inj h]; exact ih
        | _ =>
          simp only [Link.step] at h
          repeat' split at h
          all_goals first | cases h | skip
          all_goals rw [← Option.some.inj h]; exact ih
  have acc : ∀ n, i < n → (T.st n).accepted = [] ∨ (T.st n).accepted = [some (ls.flatten ++ tail)] := by
    intro n hn
    have hp := perm n
    rw [sends n, if_pos hn, drop n, List.map_nil, List.append_nil] at hp
    have hl := hp.length_eq
    simp only [List.length_singleton, List.length_append] at hl
    match h : (T.st n).accepted with
    | [] => exact .inl rfl
    | [x] =>
      have : x ∈ [some (ls.flatten ++ tail)] := hp.mem_iff.mpr (by rw [h]; simp)
      rw [List.mem_singleton.mp this]
      exact .inr rfl
    | x :: y :: r => rw [h] at hl; simp at hl; omega
  obtain ⟨m, hm, l, more, ps, u, h1, h2, -, h4, -, hu, h5⟩ := C158_arrives F (i + 1)
  have hlx : l.map some = [some (ls.flatten ++ tail)] := by
    rw [sends, if_pos (by omega), drop, List.map_nil, List.append_nil] at h1
    exact (List.singleton_perm.mp h1).symm
  have hps : ps = [ls.flatten ++ tail] := by
    have hx : ls.flatten ++ tail ∈ ps := by
      refine h2.mem_iff.mpr (List.mem_append_left _ ?_)
      have : some (ls.flatten ++ tail) ∈ l.map some := by rw [hlx]; simp
      simpa using this
    have hlen := h4.length_le
    rw [List.length_map] at hlen
    match ps, hx with
    | [y], hx => rw [List.mem_singleton.mp hx]
    | y :: z :: r, _ => rcases acc m (by omega) with e | e <;> (rw [e] at hlen; simp at hlen)
  have part : ∀ n, i < n → got (T.st n) <+: ls.flatten ++ tail := by
    intro n hn
    have h := (txtLive F n).inv.part
    refine ((List.prefix_append _ _).trans h).trans ?_
    rcases acc n hn with e | e
    · rw [e]; exact List.nil_prefix
    · rw [e]; simp [stream]
  rw [hps, List.flatten_singleton] at h5
  refine ⟨m, fun m' hm' => ?_⟩
  have p1 := lines_prefix _ _ _ _ hl (txtLive F m).inv.lines hu h5
  have p2 := lines_prefix _ _ _ _ (txtLive F m').inv.lines hl ht (part m' (by omega))
  exact p2.eq_of_length_le (p1.trans (Trace.grows T hm').delivered).length_le

/-! ## The test of the package -/

/-- The string of the test, /repo/network/API_test.go:22. -/
def flowText : Str := bytesOf "Hello" ++ [0] ++ bytesOf " World!\n" ++ [0]

/-- **C158, the test of the package.**  In every fair execution of the connection of `TestFlow`, on which the server sends its string
once, the client is handed two strings, ever: `OnPacket` calls `wg.Done` twice. -/
theorem C158_flow (F : FairText T) (i : Nat) (hi : T.act i = some (.check (some flowText)))
    (only : ∀ j x, T.act j = some (.check x) → j = i) :
    ∃ m, ∀ m', m ≤ m' → (T.st m').delivered = [bytesOf "Hello" ++ [0], bytesOf " World!\n" ++ [0]] :=
  C158_once F i [bytesOf "Hello" ++ [0], bytesOf " World!\n" ++ [0]] []
    (by
      intro x hx
      simp only [List.mem_cons, List.not_mem_nil, or_false] at hx
      rcases hx with rfl | rfl
      · exact ⟨_, rfl, by decide⟩
      · exact ⟨_, rfl, by decide⟩)
    (by simp) (by rw [hi]; rfl) only

/-- An execution of `TestFlow`: the string is sent, and read in three pieces. -/
def flowActs : List (Net.Act Str) := [.check (some flowText), .push 0, .transmit none, .recv 4, .recv 5, .recv 6]

private theorem flow_runs (n : Nat) : run (Link.step txtSerializer) (Link.init _) (flowActs.take n) ≠ none := by
  have h : run (Link.step txtSerializer) (Link.init _) flowActs ≠ none := by
    intro h; cases (show some _ = none from h)
  intro hn
  rw [← List.take_append_drop n flowActs, run_append, hn] at h
  exact h rfl

/-- A fair execution of `TestFlow`, and what C158 says of it. -/
example : ∃ T : Trace (Link.step txtSerializer), FairText T ∧ T.act 0 = some (.check (some flowText)) ∧
    (∀ j x, T.act j = some (.check x) → j = 0) ∧
    ∃ m, ∀ m', m ≤ m' → (T.st m').delivered = [bytesOf "Hello" ++ [0], bytesOf " World!\n" ++ [0]] := by
  let T := restTrace (Link.step txtSerializer) (Link.init _) flowActs flow_runs
  have rest : ∀ n, 6 ≤ n → T.st n = (run (Link.step txtSerializer) (Link.init _) flowActs).getD (Link.init _) := by
    intro n hn
    show (run _ _ (flowActs.take n)).getD _ = _
    rw [List.take_of_length_le (show flowActs.length ≤ n from hn)]
  have stuck : ∀ n, 6 ≤ n → ∀ K, (K = Sends ∨ K = Reads ∨ K = Enters) → ∀ a, K (T.st n) a → Link.step txtSerializer (T.st n) a = none := by
    intro n hn K hK a ha
    rw [rest n hn] at ha ⊢
    rcases hK with rfl | rfl | rfl
    · cases ha; rfl
    · obtain ⟨c, rfl⟩ := ha
      show (if false = true ∨ c = 0 ∨ cRecvBytesSize < c ∨ 0 < c then none else _) = none
      rw [if_pos (by omega)]
    · cases ha; rfl
  have only : ∀ j x, T.act j = some (.check x) → j = 0 := by
    intro j x h
    have h : flowActs[j]? = some (.check x) := h
    match j, h with
    | 0, _ => rfl
    | 1, h => cases h
    | 2, h => cases h
    | 3, h => cases h
    | 4, h => cases h
    | 5, h => cases h
  have F : FairText T := by
    refine ⟨rfl, ?_, ?_, ?_⟩
    · intro n a ha
      have ha : a ∈ flowActs := List.mem_of_getElem? ha
      simp only [flowActs, List.mem_cons, List.not_mem_nil, or_false] at ha
      refine ⟨fun obj e => ?_, fun k e => ?_⟩
      · subst e
        simp only [Net.Act.check.injEq, reduceCtorEq, or_false] at ha
        exact ⟨_, ha, trivial⟩
      · subst e
        simp at ha
    · intro K hK n h
      obtain ⟨a, h1, h2⟩ := h (max n 6) (by omega)
      exact absurd (stuck _ (by omega) K (by rcases hK with h | h <;> simp [h]) a h1) h2
    · intro K hK n h
      obtain ⟨m, a, hm, h1, h2⟩ := h (max n 6) (by omega)
      exact absurd (stuck m (by omega) K (by simp [hK]) a h1) h2
  exact ⟨T, F, rfl, only, C158_flow F 0 rfl only⟩

/-- Strings without a NUL, with NULs inside, and empty ones; a write fails. -/
example : ∃ s, run (Link.step txtSerializer) (Link.init _)
    [.check (some [0x61]), .check (some []), .check (some [0x62, 0, 0, 0x63]), .check (some [0x64, 0]), .push 0, .push 0, .push 0, .push 0,
      .transmit none, .recv 1, .transmit none, .transmit none, .recv 3, .transmit (some 1), .recv 2] = some s ∧
    s.delivered = [[0x61, 0x62, 0], [0]] ∧ s.recvBuf = [0x63, 0x64] ∧ s.sending = false := ⟨_, rfl, rfl, rfl, rfl⟩

end Verif.Props
