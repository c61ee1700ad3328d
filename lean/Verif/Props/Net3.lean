import Verif.Net.Mock

/-!
# The mock network: C33, C34
-/

namespace Verif.Props

open Verif Verif.Net.Mock

/-! ## C33 -/

/-- **C33 refuted.**  A write that is longer than the buffer of the read that meets it loses its end: here the
byte 3 never arrives, and 4 follows 2.  With the 10240 byte buffer of a peer the same happens to every packet of
more than 10240 bytes. -/
theorem C33_byte_stream_refuted :
    ∃ acts p, run Pipe.step Pipe.init acts = some p ∧ p.chan = none ∧
      p.written = [1, 2, 3, 4] ∧ p.out = [1, 2, 4] := by
  exact ⟨[.write [1, 2, 3], .read 2, .write [4], .read 2], _, rfl, rfl, rfl, rfl⟩

/-- The size of a peer's receive buffer, `cRecvBytesSize`, /repo/network/peer.go:15. -/
def recvBytesSize : Nat := 10240

/-- **C33, every long packet is damaged.**  Whatever has gone before, a write of more than 10240 bytes read by a
peer's receive routine loses all bytes after the first 10240. -/
theorem C33_long_write_truncated (acts : List PipeAct) (p q : Pipe) (b : List Byte) (hb : recvBytesSize < b.length)
    (hp : run Pipe.step Pipe.init acts = some p) (open' : p.closed = false)
    (hq : run Pipe.step p [.write b, .read recvBytesSize] = some q) :
    q.written = p.written ++ b ∧ q.out = p.out ++ b.take recvBytesSize ∧ q.chan = none ∧
      (b.take recvBytesSize).length < b.length := by
  simp only [run, Pipe.step, open'] at hq
  cases hc : p.chan with
  | some x => simp [hc] at hq
  | none =>
    simp [hc] at hq
    subst hq
    exact ⟨rfl, rfl, rfl, by simp [List.length_take]; omega⟩

/-- **C33, partial.**  If no write exceeds the buffers of the reads, the bytes read are, at every moment, exactly
the bytes written except those in the channel; in particular when the channel is empty everything has arrived.
After `Close` the reader sees the end only behind all bytes.  Missing from the full property: writes longer than
the read buffer, see `C33_byte_stream_refuted`. -/
theorem C33_byte_stream_partial (m : Nat) (acts : List PipeAct) (p : Pipe)
    (hw : ∀ b, PipeAct.write b ∈ acts → b.length ≤ m) (hr : ∀ n, PipeAct.read n ∈ acts → m ≤ n)
    (h : run Pipe.step Pipe.init acts = some p) :
    (∃ rest, p.written = p.out ++ rest ∧ (p.chan = none → rest = []) ∧ (p.ended = true → rest = [])) := by
  have key : (match p.chan with
      | some (some b) => p.written = p.out ++ b ∧ b.length ≤ m ∧ p.ended = false ∧ p.closed = false
      | some none => p.written = p.out ∧ p.ended = false ∧ p.closed = true
      | none => p.written = p.out ∧ (p.closed = true → p.ended = true) ∧ (p.ended = true → p.closed = true)) := by
    refine run_inv_on (A := fun a => (∀ b, a = .write b → b.length ≤ m) ∧ (∀ n, a = .read n → m ≤ n))
      (I := fun p => match p.chan with
      | some (some b) => p.written = p.out ++ b ∧ b.length ≤ m ∧ p.ended = false ∧ p.closed = false
      | some none => p.written = p.out ∧ p.ended = false ∧ p.closed = true
      | none => p.written = p.out ∧ (p.closed = true → p.ended = true) ∧ (p.ended = true → p.closed = true))
      ?_ acts _ _ ?_ (by simp [Pipe.init]) h
    · rintro ⟨chan, closed, ended, written, out⟩ a t ⟨hA, hB⟩ I hstep
      rcases chan with _ | _ | b
      · simp only at I
        obtain ⟨rfl, I2, I3⟩ := I
        cases a with
        | write b' =>
          have hb := hA b' rfl
          cases closed <;> simp [Pipe.step] at hstep <;> subst hstep
          · cases ended
            · exact ⟨rfl, hb, rfl, rfl⟩
            · simp at I3
          · exact ⟨rfl, I2, I3⟩
        | read n => simp [Pipe.step] at hstep
        | close =>
          cases closed <;> simp [Pipe.step] at hstep <;> subst hstep
          · cases ended
            · exact ⟨rfl, rfl, rfl⟩
            · simp at I3
          · exact ⟨rfl, I2, I3⟩
      · simp only at I
        obtain ⟨rfl, I2, I3⟩ := I
        subst I2 I3
        cases a <;> simp [Pipe.step] at hstep <;> subst hstep <;> simp
      · obtain ⟨I1, I2, I3, I4⟩ := I
        simp only at I1 I2 I3 I4
        subst I1 I3 I4
        cases a with
        | read n =>
          have hn := hB n rfl
          simp [Pipe.step] at hstep
          subst hstep
          simp [List.take_of_length_le (Nat.le_trans I2 hn)]
        | write b' => simp [Pipe.step] at hstep
        | close => simp [Pipe.step] at hstep
    · intro a ha
      exact ⟨fun b e => hw b (e ▸ ha), fun n e => hr n (e ▸ ha)⟩
  rcases hc : p.chan with _ | _ | b
  · rw [hc] at key; exact ⟨[], by simpa using key.1, fun _ => rfl, fun _ => rfl⟩
  · rw [hc] at key; exact ⟨[], by simpa using key.1, fun _ => rfl, fun _ => rfl⟩
  · rw [hc] at key
    exact ⟨b, key.1, (by simp), fun e => by simp [key.2.2.1] at e⟩

example : (run Pipe.step Pipe.init [.write [1, 2, 3], .read 10, .write [4], .read 4, .close, .read 4]).map
    (fun p => (p.out, p.ended)) = some ([1, 2, 3, 4], true) := by
  rfl

/-! ## C34 -/

/-- The invariant behind the pairing of connections. -/
private structure PairInv (heard : Str → Prop) (s : Net) : Prop where
  lsn : ∀ l, l < s.nListeners → heard (s.lAddr l)
  lmap : ∀ a l, s.listeners a = some l → l < s.nListeners ∧ s.lAddr l = a
  fresh : ∀ i, s.nConns ≤ i → s.conns i = noConn
  chanOK : ∀ l i, s.lChan l = some (some i) → i < s.nConns ∧ l < s.nListeners ∧ (s.conns i).stage = .pushed ∧
    (s.conns i).status ≠ 2 ∧ (s.conns i).remoteAddr = s.lAddr l
  chanInj : ∀ l l' i, s.lChan l = some (some i) → s.lChan l' = some (some i) → l = l'
  bumped : ∀ i l, (s.conns i).stage = .bumped l → i < s.nConns ∧ l < s.nListeners ∧ (s.conns i).status ≠ 2 ∧
    ∃ a, (s.conns i).dialled = some a ∧ s.lAddr l = formatAddr a
  named : ∀ i l, (s.conns i).stage = .named l → i < s.nConns ∧ l < s.nListeners ∧ (s.conns i).status ≠ 2 ∧
    (s.conns i).remoteAddr = s.lAddr l ∧ ∀ l', s.lChan l' ≠ some (some i)
  accepted : ∀ i, (s.conns i).dialled = none → (s.conns i).stage = .polling ∧ (s.conns i).status = 0
  remote : ∀ i a, (s.conns i).dialled = some a →
    (s.conns i).stage = .pushed ∨ (∃ l, (s.conns i).stage = .named l) →
    (s.conns i).remoteAddr = formatAddr a ∧ heard (formatAddr a)
  early : ∀ i, (s.conns i).stage = .polling → (s.conns i).status = 0
  paired : ∀ i, (s.conns i).status = 2 → ∃ j, (s.conns i).peer = some j ∧ j < s.nConns ∧ j ≠ i ∧
    (s.conns j).dialled = none ∧ (s.conns j).peer = some i ∧ (s.conns j).localAddr = (s.conns i).remoteAddr ∧
    (s.conns j).remoteAddr = (s.conns i).localAddr
  late : ∀ i, (s.conns i).wait ≠ .waiting → (s.conns i).stage = .pushed
  ret : ∀ i, (s.conns i).wait = .returned true → (s.conns i).status = 2

set_option maxHeartbeats 2000000 in
private theorem pairInv_step (heard : Str → Prop) (s : Net) (a : Act) (t : Net)
    (ha : ∀ b, a = .listen b → heard (formatAddr b)) (I : PairInv heard s) (h : s.step a = some t) :
    PairInv heard t := by
  unfold Net.step at h
  split at h
  · cases h
  obtain ⟨h1, h2, h3, h4, h5, h6, h7, h8, h9, h10, h11, h12, h13⟩ := I
  cases a with
  | listen b =>
    have hb := ha b rfl
    simp only [Option.some.injEq] at h
    subst h
    constructor <;> simp only [upd] <;> grind
  | dial b =>
    simp only [Option.some.injEq] at h
    subst h
    constructor <;> simp only [upd] <;> grind [noConn]
  | bump i =>
    simp only at h
    split at h
    · split at h
      · simp only [Option.some.injEq] at h
        subst h
        constructor <;> simp only [upd] <;> grind [noConn]
      · cases h
    · cases h
  | name i =>
    simp only at h
    split at h
    · simp only [Option.some.injEq] at h
      subst h
      constructor <;> simp only [upd] <;> grind [noConn]
    · cases h
  | push i =>
    simp only at h
    split at h
    · split at h
      · simp only [Option.some.injEq] at h
        subst h
        constructor <;> simp only [upd] <;> grind [noConn]
      · cases h
    · cases h
  | accept l =>
    simp only at h
    split at h
    · split at h
      · rename_i i hl
        simp only [Option.some.injEq] at h
        subst h
        obtain ⟨b1, b2, b3, b4, b5⟩ := h4 l i hl
        have hn := h3 s.nConns (Nat.le_refl _)
        have hne : i ≠ s.nConns := by omega
        refine ⟨h1, h2, ?_, ?_, ?_, ?_, ?_, ?_, ?_, ?_, ?_, ?_, ?_⟩
        · intro k hk
          simp only at hk
          simp only [upd, if_neg (show k ≠ s.nConns by omega), if_neg (show k ≠ i by omega)]
          exact h3 k (by omega)
        · intro l' k hk
          simp only [upd] at hk
          split at hk
          · cases hk
          · rename_i hne'
            obtain ⟨c1, c2, c3, c4, c5⟩ := h4 l' k hk
            have hki : k ≠ i := by rintro rfl; exact hne' (h5 l' l k hk hl)
            simp only [upd, if_neg (show k ≠ s.nConns by omega), if_neg hki]
            exact ⟨by omega, c2, c3, c4, c5⟩
        · intro l1 l2 k e1 e2
          simp only [upd] at e1 e2
          split at e1
          · cases e1
          · split at e2
            · cases e2
            · exact h5 _ _ _ e1 e2
        · intro k l' hk
          simp only [upd] at hk ⊢
          split at hk
          · cases hk
          · rename_i hkn
            rw [if_neg hkn]
            split at hk
            · rename_i e; subst e; rw [b3] at hk; cases hk
            · rename_i hki
              rw [if_neg hki]
              obtain ⟨c1, c2⟩ := h6 k l' hk
              exact ⟨by omega, c2⟩
        · intro k l' hk
          simp only [upd] at hk ⊢
          split at hk
          · cases hk
          · rename_i hkn
            rw [if_neg hkn]
            split at hk
            · rename_i e; subst e; rw [b3] at hk; cases hk
            · rename_i hki
              rw [if_neg hki]
              obtain ⟨c1, c2, c3, c4, c5⟩ := h7 k l' hk
              refine ⟨by omega, c2, c3, c4, ?_⟩
              intro l''
              split
              · simp
              · exact c5 l''
        · intro k hk
          simp only [upd] at hk ⊢
          split at hk
          · rename_i e; rw [if_pos e]; exact ⟨rfl, rfl⟩
          · rename_i e
            rw [if_neg e]
            split at hk
            · rename_i e'; subst e'
              have := (h8 _ hk).1
              rw [b3] at this; cases this
            · rename_i e'; rw [if_neg e']; exact h8 k hk
        · intro k b hk hst
          simp only [upd] at hk hst ⊢
          by_cases e : k = s.nConns
          · rw [if_pos e] at hk; cases hk
          · rw [if_neg e] at hk hst ⊢
            by_cases e' : k = i
            · subst e'; rw [if_pos rfl] at hk hst ⊢; exact h9 k b hk hst
            · rw [if_neg e'] at hk hst ⊢; exact h9 k b hk hst
        · intro k hk
          simp only [upd] at hk ⊢
          by_cases e : k = s.nConns
          · rw [if_pos e]; rfl
          · rw [if_neg e] at hk ⊢
            by_cases e' : k = i
            · subst e'; rw [if_pos rfl] at hk; rw [b3] at hk; cases hk
            · rw [if_neg e'] at hk ⊢; exact h10 k hk
        · intro k hk
          by_cases e : k = s.nConns
          · simp [upd, e, noConn] at hk
          · by_cases e' : k = i
            · subst e'
              refine ⟨s.nConns, ?_, Nat.lt_succ_self _, Ne.symm e, ?_⟩
              · simp [upd, e]
              · simp [upd, e, noConn, b5]
            · simp only [upd, if_neg e, if_neg e'] at hk
              obtain ⟨j, c1, c2, c3, c4, c5, c6, c7⟩ := h11 k hk
              have hj : j ≠ i := by
                rintro rfl
                have := (h8 _ c4).1
                rw [b3] at this; cases this
              refine ⟨j, ?_, Nat.lt_succ_of_lt c2, c3, ?_⟩
              · simpa only [upd, if_neg e, if_neg e'] using c1
              · simp only [upd, if_neg e, if_neg e', if_neg (show j ≠ s.nConns by omega), if_neg hj]
                exact ⟨c4, c5, c6, c7⟩
        · intro k hk
          simp only [upd] at hk ⊢
          by_cases e : k = s.nConns
          · rw [if_pos e] at hk; exact absurd rfl hk
          · rw [if_neg e] at hk ⊢
            by_cases e' : k = i
            · rw [if_pos e']; exact b3
            · rw [if_neg e'] at hk ⊢; exact h12 k hk
        · intro k hk
          simp only [upd] at hk ⊢
          by_cases e : k = s.nConns
          · rw [if_pos e] at hk; cases hk
          · rw [if_neg e] at hk ⊢
            by_cases e' : k = i
            · rw [if_pos e']
            · rw [if_neg e'] at hk ⊢; exact h13 k hk
      · simp only [Option.some.injEq] at h
        subst h
        constructor <;> simp only [upd] <;> grind
      · cases h
    · cases h
  | record l =>
    simp only at h
    repeat' split at h
    all_goals cases h
    all_goals exact ⟨h1, h2, h3, h4, h5, h6, h7, h8, h9, h10, h11, h12, h13⟩
  | see i =>
    simp only at h
    repeat' split at h
    all_goals cases h
    constructor <;> simp only [upd] <;> grind [noConn]
  | expire i =>
    simp only at h
    repeat' split at h
    all_goals cases h
    constructor <;> simp only [upd] <;> grind [noConn]
  | giveUp i =>
    simp only at h
    repeat' split at h
    all_goals cases h
    constructor <;> simp only [upd] <;> grind [noConn]
  | ret i =>
    simp only at h
    repeat' split at h
    all_goals cases h
    constructor <;> simp only [upd] <;> grind [noConn]
  | lclose l =>
    simp only at h
    repeat' split at h
    all_goals cases h
    constructor <;> simp only [upd] <;> grind [noConn]
  | lclear l =>
    simp only at h
    repeat' split at h
    all_goals cases h
    exact ⟨h1, h2, h3, h4, h5, h6, h7, h8, h9, h10, h11, h12, h13⟩
  | reset =>
    simp only [Option.some.injEq] at h
    subst h
    constructor <;> simp only <;> grind

/-- **C34, pairing.**  In every execution a connection whose `Dial` succeeded (status 2) has a peer whose peer is
itself; somebody listens on the dialled port; its remote address is "0.0.0.0:" and that port, which is also the
peer's local address, and the peer's remote address is its local one. -/
theorem C34_paired (acts : List Act) (s : Net) (h : run Net.step Net.init acts = some s) (i : Nat) (a : Str)
    (hd : (s.conns i).dialled = some a) (h2 : (s.conns i).status = 2) :
    ∃ j b, (s.conns i).peer = some j ∧ (s.conns j).peer = some i ∧ j ≠ i ∧
      Act.listen b ∈ acts ∧ (s.conns j).localAddr = (s.conns i).remoteAddr ∧
      (s.conns j).remoteAddr = (s.conns i).localAddr ∧
      ∀ host port, a = host ++ 58 :: port → 58 ∉ port →
        (s.conns i).remoteAddr = [48, 46, 48, 46, 48, 46, 48, 58] ++ port ∧
        (b = port ∨ ∃ host', b = host' ++ 58 :: port) := by
  have I : PairInv (fun x => ∃ b, Act.listen b ∈ acts ∧ formatAddr b = x) s := by
    refine run_inv_on (A := fun a => ∀ b, a = .listen b → ∃ b', Act.listen b' ∈ acts ∧ formatAddr b' = formatAddr b)
      (fun s a t ha I hs => pairInv_step _ s a t ha I hs) acts _ _ ?_ ?_ h
    · intro act hact b e
      exact ⟨b, e ▸ hact, rfl⟩
    · constructor <;> simp [Net.init, noConn]
  obtain ⟨j, c1, c2, c3, c4, c5, c6, c7⟩ := I.paired i h2
  have hst : (s.conns i).stage = .pushed ∨ ∃ l, (s.conns i).stage = .named l := by
    cases e : (s.conns i).stage with
    | polling => have := I.early i e; omega
    | bumped l => exact absurd h2 (I.bumped i l e).2.2.1
    | named l => exact Or.inr ⟨l, rfl⟩
    | pushed => exact Or.inl rfl
  obtain ⟨d1, b, d2, d3⟩ := I.remote i a hd hst
  refine ⟨j, b, c1, c5, c3, d2, c6, c7, ?_⟩
  rintro host port rfl hp
  have hl : lastSegment (host ++ 58 :: port) = port := lastSegment_append host port hp
  refine ⟨by rw [d1, formatAddr, hl]; rfl, ?_⟩
  have hb : lastSegment b = port := by
    have := List.append_cancel_left d3
    rw [this, hl]
  have := lastSegment_cases b
  rw [hb] at this
  exact this

/-- **C34, pairing.**  This applies to every connection whose `Dial` returned without error. -/
theorem C34_dialled (acts : List Act) (s : Net) (h : run Net.step Net.init acts = some s) (i : Nat)
    (hr : (s.conns i).wait = .returned true) : (s.conns i).status = 2 := by
  have I : PairInv (fun _ => True) s := by
    refine run_inv_on (A := fun _ => True) (fun s a t _ I hs => pairInv_step _ s a t (fun _ _ => trivial) I hs) acts _ _
      (fun _ _ => trivial) ?_ h
    constructor <;> simp [Net.init, noConn]
  exact I.ret i hr

/-- Facts about all executions that later files use. -/
theorem pairInv_any (acts : List Act) (s : Net) (h : run Net.step Net.init acts = some s) :
    (∀ i, s.nConns ≤ i → s.conns i = noConn) ∧ (∀ i, (s.conns i).wait ≠ .waiting → (s.conns i).stage = .pushed) ∧
    ∀ l i, s.lChan l = some (some i) → (s.conns i).stage = .pushed := by
  have I : PairInv (fun _ => True) s := by
    refine run_inv_on (A := fun _ => True) (fun s a t _ I hs => pairInv_step _ s a t (fun _ _ => trivial) I hs) acts _ _
      (fun _ _ => trivial) ?_ h
    constructor <;> simp [Net.init, noConn]
  exact ⟨I.fresh, I.late, fun l i hc => (I.chanOK l i hc).2.2.1⟩

/-- The status of a connection that has been handed over. -/
theorem offered_status (acts : List Act) (s : Net) (h : run Net.step Net.init acts = some s) (i : Nat)
    (hp : (s.conns i).stage = .pushed) :
    (s.conns i).status = 1 ∨ (s.conns i).status = 2 ∨ ((s.conns i).status = -1 ∧ (s.conns i).wait ≠ .waiting) := by
  revert hp
  have : ∀ i, ((s.conns i).stage = .pushed ∨ ∃ l, (s.conns i).stage = .named l) → (s.conns i).status = 1 ∨
      (s.conns i).status = 2 ∨ ((s.conns i).status = -1 ∧ (s.conns i).wait ≠ .waiting) := by
    refine run_inv (I := fun s : Net => ∀ i, ((s.conns i).stage = .pushed ∨ ∃ l, (s.conns i).stage = .named l) →
      (s.conns i).status = 1 ∨ (s.conns i).status = 2 ∨ ((s.conns i).status = -1 ∧ (s.conns i).wait ≠ .waiting)) ?_ acts
      _ _ (by simp [Net.init, noConn]) h
    intro s a t I h
    unfold Net.step at h
    split at h
    · cases h
    cases a <;> simp only at h <;> repeat' split at h
    all_goals cases h
    all_goals simp only [upd]
    all_goals grind [noConn]
  exact fun hp => this i (Or.inl hp)

/-- The connection has been given its local address. -/
private def HasName (c : Conn) : Prop := c.stage = .pushed ∨ ∃ l, c.stage = .named l

/-- Every connection that has a name got it from a port of its own. -/
private def NameInv (s : Net) : Prop :=
  ∃ port : Nat → Nat,
    (∀ i, HasName (s.conns i) → (s.conns i).localAddr = anyHost ++ decimal (port i) ∧ port i ≤ s.vport) ∧
    (∀ i k, HasName (s.conns i) → HasName (s.conns k) → port i = port k → i = k) ∧
    (∀ i l, (s.conns i).stage = .bumped l → (∀ k, HasName (s.conns k) → port k < s.vport) ∧
      ∀ k l', (s.conns k).stage = .bumped l' → k = i)

private theorem nameInv_weaken (s t : Net) (hv : t.vport = s.vport)
    (hN : ∀ i, HasName (t.conns i) → HasName (s.conns i) ∧ (t.conns i).localAddr = (s.conns i).localAddr)
    (hB : ∀ i l, (t.conns i).stage = .bumped l → (s.conns i).stage = .bumped l) (I : NameInv s) : NameInv t := by
  obtain ⟨port, h1, h2, h3⟩ := I
  refine ⟨port, ?_, ?_, ?_⟩
  · intro i hi
    obtain ⟨a, b⟩ := hN i hi
    rw [b, hv]; exact h1 i a
  · intro i k hi hk
    exact h2 i k (hN i hi).1 (hN k hk).1
  · intro i l hi
    obtain ⟨a, b⟩ := h3 i l (hB i l hi)
    refine ⟨fun k hk => by rw [hv]; exact a k (hN k hk).1, fun k l' hk => b k l' (hB k l' hk)⟩

private theorem nameInv_step (s : Net) (a : Act) (t : Net)
    (ok : a ≠ .reset ∧ ∀ i, a = .bump i → ∀ k l, (s.conns k).stage ≠ .bumped l)
    (I : NameInv s) (h : s.step a = some t) : NameInv t := by
  unfold Net.step at h
  split at h
  · cases h
  cases a with
  | listen b =>
    simp only [Option.some.injEq] at h
    subst h
    exact nameInv_weaken s _ rfl (fun i hi => ⟨hi, rfl⟩) (fun i l hi => hi) I
  | dial b =>
    simp only [Option.some.injEq] at h
    subst h
    refine nameInv_weaken s _ rfl ?_ ?_ I <;> intro k <;> simp only [upd] <;> split <;>
      simp [HasName, noConn]
  | bump i =>
    have hno := ok.2 i rfl
    obtain ⟨port, h1, h2, h3⟩ := I
    simp only at h
    split at h
    · split at h
      · rename_i l _
        simp only [Option.some.injEq] at h
        subst h
        have hN : ∀ k, HasName (upd s.conns i { s.conns i with stage := .bumped l } k) →
            HasName (s.conns k) ∧ upd s.conns i { s.conns i with stage := .bumped l } k = s.conns k := by
          intro k
          simp only [upd]; split
          · simp [HasName]
          · exact fun h => ⟨h, rfl⟩
        refine ⟨port, ?_, ?_, ?_⟩
        · intro k hk
          obtain ⟨x, y⟩ := hN k hk
          simp only [y]
          exact ⟨(h1 k x).1, Nat.le_succ_of_le (h1 k x).2⟩
        · intro k k' hk hk'
          exact h2 k k' (hN k hk).1 (hN k' hk').1
        · intro k l1 hk
          refine ⟨fun k' hk' => Nat.lt_succ_of_le (h1 k' (hN k' hk').1).2, ?_⟩
          have all : ∀ k l1, (upd s.conns i { s.conns i with stage := .bumped l } k).stage = .bumped l1 → k = i := by
            intro k l1
            simp only [upd]; split
            · exact fun _ => by assumption
            · exact fun h => absurd h (hno k l1)
          intro k' l' hk'
          rw [all k l1 hk, all k' l' hk']
      · cases h
    · cases h
  | name i =>
    obtain ⟨port, h1, h2, h3⟩ := I
    simp only at h
    split at h
    · rename_i l hl
      simp only [Option.some.injEq] at h
      subst h
      obtain ⟨b1, b2⟩ := h3 i l hl
      have hNi : ¬ HasName (s.conns i) := by simp [HasName, hl]
      refine ⟨upd port i s.vport, ?_, ?_, ?_⟩
      · intro k hk
        by_cases e : k = i
        · subst e; simp
        · simp only [upd, if_neg e] at hk ⊢
          exact h1 k hk
      · intro k k' hk hk' hp
        by_cases e : k = i <;> by_cases e' : k' = i
        · rw [e, e']
        · simp only [upd, if_neg e', if_pos e] at hk' hp
          have := b1 k' hk'; omega
        · simp only [upd, if_neg e, if_pos e'] at hk hp
          have := b1 k hk; omega
        · simp only [upd, if_neg e, if_neg e'] at hk hk' hp
          exact h2 k k' hk hk' hp
      · intro k l1 hk
        by_cases e : k = i
        · simp [upd, e] at hk
        · simp only [upd, if_neg e] at hk
          exact absurd (b2 k l1 hk) e
    · cases h
  | push i =>
    simp only at h
    split at h
    · rename_i l hl
      split at h
      · simp only [Option.some.injEq] at h
        subst h
        refine nameInv_weaken s _ rfl ?_ ?_ I <;> intro k <;> simp only [upd] <;> split <;>
          simp_all [HasName]
      · cases h
    · cases h
  | accept l =>
    simp only at h
    repeat' split at h
    all_goals cases h
    · refine nameInv_weaken s _ rfl ?_ ?_ I <;> intro k <;> simp only [upd] <;> split <;>
        (try split) <;> simp_all [HasName, noConn]
    · exact nameInv_weaken s _ rfl (fun i hi => ⟨hi, rfl⟩) (fun i l hi => hi) I
  | see i =>
    simp only at h
    repeat' split at h
    all_goals cases h
    refine nameInv_weaken s _ rfl ?_ ?_ I <;> intro k <;> simp only [upd] <;> split <;> simp_all [HasName]
  | expire i =>
    simp only at h
    repeat' split at h
    all_goals cases h
    refine nameInv_weaken s _ rfl ?_ ?_ I <;> intro k <;> simp only [upd] <;> split <;> simp_all [HasName]
  | giveUp i =>
    simp only at h
    repeat' split at h
    all_goals cases h
    refine nameInv_weaken s _ rfl ?_ ?_ I <;> intro k <;> simp only [upd] <;> split <;> simp_all [HasName]
  | ret i =>
    simp only at h
    repeat' split at h
    all_goals cases h
    refine nameInv_weaken s _ rfl ?_ ?_ I <;> intro k <;> simp only [upd] <;> split <;> simp_all [HasName]
  | record l =>
    simp only at h
    repeat' split at h
    all_goals cases h
    all_goals exact nameInv_weaken s _ rfl (fun i hi => ⟨hi, rfl⟩) (fun i l hi => hi) I
  | lclose l =>
    simp only at h
    repeat' split at h
    all_goals cases h
    all_goals exact nameInv_weaken s _ rfl (fun i hi => ⟨hi, rfl⟩) (fun i l hi => hi) I
  | lclear l =>
    simp only at h
    repeat' split at h
    all_goals cases h
    all_goals exact nameInv_weaken s _ rfl (fun i hi => ⟨hi, rfl⟩) (fun i l hi => hi) I
  | reset => exact absurd rfl ok.1

/-- A dialled connection has been offered to its listener, so that its addresses are set. -/
def Dialled (s : Net) (i : Nat) : Prop := (s.conns i).stage = .pushed

/-- **C34, unique local addresses, partial.**  Two dialled connections have different local addresses, provided
that `reset` is not used and that no two dialling routines execute lines 56-59 at the same time.  Missing from
the full property: these two cases, see `C34_unique_address_refuted`. -/
theorem C34_unique_address_partial (acts : List Act) (s : Net) (h : run Net.step Net.init acts = some s)
    (noReset : Act.reset ∉ acts)
    (noOverlap : AllSteps Net.step Net.init acts
      (fun s a => ∀ i, a = .bump i → ∀ k l, (s.conns k).stage ≠ .bumped l))
    (i k : Nat) (hi : Dialled s i) (hk : Dialled s k) (hne : i ≠ k) :
    (s.conns i).localAddr ≠ (s.conns k).localAddr := by
  have I : NameInv s := by
    refine run_inv_steps (ok := fun s a => a ≠ .reset ∧ ∀ i, a = .bump i → ∀ k l, (s.conns k).stage ≠ .bumped l)
      nameInv_step acts _ _ ?_ ?_ h
    · intro pre a post t he ht
      exact ⟨fun e => noReset (by rw [he, ← e]; simp), noOverlap pre a post t he ht⟩
    · exact ⟨fun _ => 0, by simp [Net.init, noConn, HasName], by simp [Net.init, noConn, HasName],
        by simp [Net.init, noConn]⟩
  obtain ⟨port, h1, h2, _⟩ := I
  intro e
  rw [(h1 i (Or.inl hi)).1, (h1 k (Or.inl hk)).1] at e
  exact hne (h2 i k (Or.inl hi) (Or.inl hk) (decimal_inj _ _ (List.append_cancel_left e)))

/-- The address ":5" and a run with two dialled connections, one accepted. -/
example : ((run Net.step Net.init [.listen [58, 53], .dial [49, 58, 53], .bump 0, .name 0, .push 0, .accept 0,
    .dial [58, 53], .bump 2, .name 2, .push 2]).map fun s =>
      ((s.conns 0).status, (s.conns 0).peer, (s.conns 1).peer, (s.conns 2).status, s.vport)) =
    some (2, some 1, some 0, 1, 65538) := by
  rfl

/-- **C34 refuted, unique addresses.**  (1) `reset` sets the counter back, so that a later connection gets the
address of an earlier one that is still open.  (2) Two dialling routines that both increment the counter before
either reads it get the same address. -/
theorem C34_unique_address_refuted :
    (∃ acts s i k, run Net.step Net.init acts = some s ∧ i ≠ k ∧ (s.conns i).status = 2 ∧ Dialled s i ∧
      Dialled s k ∧ (s.conns i).localAddr = (s.conns k).localAddr) ∧
    (∃ acts s i k, run Net.step Net.init acts = some s ∧ Act.reset ∉ acts ∧ i ≠ k ∧ Dialled s i ∧ Dialled s k ∧
      (s.conns i).localAddr = (s.conns k).localAddr) := by
  refine ⟨⟨[.listen [58, 53], .dial [58, 53], .bump 0, .name 0, .push 0, .accept 0, .reset, .listen [58, 53],
      .dial [58, 53], .bump 2, .name 2, .push 2, .accept 1, .dial [58, 53], .bump 4, .name 4, .push 4],
      _, 0, 4, rfl, by decide, rfl, rfl, rfl, rfl⟩,
    ⟨[.listen [58, 53], .listen [58, 54], .dial [58, 53], .dial [58, 54], .bump 0, .bump 1, .name 0, .name 1,
      .push 0, .push 1], _, 0, 1, rfl, by decide, by decide, rfl, rfl, rfl⟩⟩

end Verif.Props
