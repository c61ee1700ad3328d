import Verif.Codec.Write
import Verif.Props.Codec7

/-! # C93: writers that fail -/

namespace Verif.Props

open Verif Verif.Codec

/-! ## C93: Encode reports failed writes -/

/-- The error an encoding on a buffer ends with. -/
def sameErr : Option WriteErr → Option GoErr → Prop
  | none, none => True
  | some .unsupported, some .unsupportedType => True
  | _, _ => False

/-- How encoding went: either no call of `Write` failed and everything has been accepted; or one failed, that is
reported, and the beginning has been accepted. -/
def Went {σ : Type} (a : Emit σ) (e : Enc) : Prop :=
  ∀ s, ∃ new, (a s).2.calls = s.calls ++ new ∧
    (((∀ c ∈ new, c.err = none) ∧ accepted new = e.bytes ∧ sameErr (a s).1 e.err) ∨
     ((∃ c ∈ new, c.err ≠ none) ∧ accepted new <+: e.bytes ∧ ∃ k, (a s).1 = some (.writer k)))

section
variable {σ : Type} {W : Writer σ}

theorem accepted_append (a b : List WriteCall) : accepted (a ++ b) = accepted a ++ accepted b := by
  simp [accepted]

theorem went_emit (hl : W.lawful) (bs : List Byte) : Went (emit W bs) (.ok bs) := by
  intro s
  refine ⟨[⟨bs, (W.write s.st bs).1, (W.write s.st bs).2.1⟩], rfl, ?_⟩
  cases h : (W.write s.st bs).2.1 with
  | none =>
    refine Or.inl ⟨by simp, ?_, ?_⟩
    · simp [accepted, (hl s.st bs).2 h, Enc.ok]
    · simp [emit, h, Enc.ok, sameErr]
  | some k =>
    refine Or.inr ⟨by simp, ?_, k, ?_⟩
    · simpa [accepted, Enc.ok] using List.take_prefix _ bs
    · simp [emit, h]

theorem went_seq {a b : Emit σ} {e f : Enc} (ha : Went a e) (hb : Went b f) : Went (a.seq b) (e.seq f) := by
  intro s
  obtain ⟨new, h1, h2⟩ := ha s
  cases hs : a s with
  | mk r t =>
    rw [hs] at h1 h2
    rcases h2 with ⟨h2, h3, h4⟩ | ⟨h2, h3, k, h4⟩
    · cases r with
      | none =>
        have he : e.err = none := by
          cases h : e.err with
          | none => rfl
          | some x => rw [h] at h4; exact absurd h4 (by simp [sameErr])
        obtain ⟨new', g1, g2⟩ := hb t
        have hq : (a.seq b) s = b t := by simp [Emit.seq, hs]
        have hf : e.seq f = ⟨e.bytes ++ f.bytes, f.err⟩ := by simp [Enc.seq, he]
        refine ⟨new ++ new', by rw [hq, g1]; simp only at h1; rw [h1, List.append_assoc], ?_⟩
        rw [hq, hf]
        rcases g2 with ⟨g2, g3, g4⟩ | ⟨g2, g3, k, g4⟩
        · refine Or.inl ⟨?_, ?_, g4⟩
          · intro c hc
            rcases List.mem_append.mp hc with hc | hc
            · exact h2 c hc
            · exact g2 c hc
          · rw [accepted_append, h3, g3]
        · refine Or.inr ⟨?_, ?_, k, g4⟩
          · obtain ⟨c, hc, hn⟩ := g2
            exact ⟨c, List.mem_append_right _ hc, hn⟩
          · rw [accepted_append, h3]
            exact (List.prefix_append_right_inj _).mpr g3
      | some x =>
        have hq : (a.seq b) s = (some x, t) := by simp [Emit.seq, hs]
        cases h : e.err with
        | none => rw [h] at h4; cases x <;> exact absurd h4 (by simp [sameErr])
        | some y =>
          have hf : e.seq f = ⟨e.bytes, some y⟩ := by simp [Enc.seq, h]
          refine ⟨new, by rw [hq]; exact h1, Or.inl ⟨h2, by rw [hf]; exact h3, ?_⟩⟩
          rw [hq, hf, ← h]; exact h4
    · simp only at h4
      subst h4
      have hq : (a.seq b) s = (some (.writer k), t) := by simp [Emit.seq, hs]
      refine ⟨new, by rw [hq]; exact h1, Or.inr ⟨h2, ?_, k, by rw [hq]⟩⟩
      refine h3.trans ?_
      unfold Enc.seq
      split
      · exact List.prefix_append _ _
      · exact List.prefix_rfl

/-- Two writes where the failure of the first is ignored. -/
theorem went_ignore (hl : W.lawful) {bad : σ → Prop} (hb : W.breaks bad) (x y : List Byte) :
    Went ((emit W x).ignore (emit W y)) (.ok (x ++ y)) := by
  intro s
  refine ⟨[⟨x, (W.write s.st x).1, (W.write s.st x).2.1⟩,
    ⟨y, (W.write (W.write s.st x).2.2 y).1, (W.write (W.write s.st x).2.2 y).2.1⟩], by simp [Emit.ignore, emit], ?_⟩
  have hr : (((emit W x).ignore (emit W y)) s).1 = ((W.write (W.write s.st x).2.2 y).2.1).map WriteErr.writer := rfl
  rw [hr]
  cases h : (W.write s.st x).2.1 with
  | none =>
    have hn := (hl s.st x).2 h
    cases g : (W.write (W.write s.st x).2.2 y).2.1 with
    | none =>
      refine Or.inl ⟨by simp, ?_, by simp [Enc.ok, sameErr]⟩
      simp [accepted, hn, (hl _ y).2 g, Enc.ok]
    | some k =>
      refine Or.inr ⟨by simp, ?_, k, rfl⟩
      simpa [accepted, hn, Enc.ok] using List.take_prefix _ y
  | some j =>
    have h0 := hb.2 _ y (hb.1 s.st x (by rw [h]; simp))
    cases g : (W.write (W.write s.st x).2.2 y).2.1 with
    | none => exact absurd g h0.2
    | some k =>
      refine Or.inr ⟨by simp, ?_, k, rfl⟩
      simp only [accepted, List.flatMap_cons, List.flatMap_nil, h0.1, List.take_zero, List.append_nil, Enc.ok]
      exact (List.take_prefix _ x).trans (List.prefix_append _ _)

end

section
variable {σ : Type} {W : Writer σ}

theorem went_done : Went (σ := σ) (fun s => (none, s)) (.ok []) := by
  intro s
  exact ⟨[], by simp, Or.inl ⟨by simp, rfl, trivial⟩⟩

/-- Tables of encoders that go alike. -/
inductive WentTable : List (Val × Emit σ × Emit σ) → List (Val × Enc × Enc) → Prop where
  | nil : WentTable [] []
  | cons {k a b e f l m} : Went a e → Went b f → WentTable l m → WentTable ((k, a, b) :: l) ((k, e, f) :: m)

theorem went_index (hl : W.lawful) (k : Val) {l : List (Val × Emit σ × Emit σ)} {m : List (Val × Enc × Enc)}
    (h : WentTable l m) : Went (emitMapIndex W k l) (encodeMapIndex k m) := by
  induction h with
  | nil => exact went_emit hl _
  | cons ha hb _ ih =>
    simp only [emitMapIndex, encodeMapIndex]
    split
    · exact hb
    · exact ih

theorem went_loop (hl : W.lawful) {t : List (Val × Emit σ × Emit σ)} {u : List (Val × Enc × Enc)}
    (ht : WentTable t u) {l : List (Val × Emit σ × Emit σ)} {m : List (Val × Enc × Enc)}
    (h : WentTable l m) : Went (emitMapLoop W t l) (encodeMapLoop u m) := by
  induction h with
  | nil => exact went_done
  | cons ha hb _ ih =>
    simp only [emitMapLoop, encodeMapLoop]
    exact went_seq (went_seq ha (went_index hl _ ht)) ih

mutual

theorem went_value (hl : W.lawful) : ∀ v : Val, (∃ bad, W.breaks bad) ∨ floatFree v = true →
    Went (emitValue W v) (encodeValue v)
  | .nil, _ => went_emit hl _
  | .bool _ _, _ => went_emit hl _
  | .f32 _ _, h => by
    rcases h with ⟨bad, h⟩ | h
    · exact went_ignore hl h _ _
    · cases h
  | .f64 _ _, h => by
    rcases h with ⟨bad, h⟩ | h
    · exact went_ignore hl h _ _
    · cases h
  | .uint _ _ _, _ => went_emit hl _
  | .int _ _ _, _ => went_emit hl _
  | .str _ s, _ => by
    simp only [emitValue, encodeValue]
    exact went_seq (went_emit hl _) (went_emit hl s)
  | .seq _ xs, h => by
    simp only [emitValue, encodeValue]
    exact went_seq (went_emit hl _) (went_elems hl xs (by simpa only [floatFree] using h))
  | .map _ kvs, h => by
    simp only [emitValue, encodeValue]
    have ht := went_table hl kvs (by simpa only [floatFree] using h)
    exact went_seq (went_emit hl _) (went_loop hl ht ht)
  | .bad _, _ => by
    intro s
    exact ⟨[], by simp [emitValue], Or.inl ⟨by simp, rfl, trivial⟩⟩

theorem went_elems (hl : W.lawful) : ∀ xs : List Val, (∃ bad, W.breaks bad) ∨ floatFreeList xs = true →
    Went (emitElems W xs) (encodeElems xs)
  | [], _ => went_done
  | x :: xs, h => by
    simp only [emitElems, encodeElems]
    simp only [floatFreeList, Bool.and_eq_true] at h
    exact went_seq (went_value hl x (h.imp id And.left)) (went_elems hl xs (h.imp id And.right))

theorem went_table (hl : W.lawful) : ∀ kvs : List (Val × Val), (∃ bad, W.breaks bad) ∨ floatFreeEntries kvs = true →
    WentTable (emitTable W kvs) (encodeTable kvs)
  | [], _ => .nil
  | (k, v) :: rest, h => by
    simp only [emitTable, encodeTable]
    simp only [floatFreeEntries, Bool.and_eq_true] at h
    exact .cons (went_value hl k (h.imp id fun h => h.1.1)) (went_value hl v (h.imp id fun h => h.1.2))
      (went_table hl rest (h.imp id And.right))

end

theorem went_top (hl : W.lawful) (v : Val) (h : (∃ bad, W.breaks bad) ∨ floatFree v = true) :
    Went (encodeTo W v) (encode v) := by
  have hv := went_value hl v h
  have key : ∀ x y : List Byte, floatFree v = false → Went ((emit W x).ignore (emit W y)) (.ok (x ++ y)) := by
    intro x y hn
    rcases h with ⟨bad, h⟩ | h
    · exact went_ignore hl h _ _
    · rw [hn] at h; cases h
  cases v with
  | bool tid b => cases tid <;> first | exact went_emit hl _ | exact hv
  | uint k tid w => cases tid <;> cases k <;> first | exact went_emit hl _ | exact hv
  | int k tid w => cases tid <;> cases k <;> first | exact went_emit hl _ | exact hv
  | f32 tid b => cases tid <;> first | exact key _ _ rfl | exact hv
  | f64 tid b => cases tid <;> first | exact key _ _ rfl | exact hv
  | str tid s =>
    cases tid with
    | zero => exact went_seq (went_emit hl (header cStr32 s.length)) (went_emit hl s)
    | succ n => exact hv
  | _ => exact hv

end

/-- C93 (partial): Encode on any writer that keeps to the contract of `io.Writer`.  If the value contains no floating
point number, or the writer is of no use once a call has failed: when no call of `Write` fails, Encode returns what it
returns on a buffer, nil unless some part has no encoding, and the writer has accepted the same bytes; when a call fails,
Encode returns an error of the writer, and what the writer has accepted is the beginning of the encoding.

Missing: floating point numbers on writers that recover, see `C93_swallowed_refuted`. -/
theorem C93_reported_partial {σ : Type} (W : Writer σ) (hl : W.lawful) (v : Val)
    (h : (∃ bad, W.breaks bad) ∨ floatFree v = true) (s : Sink σ) :
    ∃ new, (encodeTo W v s).2.calls = s.calls ++ new ∧
      ((∀ c ∈ new, c.err = none) → accepted new = (encode v).bytes ∧
        ((encodeTo W v s).1 = none ↔ (encode v).err = none)) ∧
      ((∃ c ∈ new, c.err ≠ none) → accepted new <+: (encode v).bytes ∧ ∃ k, (encodeTo W v s).1 = some (.writer k)) := by
  obtain ⟨new, h1, h2⟩ := went_top hl v h s
  refine ⟨new, h1, ?_⟩
  rcases h2 with ⟨h2, h3, h4⟩ | ⟨h2, h3, h4⟩
  · refine ⟨fun _ => ⟨h3, ?_⟩, fun ⟨c, hc, hn⟩ => absurd (h2 c hc) hn⟩
    revert h4
    cases (encodeTo W v s).1 <;> cases (encode v).err <;> simp [sameErr]
  · refine ⟨fun hn => ?_, fun _ => ⟨h3, h4⟩⟩
    obtain ⟨c, hc, he⟩ := h2
    exact absurd (hn c hc) he

/-- What the writer in use accepted during the encoding, and whether an error was reported. -/
def outcome {σ : Type} (W : Writer σ) (v : Val) (st : σ) : List Byte × Bool :=
  (accepted (encodeTo W v ⟨st, []⟩).2.calls, (encodeTo W v ⟨st, []⟩).1.isSome)

theorem bufferWriter_lawful : bufferWriter.lawful := fun _ _ => ⟨Nat.le_refl _, fun _ => rfl⟩

theorem roomWriter_lawful : roomWriter.lawful := by
  intro s bs
  cases s with
  | none => simp [roomWriter]
  | some room =>
    simp only [roomWriter]
    split
    · simp
    · simp; omega

theorem roomWriter_breaks : roomWriter.breaks (· = none) := by
  constructor
  · intro s bs h
    cases s with
    | none => rfl
    | some room =>
      simp only [roomWriter] at h ⊢
      split
      · rename_i hl
        rw [if_pos hl] at h
        exact absurd rfl h
      · rfl
  · rintro s bs rfl
    simp [roomWriter]

theorem hiccupWriter_lawful : hiccupWriter.lawful := by
  intro s bs
  cases s <;> simp [hiccupWriter]

/-- A list with a string and a float, on a writer with enough room and on ones that fill up in the header of the list,
in the string and behind the tag of the float. -/
example : (∃ bad, roomWriter.breaks bad) ∧ roomWriter.lawful ∧
    let v : Val := .seq .ifaceSlice [.str 0 [0x61, 0x62], .f64 0 0x3ff0000000000000#64]
    (encode v).bytes = [0xdd, 0, 0, 0, 2, 0xdb, 0, 0, 0, 2, 0x61, 0x62, 0xcb, 0xcf, 0x3f, 0xf0, 0, 0, 0, 0, 0, 0] ∧
    outcome roomWriter v (some 22) = ((encode v).bytes, false) ∧
    outcome roomWriter v (some 3) = ([0xdd, 0, 0], true) ∧
    outcome roomWriter v (some 11) = ([0xdd, 0, 0, 0, 2, 0xdb, 0, 0, 0, 2, 0x61], true) ∧
    outcome roomWriter v (some 13) = ([0xdd, 0, 0, 0, 2, 0xdb, 0, 0, 0, 2, 0x61, 0x62, 0xcb], true) :=
  ⟨⟨_, roomWriter_breaks⟩, roomWriter_lawful, by decide +kernel⟩

/-- A map without floats on a writer that fails once. -/
example : hiccupWriter.lawful ∧ floatFree (.map .ifaceMap [(.str 0 [0x61], .int .int 0 7)]) = true ∧
    outcome hiccupWriter (.map .ifaceMap [(.str 0 [0x61], .int .int 0 7)]) false = ([], true) :=
  ⟨hiccupWriter_lawful, by decide +kernel⟩

/-- C93 (refuted): the error of the `Write` for the tag of a floating point number is ignored
(/repo/codec/encoder.go:29, 34).  On a writer whose first call fails and which then recovers, Encode of every `float64`
reports success although the tag is missing, and what was written decodes as an integer. -/
theorem C93_swallowed_refuted (bits : BitVec 64) :
    hiccupWriter.lawful ∧
    ∃ c rest, (encodeTo hiccupWriter (.f64 0 bits) ⟨false, []⟩).2.calls = c :: rest ∧ c.err ≠ none ∧
      (encodeTo hiccupWriter (.f64 0 bits) ⟨false, []⟩).1 = none ∧
      accepted (c :: rest) ≠ (encode (.f64 0 bits)).bytes ∧
      accepted (c :: rest) = (encode (.uint .u64 0 bits)).bytes := by
  refine ⟨hiccupWriter_lawful, ⟨[cFloat64], 0, some 0⟩, [⟨encodeUint64 bits, (encodeUint64 bits).length, none⟩], rfl,
    by simp, rfl, ?_, ?_⟩
  · intro h
    have := congrArg List.length h
    simp [accepted, encode, Enc.ok, encodeFloat64] at this
  · simp only [accepted, List.flatMap_cons, List.flatMap_nil, List.take_zero, List.take_length, List.nil_append,
      List.append_nil]
    rfl

end Verif.Props
