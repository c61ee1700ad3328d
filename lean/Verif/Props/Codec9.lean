import Verif.Props.Codec2

/-!
# Unknown tags: C73
-/

namespace Verif.Props

open Verif Verif.Codec

/-- The tags of /repo/codec/code.go:9-39 that the decoder handles, as numbers. -/
def knownTags : List Byte :=
  [0xc0, 0xc2, 0xc3, 0xca, 0xcb, 0xcc, 0xcd, 0xce, 0xcf, 0xd0, 0xd1, 0xd2, 0xd3, 0xdb, 0xdd, 0xdf]

private theorem decodeF_unknown (c : Byte) (hc : c ∉ knownTags) (fuel : Nat) (s : List Byte) :
    decodeF bytesReader (fuel + 1) (c :: s) = .err .unsupportedCode := by
  simp only [knownTags, List.mem_cons, List.not_mem_nil, or_false, not_or] at hc
  simp only [decodeF, readByte_cons, Res.bind_ok]
  unfold decodeTag
  simp only [cNil, cFalse, cTrue, cFloat32, cFloat64, cUint8, cUint16, cUint32, cUint64, cInt8, cInt16, cInt32,
    cInt64, cStr32, cArr32, cMap32, hc, if_false]

private theorem array_unknown (xs : List Val) (h : wireOKList xs = true) (c : Byte) (hc : c ∉ knownTags)
    (s : List Byte) (m fuel : Nat) (hf : (encodeElems xs).bytes.length ≤ fuel) (h1 : 1 ≤ fuel) :
    decodeArray (decodeF bytesReader fuel) (xs.length + 1 + m) ((encodeElems xs).bytes ++ c :: s) =
      .err .unsupportedCode := by
  induction xs with
  | nil =>
    obtain ⟨f, rfl⟩ : ∃ f, fuel = f + 1 := ⟨fuel - 1, by omega⟩
    rw [show ([] : List Val).length + 1 + m = m + 1 by simp; omega]
    change decodeArray _ (m + 1) (c :: s) = _
    simp only [decodeArray]
    rw [decodeF_unknown c hc f s]
    rfl
  | cons x xs ih =>
    simp only [wireOKList, Bool.and_eq_true] at h
    obtain ⟨hx1, hx2, hx3⟩ := rt_value x h.1
    simp only [encodeElems] at hf ⊢
    rw [Enc.seq_bytes hx1] at hf ⊢
    simp only [List.length_append] at hf
    rw [show (x :: xs).length + 1 + m = (xs.length + 1 + m) + 1 by simp; omega]
    simp only [decodeArray, List.append_assoc]
    rw [hx3 _ fuel (by omega)]
    simp only [Res.bind_ok]
    rw [ih h.2 (by omega)]
    rfl

/-- **C73.**  An item that begins with an unknown tag is rejected, whatever follows: as the whole input, and as an
array element behind any list `xs` of well-formed elements; every known tag begins an accepted input. -/
theorem C73_unknown_tag_rejected :
    (∀ (c : Byte) (s : List Byte), c ∉ knownTags → decode (c :: s) = .err .unsupportedCode) ∧
    (∀ (xs : List Val) (c : Byte) (s : List Byte) (n : Nat), c ∉ knownTags → wireOKList xs = true →
      xs.length < n → n < 2 ^ 32 →
      decode (header cArr32 n ++ (encodeElems xs).bytes ++ c :: s) = .err .unsupportedCode) ∧
    (∀ c ∈ knownTags, ∃ s v, decode (c :: s) = .ok (v, [])) := by
  refine ⟨fun c s hc => decodeF_unknown c hc _ s, ?_, ?_⟩
  · intro xs c s n hc hx hn h32
    obtain ⟨m, rfl⟩ : ∃ m, n = xs.length + 1 + m := ⟨n - (xs.length + 1), by omega⟩
    rw [List.append_assoc, decode, decodeF_arr _ _ _ h32,
      array_unknown xs hx c hc s m _ (by simp; omega) (by simp [header_length]; omega)]
    rfl
  · intro c hc
    simp only [knownTags, List.mem_cons, List.not_mem_nil, or_false] at hc
    rcases hc with rfl | rfl | rfl | rfl | rfl | rfl | rfl | rfl | rfl | rfl | rfl | rfl | rfl | rfl | rfl | rfl
    · exact ⟨[], _, rfl⟩
    · exact ⟨[], _, rfl⟩
    · exact ⟨[], _, rfl⟩
    · exact ⟨[0xce, 0x3f, 0x80, 0, 0], _, rfl⟩
    · exact ⟨[0xcf, 0x3f, 0xf0, 0, 0, 0, 0, 0, 0], _, rfl⟩
    · exact ⟨[7], _, rfl⟩
    · exact ⟨[1, 2], _, rfl⟩
    · exact ⟨[1, 2, 3, 4], _, rfl⟩
    · exact ⟨[1, 2, 3, 4, 5, 6, 7, 8], _, rfl⟩
    · exact ⟨[7], _, rfl⟩
    · exact ⟨[1, 2], _, rfl⟩
    · exact ⟨[1, 2, 3, 4], _, rfl⟩
    · exact ⟨[1, 2, 3, 4, 5, 6, 7, 8], _, rfl⟩
    · exact ⟨[0, 0, 0, 1, 65], _, rfl⟩
    · exact ⟨[0, 0, 0, 0], _, rfl⟩
    · exact ⟨[0, 0, 0, 0], _, rfl⟩

/-- Such an array: [5, "A", <unknown>]. -/
example : (0x99 : Byte) ∉ knownTags ∧ wireOKList [.int .int 0 5, .str 0 [65]] = true ∧
    decode (header cArr32 3 ++ (encodeElems [.int .int 0 5, .str 0 [65]]).bytes ++ [0x99, 1]) =
      .err .unsupportedCode := by
  refine ⟨by decide, rfl, ?_⟩
  exact C73_unknown_tag_rejected.2.1 _ _ _ _ (by decide) rfl (by decide) (by decide)

end Verif.Props
