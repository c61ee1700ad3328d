import Verif.Props.Codec2

/-! # C09, exactly: which truncated encodings are accepted -/

namespace Verif.Props

open Verif Verif.Codec

/-- Of the five header bytes of a string, list or map with `count` elements only `m` arrived: the tag and
at least one byte of the count, and the bytes that arrived are all zero. -/
def headCut (count m : Nat) : Bool := decide (2 ≤ m ∧ m < 5 ∧ count < 256 ^ (5 - m))

mutual

/-- The truncations that go unnoticed.  The encoding of `v` is `n` bytes long and its last `l` bytes are
missing.  An integer goes unnoticed if one byte behind its tag arrived; a float if one byte behind its two
tags arrived; a string if at least one, but not every, byte of its contents arrived, or if the header was cut
and what arrived of the length is zero; a list or map if its header was cut and what arrived of the count
is zero, or if its last element (its last value) goes unnoticed. -/
def unnoticed : Val → Nat → Nat → Bool
  | .nil, _, _ => false
  | .bool _ _, _, _ => false
  | .uint _ _ _, n, l => decide (l + 2 ≤ n)
  | .int _ _ _, n, l => decide (l + 2 ≤ n)
  | .f32 _ _, n, l => decide (l + 3 ≤ n)
  | .f64 _ _, n, l => decide (l + 3 ≤ n)
  | .str _ s, n, l => headCut s.length (n - l) || decide (l < s.length)
  | .seq _ xs, n, l => headCut xs.length (n - l) || unnoticedLast xs l
  | .map _ kvs, n, l => headCut kvs.length (n - l) || unnoticedLastValue kvs l
  | .bad _, _, _ => false

/-- The last element goes unnoticed. -/
def unnoticedLast : List Val → Nat → Bool
  | [], _ => false
  | [x], l => unnoticed x (encodeValue x).bytes.length l
  | _ :: y :: rest, l => unnoticedLast (y :: rest) l

/-- The last value of a map goes unnoticed. -/
def unnoticedLastValue : List (Val × Val) → Nat → Bool
  | [], _ => false
  | [(_, v)], l => unnoticed v (encodeValue v).bytes.length l
  | _ :: y :: rest, l => unnoticedLastValue (y :: rest) l

end

/-- Decoding a proper prefix of `bs`, of which the last `l` bytes are missing: an error unless `sil l`. -/
private def Cut (bs : List Byte) (sil : Nat → Bool) : Prop :=
  (∀ l, sil l = true → l < bs.length) ∧
  ∀ m, m < bs.length → ∀ fuel, m < fuel →
    (sil (bs.length - m) = true → ∃ u, decodeF bytesReader fuel (bs.take m) = .ok (u, [])) ∧
    (sil (bs.length - m) = false → decodeF bytesReader fuel (bs.take m) = .err .eof)

private theorem decodeF_nil (f : Nat) (h : 0 < f) : decodeF bytesReader f [] = .err .eof := by
  obtain ⟨g, rfl⟩ : ∃ g, f = g + 1 := ⟨f - 1, by omega⟩
  simp [decodeF]

/-! ## Scalars -/

private theorem cut_one {bs : List Byte} (h : bs.length = 1) : Cut bs (fun _ => false) := by
  refine ⟨fun _ h => (by cases h), fun m hm fuel hf => ⟨fun h => (by cases h), fun _ => ?_⟩⟩
  obtain rfl : m = 0 := by omega
  exact decodeF_nil _ (by omega)

/-- Tag and width of the integers. -/
private def IntTag (c : Byte) (w : Nat) : Prop :=
  (c = cUint8 ∧ w = 1) ∨ (c = cUint16 ∧ w = 2) ∨ (c = cUint32 ∧ w = 4) ∨ (c = cUint64 ∧ w = 8) ∨
  (c = cInt8 ∧ w = 1) ∨ (c = cInt16 ∧ w = 2) ∨ (c = cInt32 ∧ w = 4) ∨ (c = cInt64 ∧ w = 8)

private theorem intTag_eof {c : Byte} {w : Nat} (h : IntTag c w) (f : Nat) :
    decodeF bytesReader (f + 1) [c] = .err .eof := by
  rcases h with ⟨rfl, _⟩ | ⟨rfl, _⟩ | ⟨rfl, _⟩ | ⟨rfl, _⟩ | ⟨rfl, _⟩ | ⟨rfl, _⟩ | ⟨rfl, _⟩ | ⟨rfl, _⟩ <;> rfl

private theorem u32_short (q : List Byte) (hq : q ≠ []) (hl : q.length ≤ 4) (f : Nat) :
    ∃ b, decodeF bytesReader (f + 1) (cUint32 :: q) = .ok (.uint .u32 0 b, []) := by
  simp [decodeF, decodeTag, cUint32, cNil, cFalse, cTrue, cFloat32, cFloat64, cUint8, cUint16, readUint32,
    readBuf_ne hq, List.drop_eq_nil_of_le hl]
  exact ⟨_, rfl⟩

private theorem u64_short (q : List Byte) (hq : q ≠ []) (hl : q.length ≤ 8) (f : Nat) :
    ∃ b, decodeF bytesReader (f + 1) (cUint64 :: q) = .ok (.uint .u64 0 b, []) := by
  simp [decodeF, decodeTag, cUint32, cUint64, cNil, cFalse, cTrue, cFloat32, cFloat64, cUint8, cUint16,
    readUint64, readBuf_ne hq, List.drop_eq_nil_of_le hl]
  exact ⟨_, rfl⟩

private theorem intTag_short {c : Byte} {w : Nat} (h : IntTag c w) (q : List Byte) (hq : q ≠ [])
    (hl : q.length ≤ w) (f : Nat) : ∃ u, decodeF bytesReader (f + 1) (c :: q) = .ok (u, []) := by
  have hb : readByte bytesReader q = .ok (at' (fill 1 (q.take 1)) 0, q.drop 1) := by
    simp [readByte, readBuf_ne hq]
  rcases h with ⟨rfl, rfl⟩ | ⟨rfl, rfl⟩ | ⟨rfl, rfl⟩ | ⟨rfl, rfl⟩ | ⟨rfl, rfl⟩ | ⟨rfl, rfl⟩ | ⟨rfl, rfl⟩ |
      ⟨rfl, rfl⟩ <;>
    simp [decodeF, decodeTag, cUint32, cUint64, cNil, cFalse, cTrue, cFloat32, cFloat64, cUint8, cUint16,
      cInt8, cInt16, cInt32, cInt64, hb, readUint16, readUint32, readUint64, readBuf_ne hq,
      List.drop_eq_nil_of_le hl]

private theorem cut_int {c : Byte} {p : List Byte} (h : IntTag c p.length) :
    Cut (c :: p) (fun l => decide (l + 2 ≤ (c :: p).length)) := by
  refine ⟨fun l h => by simp only [decide_eq_true_eq] at h; omega, ?_⟩
  intro m hm fuel hf
  obtain ⟨f, rfl⟩ : ∃ f, fuel = f + 1 := ⟨fuel - 1, by omega⟩
  simp only [List.length_cons] at hm ⊢
  match m with
  | 0 => exact ⟨fun h => by simp only [decide_eq_true_eq] at h; omega, fun _ => decodeF_nil _ (by omega)⟩
  | 1 => exact ⟨fun h => by simp only [decide_eq_true_eq] at h; omega, fun _ => intTag_eof h f⟩
  | m + 2 =>
    refine ⟨fun _ => ?_, fun h => by simp at h; omega⟩
    have hne : p.take (m + 1) ≠ [] := by
      intro h0
      have := congrArg List.length h0
      rw [List.length_take, List.length_nil] at this
      omega
    exact intTag_short h (p.take (m + 1)) hne (by rw [List.length_take]; omega) f

private theorem uint64_form (v : BitVec 64) : ∃ c p, encodeUint64 v = c :: p ∧ IntTag c p.length := by
  unfold encodeUint64 encodeUint32 encodeUint16 encodeUint8
  split
  · split
    · split <;> exact ⟨_, _, rfl, by simp [IntTag]⟩
    · exact ⟨_, _, rfl, by simp [IntTag]⟩
  · exact ⟨_, _, rfl, by simp [IntTag]⟩

private theorem uint32_form (v : BitVec 32) : ∃ c p, encodeUint32 v = c :: p ∧ IntTag c p.length := by
  unfold encodeUint32 encodeUint16 encodeUint8
  split
  · split <;> exact ⟨_, _, rfl, by simp [IntTag]⟩
  · exact ⟨_, _, rfl, by simp [IntTag]⟩

private theorem uint16_form (v : BitVec 16) : ∃ c p, encodeUint16 v = c :: p ∧ IntTag c p.length := by
  unfold encodeUint16 encodeUint8
  split <;> exact ⟨_, _, rfl, by simp [IntTag]⟩

private theorem int64_form (v : BitVec 64) : ∃ c p, encodeInt64 v = c :: p ∧ IntTag c p.length := by
  unfold encodeInt64 encodeInt32 encodeInt16 encodeInt8
  split
  · split
    · split <;> exact ⟨_, _, rfl, by simp [IntTag]⟩
    · exact ⟨_, _, rfl, by simp [IntTag]⟩
  · exact ⟨_, _, rfl, by simp [IntTag]⟩

private theorem int32_form (v : BitVec 32) : ∃ c p, encodeInt32 v = c :: p ∧ IntTag c p.length := by
  unfold encodeInt32 encodeInt16 encodeInt8
  split
  · split <;> exact ⟨_, _, rfl, by simp [IntTag]⟩
  · exact ⟨_, _, rfl, by simp [IntTag]⟩

private theorem int16_form (v : BitVec 16) : ∃ c p, encodeInt16 v = c :: p ∧ IntTag c p.length := by
  unfold encodeInt16 encodeInt8
  split <;> exact ⟨_, _, rfl, by simp [IntTag]⟩

private theorem cut_intForm {bs : List Byte} (h : ∃ c p, bs = c :: p ∧ IntTag c p.length) :
    Cut bs (fun l => decide (l + 2 ≤ bs.length)) := by
  obtain ⟨c, p, rfl, h⟩ := h
  exact cut_int h

private theorem cut_f64 {b : BitVec 64} (h : 2^32 ≤ b.toNat) :
    Cut (encodeFloat64 b) (fun l => decide (l + 3 ≤ (encodeFloat64 b).length)) := by
  obtain ⟨p, hp, hl⟩ : ∃ p : List Byte, encodeFloat64 b = cFloat64 :: cUint64 :: p ∧ p.length = 8 := by
    rw [encodeFloat64, encodeUint64, if_neg (by simp [cUint32Max]; omega)]
    exact ⟨_, rfl, rfl⟩
  rw [hp]
  refine ⟨fun l h => by simp only [decide_eq_true_eq] at h; omega, ?_⟩
  intro m hm fuel hf
  obtain ⟨f, rfl⟩ : ∃ f, fuel = f + 1 := ⟨fuel - 1, by omega⟩
  simp only [List.length_cons] at hm ⊢
  match m with
  | 0 => exact ⟨fun h => by simp only [decide_eq_true_eq] at h; omega, fun _ => decodeF_nil _ (by omega)⟩
  | 1 =>
    refine ⟨fun h => by simp only [decide_eq_true_eq] at h; omega, fun _ => ?_⟩
    rw [List.take_succ_cons, List.take_zero, decodeF_float64_tag, decodeF_nil f (by omega)]
    rfl
  | 2 =>
    obtain ⟨g, rfl⟩ : ∃ g, f = g + 1 := ⟨f - 1, by omega⟩
    refine ⟨fun h => by simp only [decide_eq_true_eq] at h; omega, fun _ => ?_⟩
    rw [List.take_succ_cons, List.take_succ_cons, List.take_zero, decodeF_float64_tag,
      intTag_eof (w := 8) (by simp [IntTag]) g]
    rfl
  | m + 3 =>
    obtain ⟨g, rfl⟩ : ∃ g, f = g + 1 := ⟨f - 1, by omega⟩
    refine ⟨fun _ => ?_, fun h => by simp at h; omega⟩
    have hne : p.take (m + 1) ≠ [] := by
      intro h0
      have := congrArg List.length h0
      rw [List.length_take, List.length_nil] at this
      omega
    obtain ⟨b', hb⟩ := u64_short (p.take (m + 1)) hne (by simp; omega) g
    refine ⟨.f64 0 b', ?_⟩
    rw [List.take_succ_cons, List.take_succ_cons, decodeF_float64_tag, hb]
    rfl

private theorem cut_f32 {b : BitVec 32} (h : 2^16 ≤ b.toNat) :
    Cut (encodeFloat32 b) (fun l => decide (l + 3 ≤ (encodeFloat32 b).length)) := by
  obtain ⟨p, hp, hl⟩ : ∃ p : List Byte, encodeFloat32 b = cFloat32 :: cUint32 :: p ∧ p.length = 4 := by
    rw [encodeFloat32, encodeUint32, if_neg (by simp [cUint16Max]; omega)]
    exact ⟨_, rfl, rfl⟩
  rw [hp]
  refine ⟨fun l h => by simp only [decide_eq_true_eq] at h; omega, ?_⟩
  intro m hm fuel hf
  obtain ⟨f, rfl⟩ : ∃ f, fuel = f + 1 := ⟨fuel - 1, by omega⟩
  simp only [List.length_cons] at hm ⊢
  match m with
  | 0 => exact ⟨fun h => by simp only [decide_eq_true_eq] at h; omega, fun _ => decodeF_nil _ (by omega)⟩
  | 1 =>
    refine ⟨fun h => by simp only [decide_eq_true_eq] at h; omega, fun _ => ?_⟩
    rw [List.take_succ_cons, List.take_zero, decodeF_float32_tag, decodeF_nil f (by omega)]
    rfl
  | 2 =>
    obtain ⟨g, rfl⟩ : ∃ g, f = g + 1 := ⟨f - 1, by omega⟩
    refine ⟨fun h => by simp only [decide_eq_true_eq] at h; omega, fun _ => ?_⟩
    rw [List.take_succ_cons, List.take_succ_cons, List.take_zero, decodeF_float32_tag,
      intTag_eof (w := 4) (by simp [IntTag]) g]
    rfl
  | m + 3 =>
    obtain ⟨g, rfl⟩ : ∃ g, f = g + 1 := ⟨f - 1, by omega⟩
    refine ⟨fun _ => ?_, fun h => by simp at h; omega⟩
    have hne : p.take (m + 1) ≠ [] := by
      intro h0
      have := congrArg List.length h0
      rw [List.length_take, List.length_nil] at this
      omega
    obtain ⟨b', hb⟩ := u32_short (p.take (m + 1)) hne (by simp; omega) g
    refine ⟨.f32 0 b', ?_⟩
    rw [List.take_succ_cons, List.take_succ_cons, decodeF_float32_tag, hb]
    rfl

/-! ## Headers -/

private theorem shl_zero {b : Byte} {k : Nat} (hk : k ≤ 24) : shl 32 b k = 0#32 ↔ b.toNat = 0 := by
  have hb := b.isLt
  constructor
  · intro h
    have := congrArg BitVec.toNat h
    simp only [shl, BitVec.toNat_shiftLeft, BitVec.toNat_setWidth, BitVec.toNat_ofNat, Nat.shiftLeft_eq] at this
    rw [Nat.mod_eq_of_lt (show b.toNat < 2^32 by omega)] at this
    have h2 : 2^k ≤ 2^24 := Nat.pow_le_pow_right (by omega) hk
    have h3 : b.toNat * 2^k < 2^32 := by
      calc b.toNat * 2^k ≤ 255 * 2^24 := Nat.mul_le_mul (by omega) h2
        _ < 2^32 := by decide
    rw [Nat.mod_eq_of_lt h3] at this
    rcases Nat.mul_eq_zero.mp (by simpa using this) with h | h
    · exact h
    · have := Nat.two_pow_pos k; omega
  · intro h
    have : b = 0#8 := BitVec.eq_of_toNat_eq (by simpa using h)
    subst this
    simp [shl]

private theorem byte_shift (n k : Nat) (h : n < 2^32) :
    (byte ((BitVec.ofNat 64 n) >>> k)).toNat = n / 2^k % 256 := by
  simp only [byte, BitVec.toNat_setWidth, BitVec.toNat_ushiftRight, BitVec.toNat_ofNat, Nat.shiftRight_eq_div_pow]
  rw [Nat.mod_eq_of_lt (show n < 2^64 by omega)]

/-- What is read of a count whose last bytes are missing. -/
private theorem short_count (n : Nat) (hn : n < 2^32) (j : Nat) (h1 : 1 ≤ j) (h4 : j < 4) (t : List Byte) :
    ∃ r : BitVec 32, readUint32 bytesReader
        ((byte ((BitVec.ofNat 64 n) >>> 24) :: byte ((BitVec.ofNat 64 n) >>> 16) ::
          byte ((BitVec.ofNat 64 n) >>> 8) :: byte (BitVec.ofNat 64 n) :: t).take j) = .ok (r, []) ∧
      (r.toNat = 0 ↔ n < 256 ^ (4 - j)) := by
  have a := byte_shift n 24 hn
  have b := byte_shift n 16 hn
  have c := byte_shift n 8 hn
  generalize byte ((BitVec.ofNat 64 n) >>> 24) = x at a
  generalize byte ((BitVec.ofNat 64 n) >>> 16) = y at b
  generalize byte ((BitVec.ofNat 64 n) >>> 8) = z at c
  have key : ∀ r : BitVec 32, (r.toNat = 0 ↔ r = 0#32) := fun r =>
    ⟨fun h => BitVec.eq_of_toNat_eq (by simpa using h), fun h => by subst h; rfl⟩
  have hz : ∀ k, shl 32 0 k = 0#32 := by intro k; simp [shl]
  match j, h1, h4 with
  | 1, _, _ =>
    refine ⟨_, by simp [readUint32, readBuf_ne, fill, at']; rfl, ?_⟩
    rw [key]
    simp only [BitVec.or_eq_zero_iff, shl_zero (show 24 ≤ 24 by omega), hz]
    simp [shl]
    omega
  | 2, _, _ =>
    refine ⟨_, by simp [readUint32, readBuf_ne, fill, at']; rfl, ?_⟩
    rw [key]
    simp only [BitVec.or_eq_zero_iff, shl_zero (show 24 ≤ 24 by omega), shl_zero (show 16 ≤ 24 by omega), hz]
    simp [shl]
    omega
  | 3, _, _ =>
    refine ⟨_, by simp [readUint32, readBuf_ne, fill, at']; rfl, ?_⟩
    rw [key]
    simp only [BitVec.or_eq_zero_iff, shl_zero (show 24 ≤ 24 by omega), shl_zero (show 16 ≤ 24 by omega),
      shl_zero (show 8 ≤ 24 by omega), hz]
    simp [shl]
    omega

private theorem header_take (c : Byte) (n j : Nat) (t : List Byte) :
    (header c n ++ t).take (j + 1) = c :: ((byte ((BitVec.ofNat 64 n) >>> 24) ::
      byte ((BitVec.ofNat 64 n) >>> 16) :: byte ((BitVec.ofNat 64 n) >>> 8) :: byte (BitVec.ofNat 64 n) :: t).take j) := by
  rw [header_append, List.take_succ_cons]

private theorem header_take5 (c : Byte) (n m : Nat) (t : List Byte) :
    (header c n ++ t).take (5 + m) = header c n ++ t.take m := by
  rw [show 5 + m = (header c n).length + m by rw [header_length], List.take_length_add_append]

private theorem decodeF_str (f : Nat) (q : List Byte) : decodeF bytesReader (f + 1) (cStr32 :: q) = (do
    let (n, s) ← readUint32 bytesReader q
    if n.toNat = 0 then return (.str 0 [], s)
    else
      let (d, s) ← readBuf bytesReader s n.toNat
      return (.str 0 d, s)) := by
  simp [decodeF, decodeTag, cStr32, cNil, cFalse, cTrue, cFloat32, cFloat64, cUint8, cUint16, cUint32, cUint64,
    cInt8, cInt16, cInt32, cInt64]

private theorem decodeF_arr' (f : Nat) (q : List Byte) : decodeF bytesReader (f + 1) (cArr32 :: q) = (do
    let (n, s) ← readUint32 bytesReader q
    let (vs, s) ← decodeArray (decodeF bytesReader f) n.toNat s
    return (.seq .ifaceSlice vs, s)) := by
  simp [decodeF, decodeTag, cStr32, cNil, cFalse, cTrue, cFloat32, cFloat64, cUint8, cUint16, cUint32, cUint64,
    cInt8, cInt16, cInt32, cInt64, cArr32]

private theorem decodeF_map' (f : Nat) (q : List Byte) : decodeF bytesReader (f + 1) (cMap32 :: q) = (do
    let (n, s) ← readUint32 bytesReader q
    let (kvs, s) ← decodeMap (decodeF bytesReader f) n.toNat [] s
    return (.map .ifaceMap kvs, s)) := by
  simp [decodeF, decodeTag, cStr32, cNil, cFalse, cTrue, cFloat32, cFloat64, cUint8, cUint16, cUint32, cUint64,
    cInt8, cInt16, cInt32, cInt64, cArr32, cMap32]

private theorem array_nil (f n : Nat) (hf : 0 < f) (hn : n ≠ 0) :
    decodeArray (decodeF bytesReader f) n [] = .err .eof := by
  obtain ⟨k, rfl⟩ : ∃ k, n = k + 1 := ⟨n - 1, by omega⟩
  rw [decodeArray, decodeF_nil f hf]
  rfl

private theorem map_nil (f n : Nat) (d : List (Val × Val)) (hf : 0 < f) (hn : n ≠ 0) :
    decodeMap (decodeF bytesReader f) n d [] = .err .eof := by
  obtain ⟨k, rfl⟩ : ∃ k, n = k + 1 := ⟨n - 1, by omega⟩
  rw [decodeMap, decodeF_nil f hf]
  rfl

/-- Fewer than five bytes of the encoding of a string, list or map. -/
private theorem cut_header {c : Byte} (hc : c = cStr32 ∨ c = cArr32 ∨ c = cMap32) (n : Nat) (hn : n < 2^32)
    (t : List Byte) (m : Nat) (hm : m < 5) (fuel : Nat) (hf : m < fuel) :
    (headCut n m = true → ∃ u, decodeF bytesReader fuel ((header c n ++ t).take m) = .ok (u, [])) ∧
    (headCut n m = false → decodeF bytesReader fuel ((header c n ++ t).take m) = .err .eof) := by
  obtain ⟨f, rfl⟩ : ∃ f, fuel = f + 1 := ⟨fuel - 1, by omega⟩
  match m, hm with
  | 0, _ => exact ⟨fun h => by simp [headCut] at h, fun _ => decodeF_nil _ (by omega)⟩
  | 1, _ =>
    refine ⟨fun h => by simp [headCut] at h, fun _ => ?_⟩
    rw [header_take]
    rcases hc with rfl | rfl | rfl <;> rfl
  | j + 2, hj =>
    obtain ⟨r, h1, h2⟩ := short_count n hn (j + 1) (by omega) (by omega) t
    rw [header_take]
    rw [show 4 - (j + 1) = 5 - (j + 2) by omega] at h2
    constructor
    · intro h
      simp only [headCut, decide_eq_true_eq] at h
      have hr := h2.mpr h.2.2
      rcases hc with rfl | rfl | rfl
      · rw [decodeF_str, h1]; simp [hr]
      · rw [decodeF_arr', h1]; simp [hr, decodeArray]
      · rw [decodeF_map', h1]; simp [hr, decodeMap]
    · intro h
      simp only [headCut, decide_eq_false_iff_not] at h
      have hr : r.toNat ≠ 0 := fun h0 => h ⟨by omega, hj, h2.mp h0⟩
      rcases hc with rfl | rfl | rfl
      · rw [decodeF_str, h1]; simp [hr, readBuf_nil]
      · rw [decodeF_arr', h1]; simp [array_nil f _ (by omega) hr]
      · rw [decodeF_map', h1]; simp [map_nil f _ _ (by omega) hr]

private theorem headCut_lt {n m : Nat} (h : headCut n m = true) : m < 5 := by
  simp [headCut] at h; omega

private theorem cut_str {ty : Nat} (s : Str) (hs : s.length < 2^32) :
    Cut (encodeString s) (fun l => unnoticed (.str ty s) (encodeString s).length l) := by
  have hl : (encodeString s).length = 5 + s.length := by simp [encodeString, header_length]
  constructor
  · intro l h
    simp only [unnoticed, Bool.or_eq_true, headCut, decide_eq_true_eq] at h
    omega
  intro m hm fuel hf
  simp only [unnoticed]
  rw [hl] at hm ⊢
  rw [show 5 + s.length - (5 + s.length - m) = m by omega]
  by_cases h5 : m < 5
  · have hlt : ¬ (5 + s.length - m < s.length) := by omega
    simp only [hlt, decide_false, Bool.or_false]
    exact cut_header (Or.inl rfl) s.length hs s m h5 fuel hf
  · obtain ⟨k, rfl⟩ : ∃ k, m = 5 + k := ⟨m - 5, by omega⟩
    have hh : headCut s.length (5 + k) = false := by
      cases h : headCut s.length (5 + k) with
      | false => rfl
      | true => have := headCut_lt h; omega
    rw [hh, Bool.false_or]
    obtain ⟨f, rfl⟩ : ∃ f, fuel = f + 1 := ⟨fuel - 1, by omega⟩
    have h0 : s.length ≠ 0 := by omega
    rw [encodeString, header_take5, header_append, decodeF_str, readUint32_header]
    simp only [Res.bind_ok, toNat_ofNat_lt hs, if_neg h0]
    by_cases hk : k = 0
    · subst hk
      refine ⟨fun h => by simp only [decide_eq_true_eq] at h; omega, fun _ => ?_⟩
      simp [readBuf_nil]
    · refine ⟨fun _ => ?_, fun h => by simp at h; omega⟩
      have hne : s.take k ≠ [] := by
        intro h
        have := congrArg List.length h
        rw [List.length_take, List.length_nil] at this
        omega
      rw [readBuf_ne hne, List.drop_eq_nil_of_le (by rw [List.length_take]; omega)]
      exact ⟨_, rfl⟩

/-! ## Lists and maps -/

/-- `Cut` for a loop: `dec` is run on a proper prefix of `bs`. -/
private def CutLoop {α : Type} (bs : List Byte) (sil : Nat → Bool)
    (dec : Nat → List Byte → Res (α × List Byte)) : Prop :=
  (∀ l, sil l = true → l < bs.length) ∧
  ∀ m, m < bs.length → ∀ fuel, m < fuel →
    (sil (bs.length - m) = true → ∃ u, dec fuel (bs.take m) = .ok (u, [])) ∧
    (sil (bs.length - m) = false → dec fuel (bs.take m) = .err .eof)

private theorem false_of_lt {sil : Nat → Bool} {n l : Nat} (h : ∀ l, sil l = true → l < n) (hl : n ≤ l) :
    sil l = false := by
  cases hs : sil l with
  | false => rfl
  | true => have := h l hs; omega

private theorem cut_container {c : Byte} (hc : c = cArr32 ∨ c = cMap32) {α : Type} (n : Nat) (hn : n < 2^32)
    (bs : List Byte) (sil : Nat → Bool) (dec : Nat → List Byte → Res (α × List Byte)) (wrap : α → Val)
    (hd : ∀ f rest, decodeF bytesReader (f + 1) (header c n ++ rest) = (do
      let (vs, s) ← dec f rest
      return (wrap vs, s)))
    (hb : CutLoop bs sil dec) :
    Cut (header c n ++ bs) (fun l => headCut n ((header c n ++ bs).length - l) || sil l) := by
  have hl : (header c n ++ bs).length = 5 + bs.length := by simp [header_length]
  constructor
  · intro l h
    simp only [Bool.or_eq_true, headCut, decide_eq_true_eq] at h
    rcases h with h | h
    · omega
    · have := hb.1 l h; omega
  intro m hm fuel hf
  rw [hl] at hm ⊢
  simp only [show 5 + bs.length - (5 + bs.length - m) = m by omega]
  by_cases h5 : m < 5
  · rw [false_of_lt hb.1 (show bs.length ≤ 5 + bs.length - m by omega), Bool.or_false]
    exact cut_header (Or.inr hc) n hn bs m h5 fuel hf
  · obtain ⟨k, rfl⟩ : ∃ k, m = 5 + k := ⟨m - 5, by omega⟩
    have hh : headCut n (5 + k) = false := by
      cases h : headCut n (5 + k) with
      | false => rfl
      | true => have := headCut_lt h; omega
    obtain ⟨f, rfl⟩ : ∃ f, fuel = f + 1 := ⟨fuel - 1, by omega⟩
    obtain ⟨h1, h2⟩ := hb.2 k (by omega) f (by omega)
    rw [hh, Bool.false_or, header_take5, hd, show 5 + bs.length - (5 + k) = bs.length - k by omega]
    constructor
    · intro h
      obtain ⟨u, hu⟩ := h1 h
      rw [hu]
      exact ⟨_, rfl⟩
    · intro h
      rw [h2 h]
      rfl

/-- The loop over the entries of a map. -/
private theorem cut_mapLoop (table : List (Val × Enc × Enc)) (todo : List (Val × Val))
    (hgood : ∀ kv ∈ todo, GoodEnc (encodeValue kv.1) (canon kv.1) ∧ GoodEnc (encodeValue kv.2) (canon kv.2))
    (hcut : ∀ kv ∈ todo, Cut (encodeValue kv.1).bytes (unnoticed kv.1 (encodeValue kv.1).bytes.length) ∧
      Cut (encodeValue kv.2).bytes (unnoticed kv.2 (encodeValue kv.2).bytes.length))
    (hidx : ∀ kv ∈ todo, encodeMapIndex kv.1 table = encodeValue kv.2)
    (hhash : ∀ kv ∈ todo, hashable (canon kv.1) = true) :
    ∀ dict, CutLoop (encodeMapLoop table (encodeTable todo)).bytes (unnoticedLastValue todo)
      (fun fuel => decodeMap (decodeF bytesReader fuel) todo.length dict) := by
  induction todo with
  | nil =>
    intro dict
    exact ⟨fun l h => by simp [unnoticedLastValue] at h, fun m h => by simp [encodeTable, encodeMapLoop] at h⟩
  | cons kv todo ih =>
    obtain ⟨k, v⟩ := kv
    obtain ⟨⟨hk1, hk2, hk3⟩, ⟨hv1, hv2, hv3⟩⟩ := hgood (k, v) (by simp)
    obtain ⟨⟨ck1, ck2⟩, ⟨cv1, cv2⟩⟩ := hcut (k, v) (by simp)
    have ih' := ih (fun x hx => hgood x (List.mem_cons_of_mem _ hx))
      (fun x hx => hcut x (List.mem_cons_of_mem _ hx))
      (fun x hx => hidx x (List.mem_cons_of_mem _ hx)) (fun x hx => hhash x (List.mem_cons_of_mem _ hx))
    have hi := hidx (k, v) (by simp)
    have hh := hhash (k, v) (by simp)
    simp only at hi hh hk1 hk2 hk3 hv1 hv2 hv3 ck1 ck2 cv1 cv2
    have hkv : ((encodeValue k).seq (encodeMapIndex k table)).err = none := by
      rw [hi]; exact Enc.seq_err hk1 hv1
    have hb : (encodeMapLoop table (encodeTable ((k, v) :: todo))).bytes =
        (encodeValue k).bytes ++ ((encodeValue v).bytes ++ (encodeMapLoop table (encodeTable todo)).bytes) := by
      simp only [encodeTable, encodeMapLoop]
      rw [Enc.seq_bytes hkv, Enc.seq_bytes hk1, hi, List.append_assoc]
    intro dict
    rw [hb]
    have hR : todo = [] → (encodeMapLoop table (encodeTable todo)).bytes = [] := by
      rintro rfl; rfl
    generalize (encodeMapLoop table (encodeTable todo)).bytes = R at ih' hR ⊢
    generalize (encodeValue k).bytes = K at *
    have hS : ∀ l, unnoticedLastValue ((k, v) :: todo) l =
        if todo = [] then unnoticed v (encodeValue v).bytes.length l else unnoticedLastValue todo l := by
      intro l
      cases todo with
      | nil => simp [unnoticedLastValue]
      | cons y r => simp [unnoticedLastValue]
    generalize (encodeValue v).bytes = V at *
    have hlt : ∀ l, unnoticedLastValue ((k, v) :: todo) l = true → l < V.length + R.length := by
      intro l h
      rw [hS] at h
      split at h
      · have := cv1 l h; omega
      · have := (ih' []).1 l h; omega
    have hbig : ∀ l, V.length + R.length ≤ l → unnoticedLastValue ((k, v) :: todo) l = false :=
      fun l h => false_of_lt hlt h
    refine ⟨fun l h => by have := hlt l h; simp only [List.length_append]; omega, fun m hm fuel hf => ?_⟩
    simp only [List.length_append] at hm ⊢
    simp only [List.length_cons, decodeMap]
    by_cases hK : m < K.length
    · -- the cut is inside the key
      rw [List.take_append_of_le_length (by omega)]
      refine ⟨fun h => (by rw [hbig _ (by omega)] at h; cases h), fun _ => ?_⟩
      obtain ⟨h1, h2⟩ := ck2 m hK fuel hf
      cases hc : unnoticed k K.length (K.length - m) with
      | false => rw [h2 hc]; rfl
      | true =>
        obtain ⟨u, hu⟩ := h1 hc
        rw [hu]
        simp only [Res.bind_ok]
        rw [decodeF_nil fuel (by omega)]
        rfl
    · obtain ⟨j, rfl⟩ : ∃ j, m = K.length + j := ⟨m - K.length, by omega⟩
      rw [List.take_length_add_append, hk3 _ fuel (by omega)]
      simp only [Res.bind_ok]
      rw [show K.length + (V.length + R.length) - (K.length + j) = V.length + R.length - j by omega]
      by_cases hV : j < V.length
      · -- the cut is inside the value
        rw [List.take_append_of_le_length (by omega)]
        obtain ⟨h1, h2⟩ := cv2 j hV fuel (by omega)
        rw [hS]
        by_cases ht : todo = []
        · rw [if_pos ht, hR ht]
          subst ht
          simp only [List.length_nil, Nat.add_zero]
          refine ⟨fun h => ?_, fun h => by rw [h2 h]; rfl⟩
          obtain ⟨u, hu⟩ := h1 h
          rw [hu]
          simp only [Res.bind_ok]
          rw [if_pos hh]
          exact ⟨_, rfl⟩
        · rw [if_neg ht]
          have hf0 := false_of_lt (ih' []).1 (show R.length ≤ V.length + R.length - j by omega)
          refine ⟨fun h => (by rw [hf0] at h; cases h), fun _ => ?_⟩
          cases hc : unnoticed v V.length (V.length - j) with
          | false => rw [h2 hc]; rfl
          | true =>
            obtain ⟨u, hu⟩ := h1 hc
            rw [hu]
            simp only [Res.bind_ok]
            rw [if_pos hh, map_nil fuel _ _ (by omega) (by simpa using ht)]
      · obtain ⟨i, rfl⟩ : ∃ i, j = V.length + i := ⟨j - V.length, by omega⟩
        rw [List.take_length_add_append, hv3 _ fuel (by omega)]
        simp only [Res.bind_ok]
        rw [if_pos hh, show V.length + R.length - (V.length + i) = R.length - i by omega, hS]
        have ht : todo ≠ [] := by
          intro h0
          rw [hR h0, List.length_nil] at hm
          omega
        rw [if_neg ht]
        exact (ih' _).2 i (by omega) fuel (by omega)

mutual

private theorem cut_value (v : Val) (h : wireOK v = true) :
    Cut (encodeValue v).bytes (unnoticed v (encodeValue v).bytes.length) := by
  match v with
  | .nil => exact cut_one (by rfl)
  | .bool _ b => exact cut_one (by cases b <;> rfl)
  | .uint _ _ x => exact cut_intForm (uint64_form _)
  | .int _ _ x => exact cut_intForm (int64_form _)
  | .f32 _ b =>
    simp [wireOK] at h
    exact cut_f64 (widen_large b h)
  | .f64 _ b =>
    simp [wireOK] at h
    exact cut_f64 h
  | .str _ s =>
    simp [wireOK] at h
    exact cut_str s h
  | .seq ty xs =>
    simp only [wireOK, Bool.and_eq_true, decide_eq_true_eq] at h
    have := cut_container (Or.inl rfl) xs.length h.1 _ _ _ (.seq .ifaceSlice)
      (fun f rest => decodeF_arr f _ rest h.1) (cut_list xs h.2)
    simp only [encodeValue, Enc.seq_bytes (Enc.ok_err _), Enc.ok_bytes]
    exact this
  | .map ty kvs =>
    simp only [wireOK, Bool.and_eq_true, decide_eq_true_eq] at h
    have hd := (distinctKeys_iff _).mp h.2
    rw [canonEntries_eq, List.map_map] at hd
    have hok := (wireOKEntries_iff kvs).mp h.1.2
    have := cut_container (Or.inr rfl) kvs.length h.1.1 _ _ _ (.map .ifaceMap)
      (fun f rest => decodeF_map f _ rest h.1.1)
      (cut_mapLoop (encodeTable kvs) kvs (rt_entries kvs h.1.2) (cut_entries kvs h.1.2) (index_all kvs hok hd)
        (fun kv hkv => hashable_canon (hok kv hkv).2.1 (hok kv hkv).1) [])
    simp only [encodeValue, Enc.seq_bytes (Enc.ok_err _), Enc.ok_bytes]
    exact this
  | .bad _ => simp [wireOK] at h

private theorem cut_list (xs : List Val) (h : wireOKList xs = true) :
    CutLoop (encodeElems xs).bytes (unnoticedLast xs)
      (fun fuel => decodeArray (decodeF bytesReader fuel) xs.length) := by
  match xs with
  | [] => exact ⟨fun l h => by simp [unnoticedLast] at h, fun m h => by simp [encodeElems] at h⟩
  | x :: xs =>
    simp only [wireOKList, Bool.and_eq_true] at h
    obtain ⟨hx1, hx2, hx3⟩ := rt_value x h.1
    obtain ⟨cx1, cx2⟩ := cut_value x h.1
    have ih := cut_list xs h.2
    simp only [encodeElems, Enc.seq_bytes hx1, List.length_cons]
    cases xs with
    | nil =>
      simp only [encodeElems, Enc.ok_bytes, List.append_nil]
      refine ⟨cx1, fun m hm fuel hf => ?_⟩
      obtain ⟨h1, h2⟩ := cx2 m hm fuel hf
      refine ⟨fun h => ?_, fun h => ?_⟩
      · obtain ⟨u, hu⟩ := h1 h
        exact ⟨[u], by simp [decodeArray, hu]⟩
      · simp [decodeArray, h2 h]
    | cons y r =>
      generalize (encodeElems (y :: r)).bytes = R at ih ⊢
      generalize (encodeValue x).bytes = E at *
      refine ⟨fun l h => ?_, fun m hm fuel hf => ?_⟩
      · have := ih.1 l h
        rw [List.length_append]; omega
      rw [List.length_append] at hm ⊢
      by_cases hE : m < E.length
      · rw [List.take_append_of_le_length (by omega)]
        have hs : unnoticedLast (x :: y :: r) (E.length + R.length - m) = false :=
          false_of_lt ih.1 (by omega)
        refine ⟨fun h => (by rw [hs] at h; cases h), fun _ => ?_⟩
        obtain ⟨h1, h2⟩ := cx2 m hE fuel hf
        simp only [decodeArray]
        cases hc : unnoticed x E.length (E.length - m) with
        | false => rw [h2 hc]; rfl
        | true =>
          obtain ⟨u, hu⟩ := h1 hc
          rw [hu]
          simp only [Res.bind_ok]
          rw [array_nil fuel _ (by omega) (by simp)]
          rfl
      · obtain ⟨j, rfl⟩ : ∃ j, m = E.length + j := ⟨m - E.length, by omega⟩
        simp only [decodeArray]
        rw [List.take_length_add_append, hx3 _ fuel (by omega)]
        simp only [Res.bind_ok]
        obtain ⟨h1, h2⟩ := ih.2 j (by omega) fuel (by omega)
        rw [show E.length + R.length - (E.length + j) = R.length - j by omega]
        refine ⟨fun h => ?_, fun h => ?_⟩
        · obtain ⟨u, hu⟩ := h1 h
          exact ⟨canon x :: u, by simp only at hu; rw [hu]; rfl⟩
        · have := h2 h
          simp only at this
          rw [this]; rfl

private theorem cut_entries (kvs : List (Val × Val)) (h : wireOKEntries kvs = true) :
    ∀ kv ∈ kvs, Cut (encodeValue kv.1).bytes (unnoticed kv.1 (encodeValue kv.1).bytes.length) ∧
      Cut (encodeValue kv.2).bytes (unnoticed kv.2 (encodeValue kv.2).bytes.length) := by
  match kvs with
  | [] => simp
  | (k, v) :: rest =>
    simp only [wireOKEntries, Bool.and_eq_true] at h
    intro kv hkv
    rcases List.mem_cons.mp hkv with hh | hh
    · subst hh
      exact ⟨cut_value k h.1.1.1.1, cut_value v h.1.2⟩
    · exact cut_entries rest h.2 kv hh

end

private theorem cut_top (v : Val) (h : topOK v = true) :
    Cut (encode v).bytes (unnoticed v (encode v).bytes.length) := by
  match v with
  | .nil => exact cut_one (by rfl)
  | .bool 0 b => exact cut_one (by cases b <;> rfl)
  | .f32 0 b => exact cut_f32 (by simpa [topOK] using h)
  | .f64 0 b => exact cut_f64 (by simpa [topOK, wireOK] using h)
  | .uint .u8 0 x => exact cut_intForm ⟨_, _, rfl, Or.inl ⟨rfl, rfl⟩⟩
  | .uint .u16 0 x => exact cut_intForm (uint16_form x)
  | .uint .u32 0 x => exact cut_intForm (uint32_form x)
  | .uint .u64 0 x => exact cut_intForm (uint64_form x)
  | .uint .uint 0 x => exact cut_intForm (uint64_form x)
  | .uint .uintptr 0 x => exact cut_value _ rfl
  | .int .i8 0 x =>
    exact cut_intForm ⟨_, _, rfl, Or.inr (Or.inr (Or.inr (Or.inr (Or.inl ⟨rfl, rfl⟩))))⟩
  | .int .i16 0 x => exact cut_intForm (int16_form x)
  | .int .i32 0 x => exact cut_intForm (int32_form x)
  | .int .i64 0 x => exact cut_intForm (int64_form x)
  | .int .int 0 x => exact cut_intForm (int64_form x)
  | .str 0 s => exact cut_str s (by simpa [topOK, wireOK] using h)
  | .bool (n + 1) b => exact cut_value _ h
  | .f32 (n + 1) b => exact cut_value _ h
  | .f64 (n + 1) b => exact cut_value _ h
  | .uint k (n + 1) x => cases k <;> exact cut_value _ h
  | .int k (n + 1) x => cases k <;> exact cut_value _ h
  | .str (n + 1) s => exact cut_value _ h
  | .seq ty xs => exact cut_value _ h
  | .map ty kvs => exact cut_value _ h
  | .bad _ => simp [topOK, wireOK] at h

/-- C09, exactly: of every value that survives a round trip, a proper prefix of the encoding is rejected with
`io.EOF` unless the missing bytes go unnoticed (`unnoticed`), and then it is accepted. -/
theorem C09_truncated_exact_partial (v : Val) (h : topOK v = true) (l : Nat) (h1 : 1 ≤ l)
    (hl : l ≤ (encode v).bytes.length) :
    let cut := (encode v).bytes.take ((encode v).bytes.length - l)
    (unnoticed v (encode v).bytes.length l = true → ∃ u, decode cut = .ok (u, [])) ∧
    (unnoticed v (encode v).bytes.length l = false → decode cut = .err .eof) := by
  have := (cut_top v h).2 ((encode v).bytes.length - l) (by omega)
    (((encode v).bytes.take ((encode v).bytes.length - l)).length + 1) (by rw [List.length_take]; omega)
  rw [show (encode v).bytes.length - ((encode v).bytes.length - l) = l by omega] at this
  exact this

/-- A list that ends with "AB", less its last bytes: one byte less is accepted ("A" and a zero), two are
noticed (nothing of the contents arrived), three are accepted (the string seems empty), six are noticed (only
the tag of the string arrived), and so on. -/
example : let v := Val.seq .ifaceSlice [.int .int 0 5, .str 0 [0x41, 0x42]]
    topOK v = true ∧ (encode v).bytes.length = 14 ∧
    ((List.range 14).map fun i => unnoticed v 14 (i + 1)) =
      [true, false, true, true, true, false, false, false, false, true, true, true, false, false] := by
  decide +kernel

example : decode [0xdd, 0, 0, 0, 2, 0xd0, 5, 0xdb, 0, 0, 0, 2, 0x41] =
      .ok (.seq .ifaceSlice [.int .i8 0 5, .str 0 [0x41, 0]], []) ∧
    decode [0xdd, 0, 0, 0, 2, 0xd0, 5, 0xdb, 0, 0, 0] =
      .ok (.seq .ifaceSlice [.int .i8 0 5, .str 0 []], []) ∧
    decode [0xdd, 0] = .ok (.seq .ifaceSlice [], []) := by
  decide +kernel

/-- The number of bytes or elements a header announces. -/
def announced : Val → Nat
  | .seq _ xs => xs.length
  | .map _ kvs => kvs.length
  | _ => 0

/-- So C09 fails for every value with an encoding of more than two bytes (lists and maps: of fewer than 2^24
elements): some proper prefix is accepted. -/
theorem C09_truncated_rejected_all_refuted (v : Val) (h : topOK v = true) (h2 : 2 < (encode v).bytes.length)
    (hc : announced v < 2^24) :
    ∃ m, m < (encode v).bytes.length ∧ ∃ u, decode ((encode v).bytes.take m) = .ok (u, []) := by
  suffices ∃ l, 1 ≤ l ∧ l ≤ (encode v).bytes.length ∧ unnoticed v (encode v).bytes.length l = true by
    obtain ⟨l, h1, hl, hs⟩ := this
    exact ⟨(encode v).bytes.length - l, by omega, (C09_truncated_exact_partial v h l h1 hl).1 hs⟩
  have h64 : ∀ b : BitVec 64, 2^32 ≤ b.toNat → (encodeFloat64 b).length = 10 := by
    intro b hb
    simp [encodeFloat64, encodeUint64, cUint32Max, Nat.not_lt.mpr hb]
  have h32 : ∀ b : BitVec 32, 2^16 ≤ b.toNat → (encodeFloat32 b).length = 6 := by
    intro b hb
    simp [encodeFloat32, encodeUint32, cUint16Max, Nat.not_lt.mpr hb]
  have head : ∀ n c : Nat, 2 < n → c < 2^24 → headCut c (n - (n - 2)) = true := by
    intro n c hn hc
    simp only [headCut, decide_eq_true_eq, show n - (n - 2) = 2 by omega]
    omega
  match v with
  | .nil => simp [encode, encodeNil] at h2
  | .bool 0 b => cases b <;> simp [encode, encodeBool] at h2
  | .bool (t + 1) b => cases b <;> simp [encode, encodeValue, encodeBool] at h2
  | .uint _ _ _ => exact ⟨1, by omega, by omega, by simp only [unnoticed, decide_eq_true_eq]; omega⟩
  | .int _ _ _ => exact ⟨1, by omega, by omega, by simp only [unnoticed, decide_eq_true_eq]; omega⟩
  | .f64 t b =>
    have : (encode (.f64 t b)).bytes.length = 10 := by
      have := h64 b (by simpa [topOK, wireOK] using h)
      cases t <;> exact this
    exact ⟨1, by omega, by omega, by rw [this]; rfl⟩
  | .f32 0 b =>
    have : (encode (.f32 0 b)).bytes.length = 6 := h32 b (by simpa [topOK] using h)
    exact ⟨1, by omega, by omega, by rw [this]; rfl⟩
  | .f32 (t + 1) b =>
    have : (encode (.f32 (t + 1) b)).bytes.length = 10 :=
      h64 _ (widen_large b (by simpa [topOK, wireOK] using h))
    exact ⟨1, by omega, by omega, by rw [this]; rfl⟩
  | .str t s =>
    by_cases hs : s.length < 2^24
    · exact ⟨_, by omega, Nat.sub_le _ 2, by simp only [unnoticed]; rw [head _ _ h2 hs, Bool.true_or]⟩
    · exact ⟨1, by omega, by omega, by
        simp only [unnoticed, Bool.or_eq_true, decide_eq_true_eq]; exact Or.inr (by omega)⟩
  | .seq ty xs =>
    exact ⟨_, by omega, Nat.sub_le _ 2, by simp only [unnoticed]; rw [head _ xs.length h2 hc, Bool.true_or]⟩
  | .map ty kvs =>
    exact ⟨_, by omega, Nat.sub_le _ 2, by simp only [unnoticed]; rw [head _ kvs.length h2 hc, Bool.true_or]⟩
  | .bad _ => simp [topOK, wireOK] at h

/-- A map with one entry. -/
example : let v := Val.map .ifaceMap [(.str 0 [0x61], .bool 0 true)]
    topOK v = true ∧ 2 < (encode v).bytes.length ∧ announced v < 2^24 := by
  decide +kernel

end Verif.Props
