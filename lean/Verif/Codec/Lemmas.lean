import Verif.Codec.Any
import Verif.Codec.Spec

/-! # Helper lemmas for the codec -/

namespace Verif.Codec

open Verif

/-! ## Splitting an integer into bytes and joining it again -/

theorem join16 (v : BitVec 16) : shl 16 (byte (v >>> 8)) 8 ||| shl 16 (byte v) 0 = v := by
  unfold shl byte
  ext i hi
  simp
  grind

theorem join32 (v : BitVec 32) :
    shl 32 (byte (v >>> 24)) 24 ||| shl 32 (byte (v >>> 16)) 16 ||| shl 32 (byte (v >>> 8)) 8 |||
      shl 32 (byte v) 0 = v := by
  unfold shl byte
  ext i hi
  simp
  grind

theorem join64 (v : BitVec 64) :
    shl 64 (byte (v >>> 56)) 56 ||| shl 64 (byte (v >>> 48)) 48 ||| shl 64 (byte (v >>> 40)) 40 |||
      shl 64 (byte (v >>> 32)) 32 ||| shl 64 (byte (v >>> 24)) 24 ||| shl 64 (byte (v >>> 16)) 16 |||
      shl 64 (byte (v >>> 8)) 8 ||| shl 64 (byte v) 0 = v := by
  unfold shl byte
  ext i hi
  simp
  grind

theorem byte_setWidth (v : BitVec 64) : byte (v.setWidth 32) = byte v := by
  unfold byte
  ext i hi
  simp

theorem byte_setWidth_shift (v : BitVec 64) (k : Nat) (hk : k ≤ 24) :
    byte ((v.setWidth 32) >>> k) = byte (v >>> k) := by
  unfold byte
  ext i hi
  simp
  omega

/-! ## Reading from a `bytes.Reader` -/

theorem fill_self {n : Nat} {bs : List Byte} (h : n ≤ bs.length) : fill n bs = bs := by
  simp [fill, Nat.sub_eq_zero_of_le h]

theorem fill_length {n : Nat} {bs : List Byte} (h : bs.length ≤ n) : (fill n bs).length = n := by
  simp [fill]; omega

theorem readBuf_append (d rest : List Byte) (n : Nat) (hn : 0 < n) (h : d.length = n) :
    readBuf bytesReader (d ++ rest) n = .ok (d, rest) := by
  have hne : d ++ rest ≠ [] := by
    intro h0
    have := congrArg List.length h0
    rw [List.length_append, List.length_nil] at this
    omega
  subst h
  simp only [readBuf, bytesReader, if_neg hne]
  simp [fill]

@[simp] theorem readByte_cons (c : Byte) (s : List Byte) :
    readByte bytesReader (c :: s) = .ok (c, s) := by
  have := readBuf_append [c] s 1 (by omega) rfl
  simp only [List.singleton_append] at this
  simp [readByte, this, at']

@[simp] theorem readByte_nil : readByte bytesReader [] = .err .eof := rfl

@[simp] theorem readUint16_cons (a b : Byte) (s : List Byte) :
    readUint16 bytesReader (a :: b :: s) = .ok (shl 16 a 8 ||| shl 16 b 0, s) := by
  have := readBuf_append [a, b] s 2 (by omega) rfl
  simp only [List.cons_append, List.nil_append] at this
  simp [readUint16, this, at']

@[simp] theorem readUint32_cons (a b c d : Byte) (s : List Byte) :
    readUint32 bytesReader (a :: b :: c :: d :: s) =
      .ok (shl 32 a 24 ||| shl 32 b 16 ||| shl 32 c 8 ||| shl 32 d 0, s) := by
  have := readBuf_append [a, b, c, d] s 4 (by omega) rfl
  simp only [List.cons_append, List.nil_append] at this
  simp [readUint32, this, at']

@[simp] theorem readUint64_cons (a b c d e f g h : Byte) (s : List Byte) :
    readUint64 bytesReader (a :: b :: c :: d :: e :: f :: g :: h :: s) =
      .ok (shl 64 a 56 ||| shl 64 b 48 ||| shl 64 c 40 ||| shl 64 d 32 ||| shl 64 e 24 ||| shl 64 f 16 |||
        shl 64 g 8 ||| shl 64 h 0, s) := by
  have := readBuf_append [a, b, c, d, e, f, g, h] s 8 (by omega) rfl
  simp only [List.cons_append, List.nil_append] at this
  simp [readUint64, this, at']

/-! ## Integers: bytes to canonical value -/

theorem toNat_ofNat_lt {w n : Nat} (h : n < 2^w) : (BitVec.ofNat w n).toNat = n := by
  simp [Nat.mod_eq_of_lt h]

theorem decodeF_encodeUint8 (f : Nat) (v : BitVec 8) (rest : List Byte) :
    decodeF bytesReader (f + 1) (encodeUint8 v ++ rest) = .ok (canonNat v.toNat, rest) := by
  have := v.isLt
  simp [decodeF, decodeTag, encodeUint8, cUint8, cNil, cFalse, cTrue, cFloat32, cFloat64, canonNat]
  omega

theorem decodeF_encodeUint16 (f : Nat) (v : BitVec 16) (rest : List Byte) :
    decodeF bytesReader (f + 1) (encodeUint16 v ++ rest) = .ok (canonNat v.toNat, rest) := by
  have hv := v.isLt
  unfold encodeUint16
  split
  · rename_i h
    rw [decodeF_encodeUint8]
    simp only [cUint8Max] at h
    congr 3
    simp
    omega
  · rename_i h
    simp only [cUint8Max] at h
    simp [decodeF, decodeTag, cUint8, cUint16, cNil, cFalse, cTrue, cFloat32, cFloat64, canonNat, join16]
    rw [if_neg (by omega)]
    simp [show v.toNat < 65536 by omega]

theorem decodeF_encodeUint32 (f : Nat) (v : BitVec 32) (rest : List Byte) :
    decodeF bytesReader (f + 1) (encodeUint32 v ++ rest) = .ok (canonNat v.toNat, rest) := by
  have hv := v.isLt
  unfold encodeUint32
  split
  · rename_i h
    rw [decodeF_encodeUint16]
    simp only [cUint16Max] at h
    congr 3
    simp
    omega
  · rename_i h
    simp only [cUint16Max] at h
    simp [decodeF, decodeTag, cUint8, cUint16, cUint32, cNil, cFalse, cTrue, cFloat32, cFloat64, canonNat, join32]
    rw [if_neg (by omega), if_neg (by omega)]
    simp [show v.toNat < 4294967296 by omega]

theorem decodeF_encodeUint64 (f : Nat) (v : BitVec 64) (rest : List Byte) :
    decodeF bytesReader (f + 1) (encodeUint64 v ++ rest) = .ok (canonNat v.toNat, rest) := by
  have hv := v.isLt
  unfold encodeUint64
  split
  · rename_i h
    rw [decodeF_encodeUint32]
    simp only [cUint32Max] at h
    congr 3
    simp
    omega
  · rename_i h
    simp only [cUint32Max] at h
    simp [decodeF, decodeTag, cUint8, cUint16, cUint32, cUint64, cNil, cFalse, cTrue, cFloat32, cFloat64, canonNat,
      join64]
    rw [if_neg (by omega), if_neg (by omega), if_neg (by omega)]

theorem toInt_setWidth_of_range {w : Nat} (v : BitVec w) (n : Nat) (hn : n < w) (h0 : 0 < n)
    (h1 : -2^(n-1) ≤ v.toInt) (h2 : v.toInt < 2^(n-1)) : (v.setWidth n).toInt = v.toInt := by
  rw [BitVec.toInt_setWidth]
  have : v.toInt = v.toInt.bmod (2^n) := by
    rw [Int.bmod_eq_of_le]
    · have : (2:Nat)^n = 2 * 2^(n-1) := by
        rw [← Nat.pow_succ']; congr 1; omega
      rw [this]; simp; exact_mod_cast h1
    · have : (2:Nat)^n = 2 * 2^(n-1) := by
        rw [← Nat.pow_succ']; congr 1; omega
      rw [this]
      have : ((2 * 2^(n-1) : Nat) + 1) / 2 = 2^(n-1) := by omega
      have h3 : (((2 * 2^(n-1) : Nat) : Int) + 1) / 2 = ((2^(n-1) : Nat) : Int) := by omega
      rw [h3]; exact_mod_cast h2
  rw [BitVec.toInt_eq_toNat_bmod] at this ⊢
  rw [Int.bmod_bmod_of_dvd] at this
  · exact this.symm
  · exact_mod_cast Nat.pow_dvd_pow 2 (by omega)

theorem decodeF_encodeInt8 (f : Nat) (v : BitVec 8) (rest : List Byte) :
    decodeF bytesReader (f + 1) (encodeInt8 v ++ rest) = .ok (.int .i8 0 v, rest) := by
  simp [decodeF, decodeTag, encodeInt8, cUint8, cUint16, cUint32, cUint64, cInt8, cNil, cFalse, cTrue, cFloat32,
    cFloat64]

theorem decodeF_encodeInt16 (f : Nat) (v : BitVec 16) (rest : List Byte) :
    decodeF bytesReader (f + 1) (encodeInt16 v ++ rest) =
      .ok (if v.toInt = -2^15 then .int .i16 0 v else canonInt v.toInt, rest) := by
  unfold encodeInt16
  split
  · rename_i h
    simp only [cInt8Max, cInt8Min] at h
    rw [decodeF_encodeInt8]
    have := toInt_setWidth_of_range v 8 (by omega) (by omega) (by simp; omega) (by simp; omega)
    rw [if_neg (by omega), canonInt, if_pos (by omega), ← this, BitVec.ofInt_toInt]
  · rename_i h
    simp only [cInt8Max, cInt8Min] at h
    have h1 := v.toInt_lt
    have h2 := v.le_toInt
    simp only [Nat.reduceSub] at h1 h2
    have : decodeF bytesReader (f + 1) ([cInt16, byte (v >>> 8), byte v] ++ rest) =
        .ok (.int .i16 0 v, rest) := by
      simp [decodeF, decodeTag, cUint8, cUint16, cUint32, cUint64, cInt8, cInt16, cNil, cFalse, cTrue, cFloat32,
        cFloat64, join16]
    rw [this]
    split
    · rfl
    · rw [canonInt, if_neg (by omega), if_pos (by omega), BitVec.ofInt_toInt]

theorem decodeF_encodeInt32 (f : Nat) (v : BitVec 32) (rest : List Byte) :
    decodeF bytesReader (f + 1) (encodeInt32 v ++ rest) =
      .ok (if v.toInt = -2^31 then .int .i32 0 v else canonInt v.toInt, rest) := by
  unfold encodeInt32
  split
  · rename_i h
    simp only [cInt16Max, cInt16Min] at h
    rw [decodeF_encodeInt16]
    have := toInt_setWidth_of_range v 16 (by omega) (by omega) (by simp; omega) (by simp; omega)
    rw [if_neg (by omega), if_neg (by omega), this]
  · rename_i h
    simp only [cInt16Max, cInt16Min] at h
    have h1 := v.toInt_lt
    have h2 := v.le_toInt
    simp only [Nat.reduceSub] at h1 h2
    have : decodeF bytesReader (f + 1)
        ([cInt32, byte (v >>> 24), byte (v >>> 16), byte (v >>> 8), byte v] ++ rest) =
        .ok (.int .i32 0 v, rest) := by
      simp [decodeF, decodeTag, cUint8, cUint16, cUint32, cUint64, cInt8, cInt16, cInt32, cNil, cFalse, cTrue,
        cFloat32, cFloat64, join32]
    rw [this]
    split
    · rfl
    · rw [canonInt, if_neg (by omega), if_neg (by omega), if_pos (by omega), BitVec.ofInt_toInt]

theorem decodeF_encodeInt64 (f : Nat) (v : BitVec 64) (rest : List Byte) :
    decodeF bytesReader (f + 1) (encodeInt64 v ++ rest) = .ok (canonInt v.toInt, rest) := by
  unfold encodeInt64
  split
  · rename_i h
    simp only [cInt32Max, cInt32Min] at h
    rw [decodeF_encodeInt32]
    have := toInt_setWidth_of_range v 32 (by omega) (by omega) (by simp; omega) (by simp; omega)
    rw [if_neg (by omega), this]
  · rename_i h
    simp only [cInt32Max, cInt32Min] at h
    have : decodeF bytesReader (f + 1)
        ([cInt64, byte (v >>> 56), byte (v >>> 48), byte (v >>> 40), byte (v >>> 32),
          byte (v >>> 24), byte (v >>> 16), byte (v >>> 8), byte v] ++ rest) =
        .ok (.int .i64 0 v, rest) := by
      simp [decodeF, decodeTag, cUint8, cUint16, cUint32, cUint64, cInt8, cInt16, cInt32, cInt64, cNil, cFalse, cTrue,
        cFloat32, cFloat64, join64]
    rw [this, canonInt, if_neg (by omega), if_neg (by omega), if_neg (by omega), BitVec.ofInt_toInt]

/-! ## Floats -/

theorem decodeF_float32_tag (f : Nat) (s : List Byte) :
    decodeF bytesReader (f + 1) (cFloat32 :: s) = (do
      asFloat32 (← decodeF bytesReader f s)) := by
  rw [decodeF]
  simp [decodeTag, cFloat32, cNil, cFalse, cTrue]

theorem decodeF_float64_tag (f : Nat) (s : List Byte) :
    decodeF bytesReader (f + 1) (cFloat64 :: s) = (do
      asFloat64 (← decodeF bytesReader f s)) := by
  rw [decodeF]
  simp [decodeTag, cFloat32, cFloat64, cNil, cFalse, cTrue]

theorem decodeF_encodeFloat32 (f : Nat) (b : BitVec 32) (rest : List Byte) :
    decodeF bytesReader (f + 2) (encodeFloat32 b ++ rest) =
      if 2^16 ≤ b.toNat then .ok (.f32 0 b, rest) else .panic := by
  have hb := b.isLt
  rw [encodeFloat32, List.append_assoc, List.singleton_append, decodeF_float32_tag, decodeF_encodeUint32]
  simp only [Res.bind_ok, canonNat, asFloat32]
  by_cases h8 : b.toNat < 2^8
  · rw [if_pos h8, if_neg (by omega)]
  · by_cases h16 : b.toNat < 2^16
    · rw [if_neg h8, if_pos h16, if_neg (by omega)]
    · rw [if_neg h8, if_neg h16, if_pos (by omega), if_pos (by omega)]
      simp only [BitVec.ofNat_toNat, BitVec.setWidth_eq]
      rfl

theorem decodeF_encodeFloat64 (f : Nat) (b : BitVec 64) (rest : List Byte) :
    decodeF bytesReader (f + 2) (encodeFloat64 b ++ rest) =
      if 2^32 ≤ b.toNat then .ok (.f64 0 b, rest) else .panic := by
  have hb := b.isLt
  rw [encodeFloat64, List.append_assoc, List.singleton_append, decodeF_float64_tag, decodeF_encodeUint64]
  simp only [Res.bind_ok, canonNat, asFloat64]
  by_cases h8 : b.toNat < 2^8
  · rw [if_pos h8, if_neg (by omega)]
  · by_cases h16 : b.toNat < 2^16
    · rw [if_neg h8, if_pos h16, if_neg (by omega)]
    · by_cases h32 : b.toNat < 2^32
      · rw [if_neg h8, if_neg h16, if_pos h32, if_neg (by omega)]
      · rw [if_neg h8, if_neg h16, if_neg h32, if_pos (by omega)]
        simp only [BitVec.ofNat_toNat, BitVec.setWidth_eq]
        rfl

/-! ## Headers and strings -/

theorem header_append (tag : Byte) (n : Nat) (rest : List Byte) :
    header tag n ++ rest =
      tag :: byte ((BitVec.ofNat 64 n) >>> 24) :: byte ((BitVec.ofNat 64 n) >>> 16) ::
        byte ((BitVec.ofNat 64 n) >>> 8) :: byte (BitVec.ofNat 64 n) :: rest := rfl

theorem join_header (n : Nat) :
    shl 32 (byte ((BitVec.ofNat 64 n) >>> 24)) 24 ||| shl 32 (byte ((BitVec.ofNat 64 n) >>> 16)) 16 |||
      shl 32 (byte ((BitVec.ofNat 64 n) >>> 8)) 8 ||| shl 32 (byte (BitVec.ofNat 64 n)) 0 =
      BitVec.ofNat 32 n := by
  rw [← byte_setWidth (BitVec.ofNat 64 n), ← byte_setWidth_shift _ 24 (by omega),
    ← byte_setWidth_shift _ 16 (by omega), ← byte_setWidth_shift _ 8 (by omega), join32]
  apply BitVec.eq_of_toNat_eq
  simp

@[simp] theorem readUint32_header (n : Nat) (s : List Byte) :
    readUint32 bytesReader (byte ((BitVec.ofNat 64 n) >>> 24) :: byte ((BitVec.ofNat 64 n) >>> 16) ::
        byte ((BitVec.ofNat 64 n) >>> 8) :: byte (BitVec.ofNat 64 n) :: s) =
      .ok (BitVec.ofNat 32 n, s) := by
  rw [readUint32_cons, join_header]

theorem decodeF_encodeString (f : Nat) (s rest : List Byte) (h : s.length < 2^32) :
    decodeF bytesReader (f + 1) (encodeString s ++ rest) = .ok (.str 0 s, rest) := by
  rw [encodeString, List.append_assoc, header_append, decodeF]
  simp only [readByte_cons, Res.bind_ok, decodeTag, readUint32_header, toNat_ofNat_lt h]
  simp only [cStr32, cNil, cFalse, cTrue, cFloat32, cFloat64, cUint8, cUint16, cUint32, cUint64, cInt8,
    cInt16, cInt32, cInt64]
  by_cases h0 : s = []
  · subst h0; simp
  · have : 0 < s.length := List.length_pos_iff.mpr h0
    rw [readBuf_append s rest s.length this rfl]
    simp [h0]

theorem decodeF_arr (f n : Nat) (rest : List Byte) (h : n < 2^32) :
    decodeF bytesReader (f + 1) (header cArr32 n ++ rest) = (do
      let (vs, s) ← decodeArray (decodeF bytesReader f) n rest
      return (.seq .ifaceSlice vs, s)) := by
  rw [header_append, decodeF]
  simp only [readByte_cons, Res.bind_ok, decodeTag, readUint32_header, toNat_ofNat_lt h]
  simp [cStr32, cNil, cFalse, cTrue, cFloat32, cFloat64, cUint8, cUint16, cUint32, cUint64, cInt8,
    cInt16, cInt32, cInt64, cArr32]

theorem decodeF_map (f n : Nat) (rest : List Byte) (h : n < 2^32) :
    decodeF bytesReader (f + 1) (header cMap32 n ++ rest) = (do
      let (kvs, s) ← decodeMap (decodeF bytesReader f) n [] rest
      return (.map .ifaceMap kvs, s)) := by
  rw [header_append, decodeF]
  simp only [readByte_cons, Res.bind_ok, decodeTag, readUint32_header, toNat_ofNat_lt h]
  simp [cStr32, cNil, cFalse, cTrue, cFloat32, cFloat64, cUint8, cUint16, cUint32, cUint64, cInt8,
    cInt16, cInt32, cInt64, cArr32, cMap32]

end Verif.Codec
