import Verif.Props.Codec3

/-! # C12: compact integers -/

namespace Verif.Props

open Verif Verif.Codec

/-! ## C12 Compact integers -/

/-- Bytes needed for an unsigned integer: tag and narrowest payload. -/
def uintSize (n : Nat) : Nat := if n < 2^8 then 2 else if n < 2^16 then 3 else if n < 2^32 then 5 else 9

/-- The same for signed integers; the ranges are open at their lower end. -/
def intSize (z : Int) : Nat :=
  if -2^7 < z ∧ z < 2^7 then 2 else if -2^15 < z ∧ z < 2^15 then 3
  else if -2^31 < z ∧ z < 2^31 then 5 else 9

private theorem len_u16 (v : BitVec 16) : (encodeUint16 v).length = uintSize v.toNat := by
  have := v.isLt
  unfold encodeUint16 uintSize
  rw [show cUint8Max = 2^8 from rfl]
  split
  · rfl
  · simp

private theorem len_u32 (v : BitVec 32) : (encodeUint32 v).length = uintSize v.toNat := by
  have := v.isLt
  unfold encodeUint32
  rw [show cUint16Max = 2^16 from rfl]
  split
  · rw [len_u16, BitVec.toNat_setWidth, Nat.mod_eq_of_lt (by assumption)]
  · unfold uintSize
    rw [if_neg (by omega), if_neg (by omega), if_pos this]; rfl

private theorem len_u64 (v : BitVec 64) : (encodeUint64 v).length = uintSize v.toNat := by
  have := v.isLt
  unfold encodeUint64
  rw [show cUint32Max = 2^32 from rfl]
  split
  · rw [len_u32, BitVec.toNat_setWidth, Nat.mod_eq_of_lt (by assumption)]
  · unfold uintSize
    rw [if_neg (by omega), if_neg (by omega), if_neg (by omega)]; rfl

/-- C12, unsigned: length 2, 3, 5 or 9, the least that holds the value, at most the type's width plus one
byte, whatever the (named or predeclared) type. -/
theorem C12_uint_size (k : UKind) (tid : Nat) (v : BitVec k.width) :
    (encode (.uint k tid v)).bytes.length = uintSize v.toNat ∧
    uintSize v.toNat ≤ k.width / 8 + 1 := by
  have h64 : (encodeUint64 (v.setWidth 64)).length = uintSize v.toNat := by
    rw [len_u64, BitVec.toNat_setWidth, Nat.mod_eq_of_lt (uint_toNat_lt v)]
  constructor
  · cases tid with
    | zero =>
      cases k with
      | u8 => have := v.isLt; simp only [uintSize]; rw [if_pos (by simpa [UKind.width] using this)]; rfl
      | u16 => exact len_u16 v
      | u32 => exact len_u32 v
      | u64 => exact len_u64 v
      | uint => exact len_u64 v
      | uintptr => exact h64
    | succ t => cases k <;> exact h64
  · have hv := v.isLt
    unfold uintSize
    cases k <;> simp only [UKind.width] at hv ⊢ <;> (repeat' split) <;> omega

private theorem u32_16 (v : BitVec 16) : encodeUint32 (v.setWidth 32) = encodeUint16 v := by
  have := v.isLt
  rw [encodeUint32, if_pos (by rw [show cUint16Max = 2^16 from rfl, BitVec.toNat_setWidth]; omega)]
  congr 1
  simp

private theorem u16_8 (v : BitVec 8) : encodeUint16 (v.setWidth 16) = encodeUint8 v := by
  have := v.isLt
  rw [encodeUint16, if_pos (by rw [show cUint8Max = 2^8 from rfl, BitVec.toNat_setWidth]; omega)]
  congr 1
  simp

private theorem u64_16 (v : BitVec 16) : encodeUint64 (v.setWidth 64) = encodeUint16 v := by
  rw [← u32_16, ← encodeUint64_32]
  congr 1

private theorem u64_8 (v : BitVec 8) : encodeUint64 (v.setWidth 64) = encodeUint8 v := by
  rw [← u16_8, ← u64_16]
  congr 1

/-- C12, unsigned: the encoding depends on the value only. -/
theorem C12_uint_canonical (k k' : UKind) (tid tid' : Nat) (v : BitVec k.width) (v' : BitVec k'.width)
    (h : v.toNat = v'.toNat) : (encode (.uint k tid v)).bytes = (encode (.uint k' tid' v')).bytes := by
  have key : ∀ (k : UKind) (tid : Nat) (v : BitVec k.width),
      (encode (.uint k tid v)).bytes = encodeUint64 (BitVec.ofNat 64 v.toNat) := by
    intro k tid v
    have h64 : encodeUint64 (v.setWidth 64) = encodeUint64 (BitVec.ofNat 64 v.toNat) := by
      rw [BitVec.ofNat_toNat]
    cases tid with
    | succ t => cases k <;> exact h64
    | zero =>
      cases k with
      | u64 => exact (congrArg encodeUint64 (BitVec.setWidth_eq (n := 64) v).symm).trans h64
      | uint => exact (congrArg encodeUint64 (BitVec.setWidth_eq (n := 64) v).symm).trans h64
      | uintptr => exact h64
      | u32 => exact (encodeUint64_32 v).symm.trans h64
      | u16 => exact (u64_16 v).symm.trans h64
      | u8 => exact (u64_8 v).symm.trans h64
  rw [key k tid v, key k' tid' v', h]

/-- uint8(200) and a named uint64 holding 200. -/
example : BitVec.toNat (w := UKind.u8.width) 200 = BitVec.toNat (w := UKind.u64.width) 200 := by decide

private theorem i8_size {z : Int} (h1 : -2^7 < z) (h2 : z < 2^7) : intSize z = 2 := if_pos ⟨h1, h2⟩

private theorem i16_size {z : Int} (h0 : ¬ (-2^7 < z ∧ z < 2^7)) (h1 : -2^15 < z) (h2 : z < 2^15) :
    intSize z = 3 := by
  unfold intSize
  rw [if_neg h0, if_pos ⟨h1, h2⟩]

private theorem i32_size {z : Int} (h0 : ¬ (-2^15 < z ∧ z < 2^15)) (h1 : -2^31 < z) (h2 : z < 2^31) :
    intSize z = 5 := by
  unfold intSize
  rw [if_neg (by omega), if_neg h0, if_pos ⟨h1, h2⟩]

private theorem i64_size {z : Int} (h0 : ¬ (-2^31 < z ∧ z < 2^31)) : intSize z = 9 := by
  unfold intSize
  rw [if_neg (by omega), if_neg (by omega), if_neg h0]

private theorem intSize_le (z : Int) : intSize z ≤ 9 := by
  unfold intSize
  repeat' split
  all_goals omega

private theorem len_i8 (v : BitVec 8) : (encodeInt8 v).length = 2 := rfl

private theorem i8_eq (v : BitVec 8) : (encodeInt8 v).length = intSize v.toInt ∨ v.toInt = -2^7 := by
  have h1 := BitVec.le_toInt v
  have h2 := BitVec.toInt_lt (x := v)
  by_cases h : v.toInt = -2^7
  · exact Or.inr h
  · left
    rw [i8_size (by omega) (by omega), len_i8]

private theorem i16_eq (v : BitVec 16) : (encodeInt16 v).length = intSize v.toInt ∨ v.toInt = -2^15 := by
  have h1 := BitVec.le_toInt v
  have h2 := BitVec.toInt_lt (x := v)
  by_cases h : v.toInt = -2^15
  · exact Or.inr h
  · left
    unfold encodeInt16
    simp only [show cInt8Max = 2^7 from rfl, show cInt8Min = -2^7 from rfl]
    by_cases hr : v.toInt > -2^7 ∧ v.toInt < 2^7
    · rw [if_pos hr, i8_size hr.1 hr.2, len_i8]
    · rw [if_neg hr, i16_size hr (by omega) (by omega)]; rfl

private theorem len_i16_le (v : BitVec 16) : (encodeInt16 v).length ≤ 3 := by
  unfold encodeInt16
  split
  · rw [len_i8]; omega
  · exact Nat.le_refl 3

private theorem i32_eq (v : BitVec 32) : (encodeInt32 v).length = intSize v.toInt ∨ v.toInt = -2^31 := by
  have h1 := BitVec.le_toInt v
  have h2 := BitVec.toInt_lt (x := v)
  by_cases h : v.toInt = -2^31
  · exact Or.inr h
  · left
    unfold encodeInt32
    simp only [show cInt16Max = 2^15 from rfl, show cInt16Min = -2^15 from rfl]
    by_cases hr : v.toInt > -2^15 ∧ v.toInt < 2^15
    · rw [if_pos hr]
      have hw : (v.setWidth 16).toInt = v.toInt := toInt_setWidth_of_range v 16 (by omega) (by omega)
        (by omega) (by omega)
      rcases i16_eq (v.setWidth 16) with h' | h'
      · rw [h', hw]
      · rw [hw] at h'; omega
    · rw [if_neg hr, i32_size hr (by omega) (by omega)]; rfl

private theorem len_i32_le (v : BitVec 32) : (encodeInt32 v).length ≤ 5 := by
  unfold encodeInt32
  split
  · have := len_i16_le (v.setWidth 16); omega
  · exact Nat.le_refl 5

private theorem i64_eq (v : BitVec 64) : (encodeInt64 v).length = intSize v.toInt := by
  unfold encodeInt64
  simp only [show cInt32Max = 2^31 from rfl, show cInt32Min = -2^31 from rfl]
  by_cases hr : v.toInt > -2^31 ∧ v.toInt < 2^31
  · rw [if_pos hr]
    have hw : (v.setWidth 32).toInt = v.toInt := toInt_setWidth_of_range v 32 (by omega) (by omega)
      (by omega) (by omega)
    rcases i32_eq (v.setWidth 32) with h' | h'
    · rw [h', hw]
    · rw [hw] at h'; omega
  · rw [if_neg hr, i64_size hr]; rfl

/-- C12, signed: the least size for the value, at most the type's width plus one byte, for every
predeclared type and every value other than the least one of int8, int16, int32. -/
theorem C12_int_size (k : IKind) (v : BitVec k.width) :
    ((encode (.int k 0 v)).bytes.length = intSize v.toInt ∨ (k.width < 64 ∧ v.toInt = -2^(k.width - 1))) ∧
    (encode (.int k 0 v)).bytes.length ≤ k.width / 8 + 1 := by
  cases k with
  | i8 => exact ⟨(i8_eq v).imp id (fun h => ⟨by decide, h⟩), Nat.le_refl 2⟩
  | i16 => exact ⟨(i16_eq v).imp id (fun h => ⟨by decide, h⟩), len_i16_le v⟩
  | i32 => exact ⟨(i32_eq v).imp id (fun h => ⟨by decide, h⟩), len_i32_le v⟩
  | i64 => exact ⟨Or.inl (i64_eq v), Nat.le_trans (Nat.le_of_eq (i64_eq v)) (intSize_le _)⟩
  | int => exact ⟨Or.inl (i64_eq v), Nat.le_trans (Nat.le_of_eq (i64_eq v)) (intSize_le _)⟩

/-- The excepted values take the width of their type when predeclared and one step more otherwise. -/
theorem C12_least_values :
    (encode (.int .i8 0 0x80)).bytes.length = 2 ∧ (encode (.int .i8 1 0x80)).bytes.length = 3 ∧
    (encode (.int .i16 0 0x8000)).bytes.length = 3 ∧
    (encode (.int .i64 0 (BitVec.ofInt 64 (-2^15)))).bytes.length = 5 := by
  refine ⟨by decide +kernel, by decide +kernel, by decide +kernel, by decide +kernel⟩

private theorem toInt_ext {n m : Nat} (v : BitVec n) (h : n ≤ m) : (v.signExtend m).toInt = v.toInt :=
  BitVec.toInt_signExtend_of_le h

private theorem i64_32 (v : BitVec 32) (h : v.toInt ≠ -2^31) : encodeInt64 (v.signExtend 64) = encodeInt32 v := by
  have h1 := BitVec.le_toInt v
  have h2 := BitVec.toInt_lt (x := v)
  have he := toInt_ext v (show 32 ≤ 64 by omega)
  rw [encodeInt64, if_pos (by
    rw [he, show cInt32Max = 2^31 from rfl, show cInt32Min = -2^31 from rfl]; omega)]
  congr 1
  apply BitVec.eq_of_toInt_eq
  rw [toInt_setWidth_of_range _ 32 (by omega) (by omega) (by rw [he]; omega) (by rw [he]; omega), he]

private theorem i32_16 (v : BitVec 16) (h : v.toInt ≠ -2^15) : encodeInt32 (v.signExtend 32) = encodeInt16 v := by
  have h1 := BitVec.le_toInt v
  have h2 := BitVec.toInt_lt (x := v)
  have he := toInt_ext v (show 16 ≤ 32 by omega)
  rw [encodeInt32, if_pos (by
    rw [he, show cInt16Max = 2^15 from rfl, show cInt16Min = -2^15 from rfl]; omega)]
  congr 1
  apply BitVec.eq_of_toInt_eq
  rw [toInt_setWidth_of_range _ 16 (by omega) (by omega) (by rw [he]; omega) (by rw [he]; omega), he]

private theorem i16_8 (v : BitVec 8) (h : v.toInt ≠ -2^7) : encodeInt16 (v.signExtend 16) = encodeInt8 v := by
  have h1 := BitVec.le_toInt v
  have h2 := BitVec.toInt_lt (x := v)
  have he := toInt_ext v (show 8 ≤ 16 by omega)
  rw [encodeInt16, if_pos (by
    rw [he, show cInt8Max = 2^7 from rfl, show cInt8Min = -2^7 from rfl]; omega)]
  congr 1
  apply BitVec.eq_of_toInt_eq
  rw [toInt_setWidth_of_range _ 8 (by omega) (by omega) (by rw [he]; omega) (by rw [he]; omega), he]

private theorem i64_16 (v : BitVec 16) (h : v.toInt ≠ -2^15) (h' : v.toInt ≠ -2^31) :
    encodeInt64 (v.signExtend 64) = encodeInt16 v := by
  rw [← i32_16 v h, ← i64_32 _ (by rw [toInt_ext v (by omega)]; exact h')]
  congr 1
  apply BitVec.eq_of_toInt_eq
  rw [toInt_ext v (by omega), toInt_ext _ (by omega), toInt_ext v (by omega)]

private theorem i64_8 (v : BitVec 8) (h : v.toInt ≠ -2^7) (h' : v.toInt ≠ -2^15) (h'' : v.toInt ≠ -2^31) :
    encodeInt64 (v.signExtend 64) = encodeInt8 v := by
  have he := toInt_ext v (show 8 ≤ 16 by omega)
  rw [← i16_8 v h, ← i64_16 _ (by rw [he]; exact h') (by rw [he]; exact h'')]
  congr 1
  apply BitVec.eq_of_toInt_eq
  rw [toInt_ext v (by omega), toInt_ext _ (by omega), he]

/-- C12, signed: apart from the least values of int8, int16, int32 the encoding depends on the value only. -/
theorem C12_int_canonical (k k' : IKind) (tid tid' : Nat) (v : BitVec k.width) (v' : BitVec k'.width)
    (h : v.toInt = v'.toInt) (h7 : v.toInt ≠ -2^7) (h15 : v.toInt ≠ -2^15) (h31 : v.toInt ≠ -2^31) :
    (encode (.int k tid v)).bytes = (encode (.int k' tid' v')).bytes := by
  have key : ∀ (k : IKind) (tid : Nat) (v : BitVec k.width), v.toInt ≠ -2^7 → v.toInt ≠ -2^15 →
      v.toInt ≠ -2^31 → (encode (.int k tid v)).bytes = encodeInt64 (BitVec.ofInt 64 v.toInt) := by
    intro k tid v h7 h15 h31
    have h64 : encodeInt64 (v.signExtend 64) = encodeInt64 (BitVec.ofInt 64 v.toInt) := rfl
    cases tid with
    | succ t => cases k <;> exact h64
    | zero =>
      cases k with
      | i64 => exact (congrArg encodeInt64 (BitVec.signExtend_eq (w := 64) v).symm).trans h64
      | int => exact (congrArg encodeInt64 (BitVec.signExtend_eq (w := 64) v).symm).trans h64
      | i32 => exact (i64_32 v h31).symm.trans h64
      | i16 => exact (i64_16 v h15 h31).symm.trans h64
      | i8 => exact (i64_8 v h7 h15 h31).symm.trans h64
  rw [key k tid v h7 h15 h31, key k' tid' v' (h ▸ h7) (h ▸ h15) (h ▸ h31), h]

/-- int64(-129) and a named int16 holding -129. -/
example : (encode (.int .i64 0 (BitVec.ofInt 64 (-129)))).bytes =
    (encode (.int .i16 5 (BitVec.ofInt 16 (-129)))).bytes ∧
    (encode (.int .i64 0 (BitVec.ofInt 64 (-129)))).bytes.length = 3 := by
  exact ⟨by decide +kernel, by decide +kernel⟩

end Verif.Props
