import Verif.Codec.Float

/-! # Helper lemmas about float conversions -/

namespace Verif.Codec

open Verif

/-- Magnitude part of `widen`. -/
def widenMag (e m : Nat) : Nat :=
  if e = 255 then
    if m = 0 then 2047 * 2^52
    else 2047 * 2^52 + 2^51 + (m % 2^22) * 2^29
  else if e = 0 then
    if m = 0 then 0
    else (m.log2 + 874) * 2^52 + (m - 2^m.log2) * 2^(52 - m.log2)
  else (e + 896) * 2^52 + m * 2^29

theorem widen_eq (b : BitVec 32) :
    widen b = BitVec.ofNat 64 (b.toNat / 2^31 * 2^63 +
      widenMag (b.toNat / 2^23 % 2^8) (b.toNat % 2^23)) := rfl

/-- A subnormal's normalised fraction and its position. -/
theorem subnormal_facts (m : Nat) (hm : m < 2^23) (h0 : m ≠ 0) :
    m.log2 ≤ 22 ∧ 2^m.log2 ≤ m ∧ (m - 2^m.log2) * 2^(52 - m.log2) < 2^52 := by
  have h1 : 2^m.log2 ≤ m := Nat.log2_self_le h0
  have h2 : m < 2^(m.log2 + 1) := Nat.lt_log2_self
  have h3 : m.log2 < 23 := (Nat.log2_lt h0).mpr hm
  refine ⟨by omega, h1, ?_⟩
  have h4 : m - 2^m.log2 < 2^m.log2 := by
    rw [Nat.pow_succ] at h2; omega
  calc (m - 2^m.log2) * 2^(52 - m.log2) < 2^m.log2 * 2^(52 - m.log2) :=
        Nat.mul_lt_mul_of_pos_right h4 (Nat.two_pow_pos _)
    _ = 2^52 := by rw [← Nat.pow_add]; congr 1; omega

theorem widenMag_lt (e m : Nat) (he : e < 2^8) (hm : m < 2^23) : widenMag e m < 2^63 := by
  unfold widenMag
  split
  · split <;> omega
  · split
    · split
      · omega
      · rename_i h0
        have := subnormal_facts m hm h0
        omega
    · omega

theorem widen_toNat (b : BitVec 32) :
    (widen b).toNat = b.toNat / 2^31 * 2^63 + widenMag (b.toNat / 2^23 % 2^8) (b.toNat % 2^23) := by
  have hb := b.isLt
  have := widenMag_lt (b.toNat / 2^23 % 2^8) (b.toNat % 2^23) (by omega) (by omega)
  rw [widen_eq, BitVec.toNat_ofNat, Nat.mod_eq_of_lt]
  omega

/-- The bit pattern of a widened float32 is large, except for +0. -/
theorem widenMag_ge (e m : Nat) (hm : m < 2^23) (h : e ≠ 0 ∨ m ≠ 0) : 2^52 ≤ widenMag e m := by
  unfold widenMag
  split
  · split <;> omega
  · split
    · split
      · omega
      · rename_i h0
        have := subnormal_facts m hm h0
        omega
    · omega

theorem widen_large (b : BitVec 32) (h : b ≠ 0) : 2^32 ≤ (widen b).toNat := by
  have hb := b.isLt
  have h0 : b.toNat ≠ 0 := by
    intro hc; apply h; apply BitVec.eq_of_toNat_eq; simpa using hc
  rw [widen_toNat]
  by_cases hs : b.toNat / 2^31 = 0
  · have := widenMag_ge (b.toNat / 2^23 % 2^8) (b.toNat % 2^23) (by omega) (by omega)
    omega
  · have : 1 ≤ b.toNat / 2^31 := by omega
    omega

theorem widen_zero : widen 0 = 0 := by decide

theorem widen_exp (b : BitVec 32) :
    (widen b).toNat / 2^52 % 2^11 = widenMag (b.toNat / 2^23 % 2^8) (b.toNat % 2^23) / 2^52 := by
  have hb := b.isLt
  have := widenMag_lt (b.toNat / 2^23 % 2^8) (b.toNat % 2^23) (by omega) (by omega)
  rw [widen_toNat]
  omega

theorem widen_frac (b : BitVec 32) :
    (widen b).toNat % 2^52 = widenMag (b.toNat / 2^23 % 2^8) (b.toNat % 2^23) % 2^52 := by
  rw [widen_toNat]
  omega

theorem isNaN64_widen (b : BitVec 32) : isNaN64 (widen b) = isNaN32 b := by
  have hb := b.isLt
  unfold isNaN64 isNaN32
  rw [widen_exp, widen_frac]
  generalize he : b.toNat / 2^23 % 2^8 = e
  generalize hm : b.toNat % 2^23 = m
  have he' : e < 256 := by omega
  have hm' : m < 2^23 := by omega
  rw [Bool.eq_iff_iff]
  simp only [Bool.and_eq_true, beq_iff_eq, bne_iff_ne, ne_eq]
  unfold widenMag
  by_cases h255 : e = 255
  · simp only [h255, if_true, true_and]
    by_cases h0 : m = 0
    · simp [h0]
    · have h1 : m % 2^22 < 2^22 := by omega
      simp only [h0, if_false, not_false_eq_true, iff_true]
      generalize m % 2^22 = r at h1
      constructor <;> omega
  · simp only [h255, if_false, false_and, iff_false, not_and]
    intro h
    exfalso
    split at h
    · split at h
      · omega
      · rename_i h0
        have := subnormal_facts m hm' h0
        omega
    · omega

end Verif.Codec
