import Verif.Props.Codec7

/-! # C20 float32 elements survive the trip through float64 -/

namespace Verif.Props

open Verif Verif.Codec

/-! ## The real number a finite float denotes, as a multiple of the least positive float of its format -/

/-- Sign, biased exponent and fraction. -/
def sign64 (b : BitVec 64) : Bool := decide (2^63 ≤ b.toNat)
/-- Biased exponent of a float64. -/
def exp64 (b : BitVec 64) : Nat := b.toNat / 2^52 % 2^11
/-- Fraction of a float64. -/
def frac64 (b : BitVec 64) : Nat := b.toNat % 2^52
/-- Sign of a float32. -/
def sign32 (b : BitVec 32) : Bool := decide (2^31 ≤ b.toNat)
/-- Biased exponent of a float32. -/
def exp32 (b : BitVec 32) : Nat := b.toNat / 2^23 % 2^8
/-- Fraction of a float32. -/
def frac32 (b : BitVec 32) : Nat := b.toNat % 2^23

/-- `value64 b * 2^-1074` is the number denoted by a float64 with exponent below 2047. -/
def value64 (b : BitVec 64) : Int :=
  let mag : Nat := if exp64 b = 0 then frac64 b else (2^52 + frac64 b) * 2^(exp64 b - 1)
  if sign64 b then -(mag : Int) else mag

/-- `value32 b * 2^-149` is the number denoted by a float32 with exponent below 255. -/
def value32 (b : BitVec 32) : Int :=
  let mag : Nat := if exp32 b = 0 then frac32 b else (2^23 + frac32 b) * 2^(exp32 b - 1)
  if sign32 b then -(mag : Int) else mag

private theorem rne_exact (q k : Nat) : rne (q * 2^k) k = q := by
  have hp := Nat.two_pow_pos k
  simp only [rne, Nat.mul_mod_left, Nat.mul_div_cancel _ hp]
  rw [if_neg]
  omega

private theorem subnormal_sig (m : Nat) (hm : m < 2^23) (h0 : m ≠ 0) :
    (m - 2^m.log2) * 2^(52 - m.log2) + 2^52 = m * 2^(52 - m.log2) := by
  obtain ⟨h1, h2, _⟩ := subnormal_facts m hm h0
  have : (2:Nat)^52 = 2^m.log2 * 2^(52 - m.log2) := by rw [← Nat.pow_add]; congr 1; omega
  rw [this, ← Nat.add_mul, Nat.sub_add_cancel h2]

private theorem fields (b : BitVec 32) :
    (widen b).toNat / 2^63 = b.toNat / 2^31 ∧
    (widen b).toNat / 2^52 % 2^11 = widenMag (exp32 b) (frac32 b) / 2^52 ∧
    (widen b).toNat % 2^52 = widenMag (exp32 b) (frac32 b) % 2^52 := by
  refine ⟨?_, widen_exp b, widen_frac b⟩
  have hb := b.isLt
  have := widenMag_lt (b.toNat / 2^23 % 2^8) (b.toNat % 2^23) (by omega) (by omega)
  rw [widen_toNat]
  omega

/-- The exponent and fraction fields of a widened finite float32. -/
private theorem mag_fields (e m : Nat) (he : e < 255) (hm : m < 2^23) :
    (e = 0 ∧ m = 0 ∧ widenMag e m / 2^52 = 0 ∧ widenMag e m % 2^52 = 0) ∨
    (e = 0 ∧ m ≠ 0 ∧ widenMag e m / 2^52 = m.log2 + 874 ∧ m.log2 ≤ 22 ∧
      widenMag e m % 2^52 = (m - 2^m.log2) * 2^(52 - m.log2)) ∨
    (e ≠ 0 ∧ widenMag e m / 2^52 = e + 896 ∧ widenMag e m % 2^52 = m * 2^29) := by
  unfold widenMag
  rw [if_neg (by omega)]
  by_cases h0 : e = 0
  · by_cases h1 : m = 0
    · left; simp [h0, h1]
    · right; left
      have := subnormal_facts m hm h1
      rw [if_pos h0, if_neg h1]
      generalize (m - 2^m.log2) * 2^(52 - m.log2) = x at *
      omega
  · right; right
    rw [if_neg h0]
    omega

private theorem narrow_widen (b : BitVec 32) (h : isNaN32 b = false) : narrow (widen b) = b := by
  have hb := b.isLt
  obtain ⟨f1, f2, f3⟩ := fields b
  apply BitVec.eq_of_toNat_eq
  simp only [narrow, f1, f2, f3]
  have hm : frac32 b < 2^23 := Nat.mod_lt _ (by decide)
  have he : exp32 b < 256 := Nat.mod_lt _ (by decide)
  have hn : b.toNat = b.toNat / 2^31 * 2^31 + (exp32 b * 2^23 + frac32 b) := by
    unfold exp32 frac32; omega
  have hNaN : ¬ (exp32 b = 255 ∧ frac32 b ≠ 0) := by
    intro hc
    simp only [isNaN32, Bool.and_eq_false_iff] at h
    unfold exp32 frac32 at hc
    rcases h with h | h
    · simp [hc.1] at h
    · simp [hc.2] at h
  generalize exp32 b = e at *
  generalize frac32 b = m at *
  have fin : ∀ mag : Nat, mag = e * 2^23 + m →
      (BitVec.ofNat 32 (b.toNat / 2^31 * 2^31 + mag)).toNat = b.toNat := by
    rintro mag rfl
    rw [← hn, BitVec.toNat_ofNat, Nat.mod_eq_of_lt hb]
  apply fin
  by_cases h255 : e = 255
  · have hm0 : m = 0 := by
      by_cases hm0 : m = 0
      · exact hm0
      · exact absurd ⟨h255, hm0⟩ hNaN
    subst h255; subst hm0
    rfl
  · rcases mag_fields e m (by omega) hm with ⟨h1, h2, h3, h4⟩ | ⟨h1, h2, h3, h5, h4⟩ | ⟨h1, h3, h4⟩
    · rw [h3, h4, h1, h2]
      decide +kernel
    · rw [h3, h4, if_neg (show ¬ m.log2 + 874 = 2047 by omega), if_neg (show ¬ m.log2 + 874 = 0 by omega)]
      have e1 : Nat.max (m.log2 + 874) 897 = 897 := Nat.max_eq_right (by omega)
      have e2 : Nat.max (m.log2 + 874) 1 = m.log2 + 874 := Nat.max_eq_left (by omega)
      rw [e1, e2, subnormal_sig m hm h2, show 29 + (897 - (m.log2 + 874)) = 52 - m.log2 by omega, rne_exact]
      rw [if_neg (by omega)]
      omega
    · rw [h3, h4, if_neg (show ¬ e + 896 = 2047 by omega), if_neg (show ¬ e + 896 = 0 by omega)]
      have e1 : Nat.max (e + 896) 897 = e + 896 := Nat.max_eq_left (by omega)
      have e2 : Nat.max (e + 896) 1 = e + 896 := Nat.max_eq_left (by omega)
      rw [e1, e2, show 29 + (897 - (e + 896)) = 29 by omega,
        show m * 2^29 + 2^52 = (m + 2^23) * 2^29 by omega, rne_exact]
      rw [if_neg (by omega)]
      omega

private theorem narrow_widen_nan (b : BitVec 32) (h : isNaN32 b = true) :
    (narrow (widen b)).toNat = b.toNat / 2^23 * 2^23 + 2^22 + b.toNat % 2^22 := by
  have hb := b.isLt
  obtain ⟨f1, f2, f3⟩ := fields b
  have hc : exp32 b = 255 ∧ frac32 b ≠ 0 := by
    simp only [isNaN32, Bool.and_eq_true] at h
    unfold exp32 frac32
    simpa using h
  have hm : frac32 b < 2^23 := Nat.mod_lt _ (by decide)
  have hn : b.toNat = b.toNat / 2^31 * 2^31 + (exp32 b * 2^23 + frac32 b) := by
    unfold exp32 frac32; omega
  have hw : widenMag (exp32 b) (frac32 b) = 2047 * 2^52 + 2^51 + (frac32 b % 2^22) * 2^29 := by
    unfold widenMag
    rw [if_pos hc.1, if_neg hc.2]
  simp only [narrow, f1, f2, f3, hw]
  rw [hc.1] at hn
  generalize frac32 b = m at *
  have e1 : (2047 * 2^52 + 2^51 + m % 2^22 * 2^29) / 2^52 = 2047 := by omega
  have e2 : (2047 * 2^52 + 2^51 + m % 2^22 * 2^29) % 2^52 = 2^51 + m % 2^22 * 2^29 := by omega
  have e3 : (2^51 + m % 2^22 * 2^29) / 2^29 % 2^22 = m % 2^22 := by omega
  rw [e1, e2, e3, if_pos rfl, if_neg (by omega), BitVec.toNat_ofNat]
  generalize b.toNat = n at *
  have e4 : n / 2^23 * 2^23 = n / 2^31 * 2^31 + 255 * 2^23 := by omega
  have e5 : n % 2^22 = m % 2^22 := by omega
  rw [e4, e5, Nat.mod_eq_of_lt (by omega)]
  simp only [Nat.add_assoc]

/-- C20, first half: a float32 `x` (not NaN, not +0, see C02) at any place of a list arrives as a float64
that `Float32` reads back as `x`. -/
theorem C20_float32_roundtrip (ty : SeqTy) (pre post : List Val) (t : Nat) (x : BitVec 32)
    (hn : isNaN32 x = false) (h : wireOK (.seq ty (pre ++ .f32 t x :: post)) = true) :
    ∃ ys y, decode (encode (.seq ty (pre ++ .f32 t x :: post))).bytes = .ok (.seq .ifaceSlice ys, []) ∧
      ys[pre.length]? = some y ∧ (newAny y).float32 = .ok x ∧ (newAny y).float64 = .ok (widen x) := by
  have h1 := decode_encode (.seq ty (pre ++ .f32 t x :: post)) h []
  rw [List.append_nil] at h1
  refine ⟨_, .f64 0 (widen x), h1, ?_, ?_, rfl⟩
  · rw [canonList_eq]
    simp [canon]
  · change Res.ok (narrow (widen x)) = Res.ok x
    rw [narrow_widen x hn]

/-- Beyond C20, for a NaN: it arrives as a NaN with the same sign and the same lower bits, with the quiet bit set; so a quiet
NaN is read back as it was sent. -/
theorem C20_nan (ty : SeqTy) (pre post : List Val) (t : Nat) (x : BitVec 32)
    (hn : isNaN32 x = true) (h : wireOK (.seq ty (pre ++ .f32 t x :: post)) = true) :
    ∃ ys y f, decode (encode (.seq ty (pre ++ .f32 t x :: post))).bytes = .ok (.seq .ifaceSlice ys, []) ∧
      ys[pre.length]? = some y ∧ (newAny y).float32 = .ok f ∧
      f.toNat = x.toNat / 2^23 * 2^23 + 2^22 + x.toNat % 2^22 ∧ isNaN32 f = true ∧
      (2^22 ≤ frac32 x → f = x) := by
  have h1 := decode_encode (.seq ty (pre ++ .f32 t x :: post)) h []
  rw [List.append_nil] at h1
  have hf := narrow_widen_nan x hn
  refine ⟨_, .f64 0 (widen x), narrow (widen x), h1, ?_, rfl, hf, ?_, ?_⟩
  · rw [canonList_eq]
    simp [canon]
  · simp only [isNaN32, Bool.and_eq_true, decide_eq_true_eq] at hn ⊢
    rw [hf]
    have := x.isLt
    simp only [beq_iff_eq, bne_iff_ne] at hn ⊢
    omega
  · intro hq
    apply BitVec.eq_of_toNat_eq
    rw [hf]
    unfold frac32 at hq
    omega

/-- A signalling NaN in a list. -/
example : wireOK (.seq (.slice 7) ([.f32 0 0x3fc00000] ++ .f32 0 0x7f800001 :: [])) = true ∧ isNaN32 0x7f800001 = true :=
  ⟨by decide +kernel, by decide⟩

/-- The same for the value under a key of a map. -/
theorem C20_float32_map_roundtrip (ty : MapTy) (kvs : List (Val × Val)) (k : Val) (t : Nat) (x : BitVec 32)
    (hn : isNaN32 x = false) (hk : (k, .f32 t x) ∈ kvs) (h : wireOK (.map ty kvs) = true) :
    ∃ d y, decode (encode (.map ty kvs)).bytes = .ok (.map .ifaceMap d, []) ∧
      lookup (canon k) d = some y ∧ (newAny y).float32 = .ok x ∧ (newAny y).float64 = .ok (widen x) := by
  obtain ⟨d, h1, _, h2, _⟩ := C14_map_entries_partial ty kvs h
  have hr : reflexive k = true := by
    simp only [wireOK, Bool.and_eq_true, wireOKEntries_iff] at h
    rcases (h.1.2 _ hk).2.2.1 with h | h
    · exact h
    · cases h
  refine ⟨d, .f64 0 (widen x), h1, (h2 k _ hk).2 hr, ?_, rfl⟩
  change Res.ok (narrow (widen x)) = Res.ok x
  rw [narrow_widen x hn]

/-- C20, second half: the widened float denotes the same real number (the unit 2^-149 is 2^925 times the
unit 2^-1074), infinities stay infinities of the same sign, and the sign bit is kept. -/
theorem C20_widen_exact (x : BitVec 32) :
    sign64 (widen x) = sign32 x ∧
    (exp32 x < 255 → exp64 (widen x) < 2047 ∧ value64 (widen x) = value32 x * 2^925) ∧
    (exp32 x = 255 → frac32 x = 0 → exp64 (widen x) = 2047 ∧ frac64 (widen x) = 0) := by
  generalize hk : (925 : Nat) = k
  obtain ⟨f1, f2, f3⟩ := fields x
  have hx := x.isLt
  have hw := (widen x).isLt
  have hs : sign64 (widen x) = sign32 x := by
    unfold sign64 sign32
    rw [Bool.eq_iff_iff]
    simp only [decide_eq_true_eq]
    omega
  refine ⟨hs, fun he => ?_, fun he hf => ?_⟩
  · have hm : frac32 x < 2^23 := Nat.mod_lt _ (by decide)
    have key : exp64 (widen x) < 2047 ∧
        (if exp64 (widen x) = 0 then frac64 (widen x) else (2^52 + frac64 (widen x)) * 2^(exp64 (widen x) - 1)) =
        (if exp32 x = 0 then frac32 x else (2^23 + frac32 x) * 2^(exp32 x - 1)) * 2^k := by
      unfold exp64 frac64
      rw [f2, f3]
      generalize exp32 x = e at *
      generalize frac32 x = m at *
      rcases mag_fields e m he hm with ⟨h1, h2, h3, h4⟩ | ⟨h1, h2, h3, h5, h4⟩ | ⟨h1, h3, h4⟩
      · rw [h3, h4, h1, h2]
        simp
      · rw [h3, h4, if_neg (by omega), if_pos h1]
        refine ⟨by omega, ?_⟩
        rw [Nat.add_comm (2^52), subnormal_sig m hm h2, Nat.mul_assoc, ← Nat.pow_add]
        exact congrArg (fun z => m * 2^z) (by omega)
      · rw [h3, h4, if_neg (by omega), if_neg h1]
        refine ⟨by omega, ?_⟩
        rw [show 2^52 + m * 2^29 = (2^23 + m) * 2^29 by omega, Nat.mul_assoc, Nat.mul_assoc, ← Nat.pow_add,
          ← Nat.pow_add]
        exact congrArg (fun z => (2^23 + m) * 2^z) (by omega)
    refine ⟨key.1, ?_⟩
    unfold value64 value32
    simp only [hs, key.2]
    split
    · rw [Int.natCast_mul, Int.neg_mul, Int.natCast_pow]; rfl
    · rw [Int.natCast_mul, Int.natCast_pow]; rfl
  · unfold exp64 frac64
    rw [f2, f3, he, hf]
    decide

/-- 1.5, the least subnormal and minus infinity in one list. -/
example : wireOK (.seq (.slice 7) ([.f32 0 0x3fc00000] ++ .f32 0 1 :: [.f32 0 0xff800000])) = true ∧
    isNaN32 1 = false ∧ isNaN32 0xff800000 = false ∧ exp32 1 < 255 := by
  exact ⟨by decide +kernel, by decide, by decide, by decide⟩

end Verif.Props
