import Verif.Props.Float1
import Verif.Props.Chan3
import Verif.Text

/-! # C133: numbers passed to parameters of other types -/

namespace Verif.Props

open Verif Verif.Codec Verif.Chan

/-! ## Integers to float64 -/

/-- `y` is the float64 nearest to the integer `z`, the one with even fraction if there are two.  (`value64 y` counts in
units of 2^-1074.) -/
structure NearestInt (z : Int) (y : BitVec 64) : Prop where
  finite : exp64 y < 2047
  near : ∀ c, exp64 c < 2047 → (z * 2^1074 - value64 y).natAbs ≤ (z * 2^1074 - value64 c).natAbs ∧
    ((z * 2^1074 - value64 y).natAbs = (z * 2^1074 - value64 c).natAbs → value64 c ≠ value64 y → frac64 y % 2 = 0)
  exact : z.natAbs ≤ 2^53 → value64 y = z * 2^1074

private theorem value64_eq (y : BitVec 64) (s r : Nat) (hs : s < 2) (hr : r < 2^63) (hy : y.toNat = s * 2^63 + r) :
    sign64 y = decide (s = 1) ∧ exp64 y = r / 2^52 ∧ frac64 y = r % 2^52 ∧
      value64 y = if decide (s = 1) = true then -(mag 52 r : Int) else mag 52 r := by
  have h1 : sign64 y = decide (s = 1) := by
    unfold sign64
    rw [hy]
    exact decide_eq_decide.mpr (by omega)
  have h2 : exp64 y = r / 2^52 := by unfold exp64; rw [hy]; omega
  have h3 : frac64 y = r % 2^52 := by unfold frac64; rw [hy]; omega
  refine ⟨h1, h2, h3, ?_⟩
  unfold value64
  rw [h1, h2, h3]
  rfl

private theorem gap_exact {x a : Nat} (ha : a = x) (P : Prop) (y : Nat) :
    gap x a ≤ gap x y ∧ (gap x a = gap x y → y ≠ a → P) := by
  subst ha
  refine ⟨?_, fun h hne => ?_⟩
  · unfold gap; omega
  · exfalso; unfold gap at h; omega

/-- The bits of a natural number: finite, exact up to 2^53, and nearest. -/
private theorem natBits_near (n : Nat) (hn : n ≤ 2^64) :
    natBits n < 2047 * 2^52 ∧ (n ≤ 2^53 → mag 52 (natBits n) = n * 2^1074) ∧
    ∀ r, gap (n * 2^1074) (mag 52 (natBits n)) ≤ gap (n * 2^1074) (mag 52 r) ∧
      (gap (n * 2^1074) (mag 52 (natBits n)) = gap (n * 2^1074) (mag 52 r) → mag 52 r ≠ mag 52 (natBits n) →
        natBits n % 2^52 % 2 = 0) := by
  by_cases h0 : n = 0
  · subst h0
    have e : natBits 0 = 0 := rfl
    rw [e, mag_zero, Nat.zero_mul]
    refine ⟨by decide, fun _ => rfl, fun r => ⟨?_, fun _ _ => by decide⟩⟩
    rw [gap_zero]
    exact Nat.zero_le _
  have l1 := Nat.log2_self_le h0
  have l2 : n < 2^(n.log2 + 1) := Nat.lt_log2_self
  have l3 : n.log2 ≤ 64 := by
    rcases Nat.lt_or_ge 64 n.log2 with h | h
    · have : 2^65 ≤ 2^n.log2 := Nat.pow_le_pow_right (by decide) h
      omega
    · exact h
  rcases Nat.lt_or_ge 52 n.log2 with hL | hL
  · have hdef : natBits n = (n.log2 + 1022) * 2^52 + rne n (n.log2 - 52) := by
      unfold natBits
      rw [if_neg h0, if_neg (by omega)]
    have key := fun r => near_mag 52 n (n.log2 - 52) 1074 (n.log2 + 1022) 0 r (by omega)
      (fun _ => by rw [show 52 + (n.log2 - 52) = n.log2 by omega]; exact l1)
      (by rw [show 52 + 1 + (n.log2 - 52) = n.log2 + 1 by omega]; exact Nat.le_of_lt l2)
    rw [← hdef] at key
    obtain ⟨k1, k2, _⟩ := key 0
    refine ⟨by omega, fun h53 => ?_, fun r => ?_⟩
    · have : n.log2 = 53 ∧ n = 2^53 := by
        have : 2^53 ≤ n := Nat.le_trans (Nat.pow_le_pow_right (by decide) hL) l1
        have hn : n = 2^53 := by omega
        exact ⟨by rw [hn]; exact Nat.log2_two_pow, hn⟩
      obtain ⟨e1, e2⟩ := this
      rw [hdef, e1, e2, show rne (2^53) (53 - 52) = 2^52 from by decide, mag_mul 52 _ _ (by omega) (.inr (Nat.le_refl _)),
        ← Nat.pow_add, ← Nat.pow_add]
    · obtain ⟨_, _, k3, k4⟩ := key r
      simp only [Nat.pow_zero, Nat.mul_one] at k3 k4
      exact ⟨k3, fun h hne => by have := k4 h hne; omega⟩
  · have hdef : natBits n = (n.log2 + 1022) * 2^52 + n * 2^(52 - n.log2) := by
      unfold natBits
      rw [if_neg h0, if_pos hL]
    have e : n.log2 + (52 - n.log2) = 52 := by omega
    have q1 : 2^52 ≤ n * 2^(52 - n.log2) := by
      have := Nat.mul_le_mul_right (2^(52 - n.log2)) l1
      rwa [← Nat.pow_add, e] at this
    have q2 : n * 2^(52 - n.log2) < 2 * 2^52 := by
      have := Nat.mul_lt_mul_of_pos_right l2 (Nat.two_pow_pos (52 - n.log2))
      rw [← Nat.pow_add, show n.log2 + 1 + (52 - n.log2) = 1 + 52 by omega] at this
      exact this
    have hm : mag 52 (natBits n) = n * 2^1074 := by
      rw [hdef, mag_mul 52 _ _ (Nat.le_of_lt q2) (.inr q1), Nat.mul_assoc, ← Nat.pow_add,
        show 52 - n.log2 + (n.log2 + 1022) = 1074 by omega]
    exact ⟨by omega, fun _ => hm, fun r => gap_exact hm _ _⟩

private theorem intFloat_near (z : Int) (hz : z.natAbs ≤ 2^64) : NearestInt z (intFloat z) := by
  obtain ⟨h1, h2, h3⟩ := natBits_near z.natAbs hz
  have hs : (if decide (z < 0) = true then 1 else 0) < 2 := by split <;> decide
  have hy : (intFloat z).toNat = (if decide (z < 0) = true then 1 else 0) * 2^63 + natBits z.natAbs := by
    unfold intFloat
    rw [BitVec.toNat_ofNat]
    by_cases h : z < 0
    · simp only [h, if_true, decide_true]
      omega
    · simp only [h, if_false, decide_false, Bool.false_eq_true]
      omega
  obtain ⟨a1, a2, a3, a4⟩ := value64_eq (intFloat z) _ _ hs (by omega) hy
  have hsg : decide ((if decide (z < 0) = true then 1 else 0) = 1) = decide (z < 0) := by
    by_cases h : z < 0 <;> simp [h]
  rw [hsg] at a1 a4
  have hz1 : z = if decide (z < 0) = true then -(z.natAbs : Int) else z.natAbs := by
    by_cases h : z < 0 <;> simp [h] <;> omega
  have hz2 : z * 2^1074 = if decide (z < 0) = true then -((z.natAbs * 2^1074 : Nat) : Int) else (z.natAbs * 2^1074 : Nat) := by
    rw [← mul_sign, ← hz1]
  refine ⟨by omega, fun c hc => ?_, fun h => ?_⟩
  · have hcl := c.isLt
    obtain ⟨c1, c2, c3, c4⟩ := value64_eq c (c.toNat / 2^63) (c.toNat % 2^63) (by omega) (by omega) (by omega)
    generalize c.toNat / 2^63 = s' at *
    generalize c.toNat % 2^63 = r' at *
    rw [hz2, a4, c4, sign_nat, sign_nat, if_pos rfl, a3]
    obtain ⟨k1, k2⟩ := h3 r'
    obtain ⟨z1, z2⟩ := h3 0
    rw [mag_zero, gap_zero] at z1 z2
    split
    · rename_i hss
      refine ⟨k1, fun h hne => k2 h ?_⟩
      intro hmm
      exact hne (by rw [hmm, ← hss])
    · refine ⟨Nat.le_trans z1 (Nat.le_add_right _ _), fun h hne => z2 ?_ ?_⟩
      · exact Nat.le_antisymm z1 (by rw [h]; exact Nat.le_add_right _ _)
      · intro h0
        rw [← h0, gap_zero] at h
        have hF : mag 52 r' = 0 := Nat.add_eq_left.mp h.symm
        apply hne
        rw [hF, ← h0]
        simp
  · rw [a4, h2 h, ← hz2]

/-! ## Floats to integers -/

private theorem tdiv_pow (x k : Nat) : ((x / 2^k : Nat) : Int) = (x : Int).tdiv (2^k) := by
  rw [Int.ofNat_tdiv, Int.natCast_pow]
  rfl

private theorem trunc_eq (b : BitVec 64) (h : exp64 b < 2047) : truncFloat b = some ((value64 b).tdiv (2^1074)) := by
  have hb := b.isLt
  have hm : frac64 b < 2^52 := Nat.mod_lt _ (by decide)
  have hP : 0 < 2^1074 := Nat.two_pow_pos 1074
  have key : (if exp64 b < 1023 then 0 else if exp64 b ≤ 1075 then (2^52 + frac64 b) / 2^(1075 - exp64 b)
      else (2^52 + frac64 b) * 2^(exp64 b - 1075)) =
      (if exp64 b = 0 then frac64 b else (2^52 + frac64 b) * 2^(exp64 b - 1)) / 2^1074 := by
    generalize exp64 b = e at *
    generalize frac64 b = m at *
    split
    · rename_i he
      symm
      apply Nat.div_eq_of_lt
      split
      · exact Nat.lt_of_lt_of_le hm (Nat.pow_le_pow_right (by decide) (by omega))
      · have h1 : (2^52 + m) * 2^(e - 1) < 2^53 * 2^(e - 1) := Nat.mul_lt_mul_of_pos_right (by omega) (Nat.two_pow_pos _)
        refine Nat.lt_of_lt_of_le h1 ?_
        rw [← Nat.pow_add]
        exact Nat.pow_le_pow_right (by decide) (by omega)
    · rw [if_neg (show ¬ e = 0 by omega)]
      split
      · have : 2^1074 = 2^(1075 - e) * 2^(e - 1) := by
          rw [← Nat.pow_add, show 1075 - e + (e - 1) = 1074 by omega]
        rw [this, Nat.mul_div_mul_right _ _ (Nat.two_pow_pos _)]
      · rw [show e - 1 = (e - 1075) + 1074 by omega, Nat.pow_add, ← Nat.mul_assoc, Nat.mul_div_cancel _ hP]
  have hs : (b.toNat / 2^63 = 1) ↔ sign64 b = true := by
    unfold sign64
    rw [decide_eq_true_eq]
    omega
  have hdef : truncFloat b = if exp64 b = 2047 then none else
      some (if b.toNat / 2^63 = 1 then -((if exp64 b < 1023 then 0 else if exp64 b ≤ 1075 then (2^52 + frac64 b) / 2^(1075 - exp64 b)
      else (2^52 + frac64 b) * 2^(exp64 b - 1075) : Nat) : Int) else
      (if exp64 b < 1023 then 0 else if exp64 b ≤ 1075 then (2^52 + frac64 b) / 2^(1075 - exp64 b)
      else (2^52 + frac64 b) * 2^(exp64 b - 1075) : Nat)) := rfl
  rw [hdef, if_neg (by omega), key]
  unfold value64
  generalize (if exp64 b = 0 then frac64 b else (2^52 + frac64 b) * 2^(exp64 b - 1)) = x
  congr 1
  simp only [hs]
  have hc : ((x / 2^1074 : Nat) : Int) = (x : Int).tdiv (2^1074) := tdiv_pow x 1074
  split
  · rw [Int.neg_tdiv, hc]
  · exact hc

private theorem ofInt_width (z : Int) (w : Nat) (hw : w ≤ 64) : (BitVec.ofInt 64 z).setWidth w = BitVec.ofInt w z := by
  apply BitVec.eq_of_toNat_eq
  rw [BitVec.toNat_setWidth, BitVec.toNat_ofInt, BitVec.toNat_ofInt]
  have hd : ((2^w : Nat) : Int) ∣ ((2^64 : Nat) : Int) := Int.natCast_dvd_natCast.mpr (Nat.pow_dvd_pow 2 hw)
  have h1 : 0 ≤ z % ((2^64 : Nat) : Int) := Int.emod_nonneg _ (by decide)
  have h2 : 0 ≤ z % ((2^w : Nat) : Int) := Int.emod_nonneg _ (by have := Nat.two_pow_pos w; omega)
  apply Int.ofNat.inj
  show ((_ : Nat) : Int) = ((_ : Nat) : Int)
  rw [Int.natCast_emod, Int.toNat_of_nonneg h1, Int.toNat_of_nonneg h2, Int.emod_emod_of_dvd _ hd]

private theorem ikind_width (k : IKind) : 0 < k.width ∧ k.width ≤ 64 := by cases k <;> decide
private theorem ukind_width (k : UKind) : 0 < k.width ∧ k.width ≤ 64 := by cases k <;> decide

/-- An integer of any type as a value, with the number it is. -/
inductive IsInteger : Val → Int → Prop where
  | int (k : IKind) (t : Nat) (v : BitVec k.width) : IsInteger (.int k t v) v.toInt
  | uint (k : UKind) (t : Nat) (v : BitVec k.width) : IsInteger (.uint k t v) v.toNat

/-- A float of any type as a value, with the bits of the float64 that is the same number (C20). -/
inductive IsFloat : Val → BitVec 64 → Prop where
  | f32 (t : Nat) (b : BitVec 32) : IsFloat (.f32 t b) (widen b)
  | f64 (t : Nat) (b : BitVec 64) : IsFloat (.f64 t b) b

private theorem integer_le {v : Val} {z : Int} (h : IsInteger v z) : z.natAbs ≤ 2^64 := by
  cases h with
  | int k t x =>
    have := int_toInt_bounds x
    omega
  | uint k t x =>
    have := uint_toNat_lt x
    omega

/-- C133, integers to float64 parameters: the nearest float64, the same number up to 2^53. -/
theorem C133_float64_partial (o : Conv) (v : Val) (z : Int) (h : IsInteger v z) (t : Nat) :
    ∃ y, convert o (.f64 t) v = .ok (.f64 t y) ∧ NearestInt z y := by
  have hz := intFloat_near z (integer_le h)
  cases h <;> exact ⟨_, rfl, hz⟩

/-- C133, integers to float32 parameters: the nearest float32 up to 2^53. -/
theorem C133_float32_partial (o : Conv) (v : Val) (z : Int) (h : IsInteger v z) (hz : z.natAbs ≤ 2^53) (t : Nat) :
    ∃ x y, convert o (.f32 t) v = .ok (.f32 t y) ∧ exp64 x < 2047 ∧ value64 x = z * 2^1074 ∧ Nearest x y := by
  have hn := intFloat_near z (integer_le h)
  obtain ⟨y, hy, hy'⟩ := C132_parameter o t 0 (intFloat z)
  refine ⟨intFloat z, y, ?_, hn.finite, hn.exact hz, hy'⟩
  cases h <;> exact hy

/-- C133, integers to integer parameters: the same number, if the type has it. -/
theorem C133_integer_partial (o : Conv) (v : Val) (z : Int) (h : IsInteger v z) :
    (∀ k t, -2^(k.width - 1) ≤ z → z < 2^(k.width - 1) → ∃ x : BitVec k.width, convert o (.int k t) v = .ok (.int k t x) ∧ x.toInt = z) ∧
    (∀ k t, 0 ≤ z → z < 2^k.width → ∃ x : BitVec k.width, convert o (.uint k t) v = .ok (.uint k t x) ∧ (x.toNat : Int) = z) := by
  refine ⟨fun k t h1 h2 => ?_, fun k t h1 h2 => ?_⟩
  · have e : (BitVec.ofInt k.width z).toInt = z := BitVec.toInt_ofInt_eq_self (ikind_width k).1 h1 h2
    cases h with
    | int k' t' x => exact ⟨_, rfl, e⟩
    | uint k' t' x => exact ⟨_, rfl, by rw [BitVec.ofInt_natCast] at e; exact e⟩
  · have e : ((BitVec.ofInt k.width z).toNat : Int) = z := by
      rw [BitVec.toNat_ofInt, Int.toNat_of_nonneg (Int.emod_nonneg _ (by have := Nat.two_pow_pos k.width; omega))]
      exact Int.emod_eq_of_lt h1 (by simpa using h2)
    cases h with
    | int k' t' x => exact ⟨_, rfl, e⟩
    | uint k' t' x => exact ⟨_, rfl, by rw [BitVec.ofInt_natCast] at e; exact e⟩

/-- C133, floats to integer parameters: the number without its fraction, if the type has it. -/
theorem C133_truncated_partial (o : Conv) (v : Val) (b : BitVec 64) (h : IsFloat v b) (hf : exp64 b < 2047) (z : Int)
    (hz : z = (value64 b).tdiv (2^1074)) :
    (∀ k t, -2^(k.width - 1) ≤ z → z < 2^(k.width - 1) → ∃ x : BitVec k.width, convert o (.int k t) v = .ok (.int k t x) ∧ x.toInt = z) ∧
    (∀ k t, 0 ≤ z → z < 2^k.width → ∃ x : BitVec k.width, convert o (.uint k t) v = .ok (.uint k t x) ∧ (x.toNat : Int) = z) := by
  have ht := trunc_eq b hf
  rw [← hz] at ht
  refine ⟨fun k t h1 h2 => ?_, fun k t h1 h2 => ?_⟩
  · have b1 : (2:Int)^(k.width - 1) ≤ 2^63 := by
      have : 2^(k.width - 1) ≤ 2^63 := Nat.pow_le_pow_right (by decide) (by have := (ikind_width k).2; omega)
      exact_mod_cast this
    have e : o.toInt b = BitVec.ofInt 64 z := by
      unfold Conv.toInt
      rw [ht]
      exact if_pos ⟨by omega, by omega⟩
    have e' : ((o.toInt b).setWidth k.width).toInt = z := by
      rw [e, ofInt_width z _ (ikind_width k).2]
      exact BitVec.toInt_ofInt_eq_self (ikind_width k).1 h1 h2
    cases h <;> exact ⟨_, rfl, e'⟩
  · have b1 : (2:Int)^k.width ≤ 2^64 := by
      have : 2^k.width ≤ 2^64 := Nat.pow_le_pow_right (by decide) (ukind_width k).2
      exact_mod_cast this
    have e : o.toUint b = BitVec.ofInt 64 z := by
      unfold Conv.toUint
      rw [ht]
      exact if_pos ⟨by omega, by omega⟩
    have e' : (((o.toUint b).setWidth k.width).toNat : Int) = z := by
      rw [e, ofInt_width z _ (ukind_width k).2, BitVec.toNat_ofInt,
        Int.toNat_of_nonneg (Int.emod_nonneg _ (by have := Nat.two_pow_pos k.width; omega))]
      exact Int.emod_eq_of_lt h1 (by simpa using h2)
    cases h <;> exact ⟨_, rfl, e'⟩

/-! ## What goes wrong -/

/-- C133 (refuted): the integer 2^60 + 2^36 + 1 passed to a float32 parameter becomes 2^60, though the float32
2^60 + 2^37 is nearer: it is rounded twice. -/
theorem C133_twice_refuted (o : Conv) : ∃ y c : BitVec 32,
    convert o (.f32 0) (.int .i64 0 (2^60 + 2^36 + 1)) = .ok (.f32 0 y) ∧ exp32 y < 255 ∧ exp32 c < 255 ∧
    ((2^60 + 2^36 + 1) * 2^149 - value32 c).natAbs < ((2^60 + 2^36 + 1) * 2^149 - value32 y).natAbs :=
  ⟨narrow (intFloat (BitVec.toInt (2^60 + 2^36 + 1 : BitVec (IKind.width .i64)))), 0x5d800001, rfl, by decide +kernel, by decide +kernel, by decide +kernel⟩

private theorem toInt_of (o : Conv) (k : IKind) {b : BitVec 64} (z : Int)
    (h : truncFloat b = some z ∧ -9223372036854775808 ≤ z ∧ z < 9223372036854775808) :
    convert o (.int k 0) (.f64 0 b) = .ok (.int k 0 (BitVec.ofInt k.width z)) := by
  have e : o.toInt b = BitVec.ofInt 64 z := by
    unfold Conv.toInt
    rw [h.1]
    exact if_pos ⟨by omega, by omega⟩
  show Res.ok (Val.int k 0 ((o.toInt b).setWidth k.width)) = _
  rw [e, ofInt_width z _ (ikind_width k).2]

private theorem toUint_eq (o : Conv) {c : BitVec 64} (z : Int)
    (h : truncFloat c = some z ∧ 0 ≤ z ∧ z < 18446744073709551616) : o.toUint c = BitVec.ofInt 64 z := by
  unfold Conv.toUint
  rw [h.1]
  exact if_pos ⟨by omega, by omega⟩

private theorem toUint_of (o : Conv) (k : UKind) {b : BitVec 32} (z : Int)
    (h : truncFloat (widen b) = some z ∧ 0 ≤ z ∧ z < 18446744073709551616) :
    convert o (.uint k 0) (.f32 0 b) = .ok (.uint k 0 (BitVec.ofInt k.width z)) := by
  have e := toUint_eq o z h
  rw [← ofInt_width z _ (ukind_width k).2, ← e]
  rfl

/-- C133 (refuted): 300 passed to an int8 parameter becomes 44, -1 passed to an uint8 parameter 255, and 300.5 passed to an
int8 parameter 44; nobody is told. -/
theorem C133_wraps_refuted (o : Conv) :
    convert o (.int .i8 0) (.int .int 0 300) = .ok (.int .i8 0 44) ∧
    convert o (.uint .u8 0) (.int .int 0 (-1)) = .ok (.uint .u8 0 255) ∧
    convert o (.int .i8 0) (.f64 0 0x4072c80000000000) = .ok (.int .i8 0 44) :=
  ⟨rfl, rfl, toInt_of o .i8 300 (by decide +kernel)⟩

private theorem decimalAux_ascii : ∀ f n, ∀ c ∈ decimalAux f n, c.toNat < 128 := by
  intro f
  induction f with
  | zero => intro n c h; cases h
  | succ f ih =>
    intro n c h
    simp only [decimalAux] at h
    split at h
    · simp only [List.mem_singleton] at h
      subst h
      rw [BitVec.toNat_ofNat]
      omega
    · rcases List.mem_append.mp h with h | h
      · exact ih _ _ h
      · simp only [List.mem_singleton] at h
        subst h
        rw [BitVec.toNat_ofNat]
        omega

private theorem rune_large (n : Nat) (h : 128 ≤ n) : ∃ c ∈ runeString n, 128 ≤ c.toNat := by
  have h0 : ¬ (n : Int) < 0 := by omega
  unfold runeString
  rw [if_neg h0]
  simp only [Int.toNat_natCast]
  rw [if_neg (by omega)]
  split
  · refine ⟨_, List.mem_cons_self, ?_⟩
    rw [BitVec.toNat_ofNat]; omega
  split
  · exact ⟨_, List.mem_cons_self, by decide⟩
  split
  · refine ⟨_, List.mem_cons_self, ?_⟩
    rw [BitVec.toNat_ofNat]; omega
  split
  · refine ⟨_, List.mem_cons_self, ?_⟩
    rw [BitVec.toNat_ofNat]; omega
  · exact ⟨_, List.mem_cons_self, by decide⟩

/-- C133 (refuted): a natural number passed to a string parameter is accepted, but whatever the number is, the method does
not get it in decimal notation. -/
theorem C133_string_refuted (o : Conv) (v : Val) (n : Nat) (h : IsInteger v n) (t : Nat) :
    ∃ s, convert o (.str t) v = .ok (.str t s) ∧ s ≠ decimal n := by
  have hne : runeString n ≠ decimal n := by
    intro he
    rcases Nat.lt_or_ge n 128 with hl | hl
    · have h0 : ¬ (n : Int) < 0 := by omega
      have e : runeString n = [BitVec.ofNat 8 n] := by
        unfold runeString
        rw [if_neg h0]
        simp only [Int.toNat_natCast]
        rw [if_pos hl]
      have : ∀ n, n < 128 → [BitVec.ofNat 8 n] ≠ decimal n := by decide +kernel
      exact this n hl (e.symm.trans he)
    · obtain ⟨c, hc, h1⟩ := rune_large n hl
      rw [he] at hc
      have := decimalAux_ascii _ _ c hc
      omega
  generalize hz : (n : Int) = z at h
  cases h with
  | int k t' x => exact ⟨_, rfl, by rw [← hz]; exact hne⟩
  | uint k t' x => exact ⟨_, rfl, by rw [← hz]; exact hne⟩

/-- What it gets is the character with that number, in UTF-8; numbers that are not those of characters become U+FFFD. -/
theorem C133_character (o : Conv) (v : Val) (z : Int) (h : IsInteger v z) (t : Nat) :
    (∀ c : Char, z = c.toNat → convert o (.str t) v = .ok (.str t ((String.utf8EncodeChar c).map UInt8.toBitVec))) ∧
    ((∀ c : Char, z ≠ c.toNat) → convert o (.str t) v = .ok (.str t ((String.utf8EncodeChar '\uFFFD').map UInt8.toBitVec))) := by
  have h1 : ∀ c : Char, runeString c.toNat = (String.utf8EncodeChar c).map UInt8.toBitVec := by
    intro c
    have hv : c.val.toNat.isValidChar := c.valid
    have h0 : ¬ (c.toNat : Int) < 0 := by omega
    have hc : c.toNat = c.val.toNat := rfl
    unfold runeString String.utf8EncodeChar
    rw [if_neg h0]
    simp only [Int.toNat_natCast, hc]
    unfold Nat.isValidChar at hv
    generalize c.val.toNat = n at *
    by_cases a1 : n < 0x80
    · rw [if_pos a1, if_pos (by omega)]; rfl
    rw [if_neg a1, if_neg (show ¬ n ≤ 127 by omega)]
    by_cases a2 : n < 0x800
    · rw [if_pos a2, if_pos (by omega), Nat.mod_eq_of_lt (show n / 64 < 32 by omega), Nat.add_comm 0xc0, Nat.add_comm 0x80]; rfl
    rw [if_neg a2, if_neg (show ¬ n ≤ 2047 by omega), if_neg (by omega)]
    by_cases a3 : n < 0x10000
    · rw [if_pos a3, if_pos (by omega), Nat.mod_eq_of_lt (show n / 4096 < 16 by omega), Nat.add_comm 0xe0, Nat.add_comm 0x80,
        Nat.add_comm 0x80]; rfl
    rw [if_neg a3, if_neg (show ¬ n ≤ 65535 by omega), if_pos (by omega), Nat.mod_eq_of_lt (show n / 262144 < 8 by omega),
      Nat.add_comm 0xf0, Nat.add_comm 0x80, Nat.add_comm 0x80, Nat.add_comm 0x80]
    rfl
  have h2 : (∀ c : Char, z ≠ c.toNat) → runeString z = (String.utf8EncodeChar '\uFFFD').map UInt8.toBitVec := by
    intro hn
    have hr : (String.utf8EncodeChar '\uFFFD').map UInt8.toBitVec = replacement := by decide
    rw [hr]
    unfold runeString
    split
    · rfl
    · rename_i h0
      have hv : ¬ z.toNat.isValidChar := by
        intro hv
        have hlt : z.toNat < UInt32.size := by
          unfold Nat.isValidChar at hv
          have : UInt32.size = 4294967296 := rfl
          omega
        have hu : (UInt32.ofNatLT z.toNat hlt).toNat = z.toNat := UInt32.toNat_ofNatLT ..
        refine hn ⟨UInt32.ofNatLT z.toNat hlt, by unfold UInt32.isValidChar; rw [hu]; exact hv⟩ ?_
        show z = ((UInt32.ofNatLT z.toNat hlt).toNat : Int)
        rw [hu]
        omega
      unfold Nat.isValidChar at hv
      simp only
      rw [if_neg (by omega), if_neg (by omega)]
      split
      · rfl
      · rw [if_neg (by omega), if_neg (by omega)]
  refine ⟨fun c hc => ?_, fun hn => ?_⟩
  · subst hc
    rw [← h1]
    generalize (c.toNat : Int) = z at h
    cases h <;> rfl
  · rw [← h2 hn]
    cases h <;> rfl

/-! ## Examples -/

/-- 65 becomes "A", 960 the letter pi, a surrogate U+FFFD. -/
example (o : Conv) : convert o (.str 0) (.int .int 0 65) = .ok (.str 0 [0x41]) ∧
    convert o (.str 0) (.uint .u16 0 960) = .ok (.str 0 [0xcf, 0x80]) ∧
    convert o (.str 0) (.uint .u16 0 0x20ac) = .ok (.str 0 [0xe2, 0x82, 0xac]) ∧
    convert o (.str 0) (.uint .u32 0 0x1f600) = .ok (.str 0 [0xf0, 0x9f, 0x98, 0x80]) ∧
    convert o (.str 0) (.uint .u16 0 0xd800) = .ok (.str 0 [0xef, 0xbf, 0xbd]) ∧
    convert o (.str 0) (.int .int 0 (-1)) = .ok (.str 0 [0xef, 0xbf, 0xbd]) := ⟨rfl, rfl, rfl, rfl, rfl, rfl⟩

/-- 3 and -3 become 3.0 and -3.0, 2^53 + 1 becomes 2^53, and 2^64 - 1 becomes 2^64. -/
example (o : Conv) : convert o (.f64 0) (.int .i8 0 3) = .ok (.f64 0 (intFloat 3)) ∧ intFloat 3 = 0x4008000000000000 ∧
    intFloat (-3) = 0xc008000000000000 ∧ intFloat (2^53 + 1) = 0x4340000000000000 ∧
    intFloat (2^64 - 1) = 0x43f0000000000000 ∧ narrow (intFloat (2^24 + 1)) = 0x4b800000 := by
  refine ⟨rfl, ?_⟩
  decide +kernel

/-- -2.75 becomes -2 and 2.5 becomes 2. -/
example (o : Conv) : convert o (.int .i8 0) (.f64 0 0xc006000000000000) = .ok (.int .i8 0 (-2)) ∧
    convert o (.uint .u16 0) (.f32 0 0x40200000) = .ok (.uint .u16 0 2) ∧ exp64 0xc006000000000000 < 2047 ∧
    (value64 0xc006000000000000).tdiv (2^1074) = -2 :=
  ⟨toInt_of o .i8 (-2) (by decide +kernel), toUint_of o .u16 2 (by decide +kernel), by decide +kernel, by decide +kernel⟩

end Verif.Props
