import Verif.Props.Codec8
import Verif.Codec.Nearest
import Verif.Chan.Meta

/-! # C132: a float64 read as float32 is the nearest float32

The real number that a float denotes is `value64 b * 2^-1074` and `value32 b * 2^-149` (`Verif.Props.Codec8`), so
that `value32 c * 2^925` counts in the same unit as `value64 b`. -/

namespace Verif.Props

open Verif Verif.Codec

/-- `y` is the float32 that IEEE 754 prescribes for the float64 `b` when rounding to nearest, ties to even. -/
structure Nearest (b : BitVec 64) (y : BitVec 32) : Prop where
  /-- signs are kept -/
  sign : sign32 y = sign64 b
  /-- NaNs stay NaNs -/
  nan : exp64 b = 2047 → frac64 b ≠ 0 → exp32 y = 255 ∧ frac32 y ≠ 0
  /-- infinities stay infinities -/
  inf : exp64 b = 2047 → frac64 b = 0 → exp32 y = 255 ∧ frac32 y = 0
  /-- numbers from half a unit above the largest float32 on become infinities -/
  over : exp64 b < 2047 → (2^25 - 1) * 2^1177 ≤ (value64 b).natAbs → exp32 y = 255 ∧ frac32 y = 0
  /-- smaller ones become finite -/
  finite : exp64 b < 2047 → (value64 b).natAbs < (2^25 - 1) * 2^1177 → exp32 y < 255
  /-- no other float32 is nearer, and if another is as near then the one chosen has an even fraction -/
  near : exp64 b < 2047 → (value64 b).natAbs < (2^25 - 1) * 2^1177 → ∀ c, exp32 c < 255 →
    (value64 b - value32 y * 2^925).natAbs ≤ (value64 b - value32 c * 2^925).natAbs ∧
    ((value64 b - value32 y * 2^925).natAbs = (value64 b - value32 c * 2^925).natAbs → value32 c ≠ value32 y →
      frac32 y % 2 = 0)

/-! ## Magnitudes -/

/-- When rounding leaves the range. -/
private theorem over_mag (e sig : Nat) (h1 : e < 2047) (h2 : e = 0 → sig < 2^52) (h3 : e ≠ 0 → 2^52 ≤ sig) (h4 : sig < 2^53) :
    255 * 2^23 ≤ (Nat.max e 897 - 897) * 2^23 + rne sig (29 + (897 - Nat.max e 1)) ↔
      (2^25 - 1) * 2^1177 ≤ sig * 2^(Nat.max e 1 - 1) := by
  have small : ∀ k, 29 ≤ k → rne sig k ≤ 2^24 := by
    intro k hk
    have h5 : sig ≤ 2^(24 + k) := Nat.le_trans (Nat.le_of_lt h4) (Nat.pow_le_pow_right (by decide) (by omega))
    exact (near_mag 23 sig k 0 0 k 0 (by omega) (fun h => absurd rfl h) h5).1
  rcases Nat.lt_trichotomy e 1150 with h | h | h
  · have hl := small (29 + (897 - Nat.max e 1)) (by omega)
    have hE : Nat.max e 897 ≤ 1149 := Nat.max_le.mpr ⟨by omega, by omega⟩
    have hw : Nat.max e 1 - 1 ≤ 1149 - 1 := by have : Nat.max e 1 ≤ 1149 := Nat.max_le.mpr ⟨by omega, by omega⟩; omega
    have h5 : sig * 2^(Nat.max e 1 - 1) < 2^53 * 2^(1149 - 1) :=
      Nat.lt_of_le_of_lt (Nat.mul_le_mul_left sig (Nat.pow_le_pow_right (by decide) hw))
        (Nat.mul_lt_mul_of_pos_right h4 (Nat.pow_pos (by decide)))
    have h6 : 2^53 * 2^(1149 - 1) ≤ (2^25 - 1) * 2^1177 := by
      rw [show (1177 : Nat) = 29 + (1149 - 1) from rfl, Nat.pow_add, ← Nat.mul_assoc]
      exact Nat.mul_le_mul_right _ (by decide)
    constructor
    · intro h; exfalso; omega
    · intro h; exact absurd (Nat.lt_of_lt_of_le h5 (Nat.le_trans h6 h)) (Nat.lt_irrefl _)
  · subst h
    have e1 : Nat.max 1150 897 = 1150 := rfl
    have e2 : Nat.max 1150 1 = 1150 := rfl
    rw [e1, e2, show (1177 : Nat) = 28 + (1150 - 1) from rfl, Nat.pow_add, ← Nat.mul_assoc,
      Nat.mul_le_mul_right_iff (Nat.two_pow_pos _)]
    show _ ≤ 253 * 2^23 + rne sig 29 ↔ _
    simp only [rne]
    have := h3 (by decide)
    split <;> omega
  · have e1 : Nat.max e 897 = e := Nat.max_eq_left (by omega)
    have e2 : Nat.max e 1 = e := Nat.max_eq_left (by omega)
    have h5 := h3 (by omega)
    rw [e1, e2, show 29 + (897 - e) = 29 by omega]
    refine ⟨fun _ => ?_, fun _ => ?_⟩
    · have h6 : 2^52 * 2^1150 ≤ sig * 2^(e - 1) := Nat.mul_le_mul h5 (Nat.pow_le_pow_right (by decide) (by omega))
      refine Nat.le_trans ?_ h6
      rw [show (1177 : Nat) = 27 + 1150 from rfl, Nat.pow_add, ← Nat.mul_assoc]
      exact Nat.mul_le_mul_right _ (by decide)
    · have h6 : 2^23 ≤ rne sig 29 := by
        simp only [rne]
        split <;> omega
      omega

/-! ## All bits -/

private theorem value32_eq (y : BitVec 32) (s r : Nat) (hs : s < 2) (hr : r < 2^31) (hy : y.toNat = s * 2^31 + r) :
    sign32 y = decide (s = 1) ∧ exp32 y = r / 2^23 ∧ frac32 y = r % 2^23 ∧
      value32 y = if decide (s = 1) = true then -(mag 23 r : Int) else mag 23 r := by
  have h1 : sign32 y = decide (s = 1) := by
    unfold sign32
    rw [hy]
    exact decide_eq_decide.mpr (by omega)
  have h2 : exp32 y = r / 2^23 := by unfold exp32; rw [hy]; omega
  have h3 : frac32 y = r % 2^23 := by unfold frac32; rw [hy]; omega
  refine ⟨h1, h2, h3, ?_⟩
  unfold value32
  rw [h1, h2, h3]
  rfl

private theorem narrow_nearest (b : BitVec 64) : Nearest b (narrow b) := by
  have hb := b.isLt
  -- the fields of `b`
  have hsn : sign64 b = decide (b.toNat / 2^63 = 1) := by
    unfold sign64
    exact decide_eq_decide.mpr (by omega)
  have he : exp64 b = b.toNat / 2^52 % 2^11 := rfl
  have hm : frac64 b = b.toNat % 2^52 := rfl
  have hel : exp64 b < 2048 := Nat.mod_lt _ (by decide)
  have hml : frac64 b < 2^52 := Nat.mod_lt _ (by decide)
  have hsl : b.toNat / 2^63 < 2 := by omega
  have hv : value64 b = if decide (b.toNat / 2^63 = 1) = true then
      -(((if exp64 b = 0 then frac64 b else frac64 b + 2^52) * 2^(Nat.max (exp64 b) 1 - 1) : Nat) : Int) else
      ((if exp64 b = 0 then frac64 b else frac64 b + 2^52) * 2^(Nat.max (exp64 b) 1 - 1) : Nat) := by
    have : (if exp64 b = 0 then frac64 b else (2^52 + frac64 b) * 2^(exp64 b - 1)) =
        (if exp64 b = 0 then frac64 b else frac64 b + 2^52) * 2^(Nat.max (exp64 b) 1 - 1) := by
      split
      · rename_i h; rw [h, show Nat.max 0 1 - 1 = 0 from rfl, Nat.pow_zero, Nat.mul_one]
      · rename_i h
        rw [show Nat.max (exp64 b) 1 = exp64 b from Nat.max_eq_left (by omega), Nat.add_comm]
    unfold value64
    rw [hsn, this]
  -- the bits of the result
  have hn : ∀ r, r < 2^31 → (BitVec.ofNat 32 (b.toNat / 2^63 * 2^31 + r)).toNat = b.toNat / 2^63 * 2^31 + r := by
    intro r hr
    rw [BitVec.toNat_ofNat]
    exact Nat.mod_eq_of_lt (by omega)
  have hdef : narrow b = BitVec.ofNat 32 (b.toNat / 2^63 * 2^31 +
      (if exp64 b = 2047 then if frac64 b = 0 then 255 * 2^23 else 255 * 2^23 + 2^22 + (frac64 b / 2^29) % 2^22
      else
        if 255 * 2^23 ≤ (Nat.max (exp64 b) 897 - 897) * 2^23 +
            rne (if exp64 b = 0 then frac64 b else frac64 b + 2^52) (29 + (897 - Nat.max (exp64 b) 1)) then 255 * 2^23
        else (Nat.max (exp64 b) 897 - 897) * 2^23 +
          rne (if exp64 b = 0 then frac64 b else frac64 b + 2^52) (29 + (897 - Nat.max (exp64 b) 1)))) := rfl
  clear he hm
  generalize hE : exp64 b = e at *
  generalize hF : frac64 b = m at *
  generalize b.toNat / 2^63 = s at *
  by_cases h2047 : e = 2047
  · rw [if_pos h2047] at hdef
    by_cases hm0 : m = 0
    · rw [if_pos hm0] at hdef
      obtain ⟨a1, a2, a3, a4⟩ := value32_eq (narrow b) s (255 * 2^23) hsl (by decide) (by rw [hdef]; exact hn _ (by decide))
      exact ⟨by rw [a1, hsn], fun _ h => absurd (hF.trans hm0) h, fun _ _ => ⟨a2, a3⟩, fun h => absurd h (by omega),
        fun h => absurd h (by omega), fun h => absurd h (by omega)⟩
    · rw [if_neg hm0] at hdef
      have hlt : 255 * 2^23 + 2^22 + (m / 2^29) % 2^22 < 2^31 := by omega
      obtain ⟨a1, a2, a3, a4⟩ := value32_eq (narrow b) s _ hsl hlt (by rw [hdef]; exact hn _ hlt)
      exact ⟨by rw [a1, hsn], fun _ _ => ⟨by omega, by omega⟩, fun _ h => absurd (hF.symm.trans h) hm0,
        fun h => absurd h (by omega), fun h => absurd h (by omega), fun h => absurd h (by omega)⟩
  rw [if_neg h2047] at hdef
  generalize hsig : (if e = 0 then m else m + 2^52) = sig at *
  have s1 : e = 0 → sig < 2^52 := by intro h; rw [if_pos h] at hsig; omega
  have s2 : e ≠ 0 → 2^52 ≤ sig := by intro h; rw [if_neg h] at hsig; omega
  have s3 : sig < 2^53 := by split at hsig <;> omega
  have ov := over_mag e sig (by omega) s1 s2 s3
  have habs : (value64 b).natAbs = sig * 2^(Nat.max e 1 - 1) := by
    rw [hv]
    split
    · rw [Int.natAbs_neg, Int.natAbs_natCast]
    · rw [Int.natAbs_natCast]
  by_cases hov : 255 * 2^23 ≤ (Nat.max e 897 - 897) * 2^23 + rne sig (29 + (897 - Nat.max e 1))
  · rw [if_pos hov] at hdef
    obtain ⟨a1, a2, a3, a4⟩ := value32_eq (narrow b) s (255 * 2^23) hsl (by decide) (by rw [hdef]; exact hn _ (by decide))
    have hbig := ov.mp hov
    rw [← habs] at hbig
    exact ⟨by rw [a1, hsn], fun h => absurd (hE.symm.trans h) h2047, fun h => absurd (hE.symm.trans h) h2047, fun _ _ => ⟨a2, a3⟩,
      fun _ h => absurd (Nat.lt_of_le_of_lt hbig h) (Nat.lt_irrefl _),
      fun _ h => absurd (Nat.lt_of_le_of_lt hbig h) (Nat.lt_irrefl _)⟩
  · rw [if_neg hov] at hdef
    have hno : ¬ (2^25 - 1) * 2^1177 ≤ (value64 b).natAbs := by rw [habs]; exact fun h => hov (ov.mpr h)
    clear ov habs
    obtain ⟨r, hr⟩ : ∃ r, (Nat.max e 897 - 897) * 2^23 + rne sig (29 + (897 - Nat.max e 1)) = r := ⟨_, rfl⟩
    rw [hr] at hov hdef
    have hrl : r < 2^31 := by omega
    obtain ⟨a1, a2, a3, a4⟩ := value32_eq (narrow b) s r hsl hrl (by rw [hdef]; exact hn _ hrl)
    refine ⟨by rw [a1, hsn], fun h => absurd (hE.symm.trans h) h2047, fun h => absurd (hE.symm.trans h) h2047,
      fun _ h => absurd h hno, fun _ _ => by omega,
      fun _ _ c hc => ?_⟩
    -- the other number
    have hcl := c.isLt
    obtain ⟨c1, c2, c3, c4⟩ := value32_eq c (c.toNat / 2^31) (c.toNat % 2^31) (by omega) (by omega) (by omega)
    generalize c.toNat / 2^31 = s' at *
    generalize c.toNat % 2^31 = r' at *
    have key := fun r'' => near_mag 23 sig (29 + (897 - Nat.max e 1)) (Nat.max e 1 - 1) (Nat.max e 897 - 897) 925 r''
      (by rcases Nat.lt_or_ge e 897 with h | h
          · rw [show Nat.max e 897 = 897 from Nat.max_eq_right (by omega)]
            have : 1 ≤ Nat.max e 1 := Nat.le_max_right _ _
            have : Nat.max e 1 ≤ 897 := Nat.max_le.mpr ⟨by omega, by omega⟩
            omega
          · rw [show Nat.max e 897 = e from Nat.max_eq_left h, show Nat.max e 1 = e from Nat.max_eq_left (by omega)]
            omega)
      (by intro h
          have h1 : 897 < e := by
            rcases Nat.lt_or_ge 897 e with h2 | h2
            · exact h2
            · rw [show Nat.max e 897 = 897 from Nat.max_eq_right h2] at h; exact absurd rfl h
          rw [show Nat.max e 1 = e from Nat.max_eq_left (by omega), show 23 + (29 + (897 - e)) = 52 by omega]
          exact s2 (by omega))
      (Nat.le_trans (Nat.le_of_lt s3) (Nat.pow_le_pow_right (by decide) (by omega)))
    rw [hr] at key
    have even : rne sig (29 + (897 - Nat.max e 1)) % 2 = 0 → frac32 (narrow b) % 2 = 0 := by
      intro h; rw [a3]; omega
    have mulif := fun t x => mul_sign t x 925
    rw [hv, a4, c4, mulif, mulif, sign_nat, sign_nat, if_pos rfl]
    obtain ⟨_, _, k1, k2⟩ := key r'
    obtain ⟨_, _, z1, z2⟩ := key 0
    rw [mag_zero, Nat.zero_mul, gap_zero] at z1 z2
    split
    · rename_i hss
      refine ⟨k1, fun h hne => even (k2 h ?_)⟩
      intro hmm
      exact hne (by rw [hmm, ← hss])
    · refine ⟨Nat.le_trans z1 (Nat.le_add_right _ _), fun h hne => even (z2 ?_ ?_)⟩
      · exact Nat.le_antisymm z1 (by rw [h]; exact Nat.le_add_right _ _)
      · intro h0
        rw [← h0, Nat.zero_mul, gap_zero] at h
        have hF : mag 23 r' * 2^925 = 0 := Nat.add_eq_left.mp h.symm
        have hF : mag 23 r' = 0 := by
          rcases Nat.mul_eq_zero.mp hF with h | h
          · exact h
          · exact absurd h (Nat.ne_of_gt (Nat.two_pow_pos _))
        apply hne
        rw [hF, ← h0]
        simp

/-! ## The accessor and parameters of methods -/

/-- C132: `Float32` of a float64 yields the nearest float32. -/
theorem C132_accessor (b : BitVec 64) : ∃ y, (newAny (.f64 0 b)).float32 = .ok y ∧ Nearest b y :=
  ⟨_, rfl, narrow_nearest b⟩

/-- C132 for a float64 that arrives in a list (C02: those that arrive). -/
theorem C132_received (ty : SeqTy) (pre post : List Val) (t : Nat) (x : BitVec 64)
    (h : wireOK (.seq ty (pre ++ .f64 t x :: post)) = true) :
    ∃ ys y f, decode (encode (.seq ty (pre ++ .f64 t x :: post))).bytes = .ok (.seq .ifaceSlice ys, []) ∧
      ys[pre.length]? = some y ∧ (newAny y).float32 = .ok f ∧ Nearest x f := by
  have h1 := decode_encode (.seq ty (pre ++ .f64 t x :: post)) h []
  rw [List.append_nil] at h1
  refine ⟨_, .f64 0 x, _, h1, ?_, rfl, narrow_nearest x⟩
  rw [canonList_eq]
  simp [canon]

/-- C132 for an argument of a method whose parameter is a float32. -/
theorem C132_parameter (o : Chan.Conv) (t t' : Nat) (b : BitVec 64) :
    ∃ y, Chan.convert o (.f32 t) (.f64 t' b) = .ok (.f32 t y) ∧ Nearest b y :=
  ⟨_, rfl, narrow_nearest b⟩

private theorem mid {x a b c : Nat} (h1 : a < c) (h2 : c < b) (h3 : gap x a ≤ gap x b) (h4 : gap x b ≤ gap x c) : False := by
  unfold gap at *
  omega

/-- Two nearest numbers of the same sign, the first smaller. -/
private theorem unique_aux (b : BitVec 64) (y z : BitVec 32) (hy : Nearest b y) (hz : Nearest b z) (he : exp64 b < 2047)
    (hl : (value64 b).natAbs < (2^25 - 1) * 2^1177) : ¬ y.toNat % 2^31 < z.toNat % 2^31 := by
  intro hlt
  have hyl := y.isLt
  have hzl := z.isLt
  obtain ⟨y1, y2, y3, y4⟩ := value32_eq y (y.toNat / 2^31) (y.toNat % 2^31) (by omega) (by omega) (by omega)
  obtain ⟨z1, z2, z3, z4⟩ := value32_eq z (z.toNat / 2^31) (z.toNat % 2^31) (by omega) (by omega) (by omega)
  have fz := hz.finite he hl
  have fy := hy.finite he hl
  have hs := hy.sign.trans hz.sign.symm
  have hsame : y.toNat / 2^31 = z.toNat / 2^31 := by
    rw [y1, z1] at hs
    have := decide_eq_decide.mp hs
    omega
  generalize y.toNat % 2^31 = r at *
  generalize z.toNat % 2^31 = r' at *
  rw [← hsame] at z4 z1
  have hsl : y.toNat / 2^31 < 2 := by omega
  generalize y.toNat / 2^31 = s at *
  have hsb : sign64 b = decide (s = 1) := hy.sign.symm.trans y1
  have hv : value64 b = if decide (s = 1) = true then -((value64 b).natAbs : Int) else (value64 b).natAbs := by
    rw [← hsb]
    unfold value64
    generalize (if exp64 b = 0 then frac64 b else (2^52 + frac64 b) * 2^(exp64 b - 1)) = mag
    cases sign64 b <;> simp
  have hm := mag_mono 23 hlt
  have hne : value32 z ≠ value32 y := by
    rw [y4, z4]
    split <;> omega
  obtain ⟨n1, n2⟩ := hy.near he hl z fz
  obtain ⟨n3, n4⟩ := hz.near he hl y fy
  have heq := Nat.le_antisymm n1 n3
  have p1 := n2 heq hne
  have p2 := n4 heq.symm (Ne.symm hne)
  -- the number between
  have hc : (BitVec.ofNat 32 (s * 2^31 + (r + 1))).toNat = s * 2^31 + (r + 1) := by
    rw [BitVec.toNat_ofNat]
    exact Nat.mod_eq_of_lt (by omega)
  have hr2 : r + 1 < r' := by omega
  obtain ⟨c1, c2, c3, c4⟩ := value32_eq _ s (r + 1) hsl (by omega) hc
  have hcf : exp32 (BitVec.ofNat 32 (s * 2^31 + (r + 1))) < 255 := by
    rw [c2]
    omega
  have n5 := (hz.near he hl _ hcf).1
  rw [c4, z4, hv, mul_sign, mul_sign, sign_nat, sign_nat, if_pos rfl, if_pos rfl] at n5
  rw [y4, z4, hv, mul_sign, mul_sign, sign_nat, sign_nat, if_pos rfl, if_pos rfl] at n1
  have hp : 0 < 2^925 := Nat.two_pow_pos 925
  exact mid (Nat.mul_lt_mul_of_pos_right (mag_succ 23 r) hp) (Nat.mul_lt_mul_of_pos_right (mag_mono 23 hr2) hp) n1 n5

/-- There is only one such number, unless it is a NaN. -/
theorem C132_unique (b : BitVec 64) (y z : BitVec 32) (hy : Nearest b y) (hz : Nearest b z)
    (h : ¬ (exp64 b = 2047 ∧ frac64 b ≠ 0)) : y = z := by
  have hyl := y.isLt
  have hzl := z.isLt
  have hs := hy.sign.trans hz.sign.symm
  have hsame : y.toNat / 2^31 = z.toNat / 2^31 := by
    unfold sign32 at hs
    have := decide_eq_decide.mp hs
    omega
  apply BitVec.eq_of_toNat_eq
  have inf : (exp32 y = 255 ∧ frac32 y = 0) → (exp32 z = 255 ∧ frac32 z = 0) → y.toNat = z.toNat := by
    unfold exp32 frac32
    omega
  have hel : exp64 b < 2048 := Nat.mod_lt _ (by decide)
  rcases Nat.lt_or_ge (exp64 b) 2047 with he | he
  · rcases Nat.lt_or_ge (value64 b).natAbs ((2^25 - 1) * 2^1177) with hl | hl
    · have h1 := unique_aux b y z hy hz he hl
      have h2 := unique_aux b z y hz hy he hl
      clear hl
      omega
    · exact inf (hy.over he hl) (hz.over he hl)
  · have he : exp64 b = 2047 := by omega
    have hf : frac64 b = 0 := by
      by_cases hf : frac64 b = 0
      · exact hf
      · exact absurd ⟨he, hf⟩ h
    exact inf (hy.inf he hf) (hz.inf he hf)

/-- 0.1, rounded up; the largest float32 and a half unit, rounded to infinity; the least float64, rounded to zero. -/
example : (newAny (.f64 0 0x3fb999999999999a)).float32 = .ok 0x3dcccccd ∧
    (newAny (.f64 0 0x47effffff0000000)).float32 = .ok 0x7f800000 ∧
    (newAny (.f64 0 0x47efffffefffffff)).float32 = .ok 0x7f7fffff ∧
    (newAny (.f64 0 0x8000000000000001)).float32 = .ok 0x80000000 ∧
    exp64 0x3fb999999999999a < 2047 ∧ wireOK (.seq .ifaceSlice [.str 0 [97], .f64 0 0x3fb999999999999a]) = true := by
  decide +kernel

end Verif.Props
