import Verif.Codec.Float

/-!
# Rounding to the nearest float

Auxiliary facts for floats with fractions of any width; used for C132 and C133.
-/

namespace Verif.Codec

open Verif

/-- Distance of two numbers. -/
def gap (x y : Nat) : Nat := ((x : Int) - y).natAbs

theorem gap_mul (x y k : Nat) : gap (x * k) (y * k) = gap x y * k := by
  simp only [gap, Int.natCast_mul]
  rw [← Int.sub_mul, Int.natAbs_mul, Int.natAbs_natCast]

theorem gap_zero (x : Nat) : gap x 0 = x := by simp [gap]

theorem rne_near (x k q : Nat) : gap x (rne x k * 2^k) ≤ gap x (q * 2^k) ∧
    (gap x (rne x k * 2^k) = gap x (q * 2^k) → q ≠ rne x k → rne x k % 2 = 0) := by
  have hp := Nat.two_pow_pos k
  have hx := Nat.div_add_mod x (2^k)
  have hr := Nat.mod_lt x hp
  rw [rne]
  generalize x / 2^k = d at *
  generalize x % 2^k = r at *
  generalize 2^k = p at *
  subst hx
  rw [Nat.mul_comm p d]
  have hd : (d + 1) * p = d * p + p := Nat.succ_mul d p
  have hq : q = d ∨ q = d + 1 ∨ (q < d ∧ q * p + p ≤ d * p) ∨ (d + 1 < q ∧ d * p + p + p ≤ q * p) := by
    rcases Nat.lt_trichotomy q d with h | h | h
    · right; right; left
      exact ⟨h, by rw [← Nat.succ_mul]; exact Nat.mul_le_mul_right p h⟩
    · exact .inl h
    · rcases Nat.eq_or_lt_of_le (Nat.succ_le_of_lt h) with h' | h'
      · exact .inr (.inl h'.symm)
      · right; right; right
        refine ⟨h', ?_⟩
        rw [← hd, ← Nat.succ_mul]
        exact Nat.mul_le_mul_right p h'
  unfold gap
  split
  · rw [hd]
    rcases hq with rfl | rfl | ⟨h1, h2⟩ | ⟨h1, h2⟩
    · omega
    · rw [hd]; omega
    · generalize q * p = z at *; omega
    · generalize q * p = z at *; omega
  · rcases hq with rfl | rfl | ⟨h1, h2⟩ | ⟨h1, h2⟩
    · omega
    · rw [hd]; omega
    · generalize q * p = z at *; omega
    · generalize q * p = z at *; omega

/-- The number denoted by the bits of a float without sign, if its fraction has `p` bits, as a multiple of the least
positive float. -/
def mag (p r : Nat) : Nat := if r / 2^p = 0 then r % 2^p else (2^p + r % 2^p) * 2^(r / 2^p - 1)

theorem mag_zero (p : Nat) : mag p 0 = 0 := by simp [mag]

private theorem div_mod (P a b : Nat) (hb : b < P) : (a * P + b) / P = a ∧ (a * P + b) % P = b := by
  have hP : 0 < P := Nat.lt_of_le_of_lt (Nat.zero_le _) hb
  constructor
  · rw [Nat.add_comm, Nat.add_mul_div_right _ _ hP, Nat.div_eq_of_lt hb, Nat.zero_add]
  · rw [Nat.add_comm, Nat.add_mul_mod_self_right, Nat.mod_eq_of_lt hb]

theorem mag_mul (p E q : Nat) (h1 : q ≤ 2 * 2^p) (h2 : E = 0 ∨ 2^p ≤ q) : mag p (E * 2^p + q) = q * 2^E := by
  have hP := Nat.two_pow_pos p
  unfold mag
  generalize 2^p = P at *
  rcases Nat.lt_or_ge q P with h | h
  · have : E = 0 := by omega
    subst this
    obtain ⟨e1, e2⟩ := div_mod P 0 q h
    rw [e1, e2]
    simp
  · rcases Nat.eq_or_lt_of_le h1 with h3 | h3
    · obtain ⟨e1, e2⟩ := div_mod P (E + 2) 0 hP
      have : E * P + q = (E + 2) * P + 0 := by rw [h3, Nat.add_mul]; omega
      rw [this, e1, e2, if_neg (by omega), show E + 2 - 1 = E + 1 by omega, Nat.pow_succ, h3, Nat.add_zero,
        Nat.mul_comm (2^E) 2, ← Nat.mul_assoc, Nat.mul_comm P 2]
    · obtain ⟨e1, e2⟩ := div_mod P (E + 1) (q - P) (by omega)
      have : E * P + q = (E + 1) * P + (q - P) := by rw [Nat.succ_mul]; omega
      rw [this, e1, e2, if_neg (by omega), show P + (q - P) = q by omega]
      rfl

theorem mag_grid (p E r : Nat) : (∃ q, mag p r = q * 2^E) ∨ (E ≠ 0 ∧ mag p r < 2^p * 2^E) := by
  by_cases hE : E = 0
  · left; exact ⟨mag p r, by simp [hE]⟩
  have hP := Nat.two_pow_pos p
  have hm : r % 2^p < 2^p := Nat.mod_lt _ hP
  unfold mag
  generalize 2^p = P at *
  by_cases h : E + 1 ≤ r / P
  · left
    refine ⟨(P + r % P) * 2^(r / P - 1 - E), ?_⟩
    rw [if_neg (by omega), Nat.mul_assoc, ← Nat.pow_add]
    congr 2
    omega
  · right
    refine ⟨hE, ?_⟩
    split
    · exact Nat.lt_of_lt_of_le hm (Nat.le_mul_of_pos_right _ (Nat.two_pow_pos _))
    · have h1 : 2^(r / P - 1) ≤ 2^(E - 1) := Nat.pow_le_pow_right (by decide) (by omega)
      have h2 : 2^E = 2 * 2^(E - 1) := by rw [← Nat.pow_succ']; congr 1; omega
      have h3 : (P + r % P) * 2^(r / P - 1) ≤ (P + r % P) * 2^(E - 1) := Nat.mul_le_mul_left _ h1
      have h4 : (P + r % P) * 2^(E - 1) < (P * 2) * 2^(E - 1) :=
        Nat.mul_lt_mul_of_pos_right (by omega) (Nat.two_pow_pos _)
      rw [h2, ← Nat.mul_assoc]
      omega

theorem mag_succ (p r : Nat) : mag p r < mag p (r + 1) := by
  have hP := Nat.two_pow_pos p
  unfold mag
  generalize 2^p = P at *
  have hr := Nat.mod_lt r hP
  have hd := Nat.div_add_mod r P
  rw [Nat.mul_comm] at hd
  generalize r / P = d at *
  generalize r % P = m at *
  subst hd
  rcases Nat.lt_or_ge (m + 1) P with h | h
  · obtain ⟨e1, e2⟩ := div_mod P d (m + 1) h
    rw [Nat.add_assoc, e1, e2]
    split
    · omega
    · exact Nat.mul_lt_mul_of_pos_right (by omega) (Nat.two_pow_pos _)
  · obtain ⟨e1, e2⟩ := div_mod P (d + 1) 0 hP
    have : d * P + m + 1 = (d + 1) * P + 0 := by rw [Nat.succ_mul]; omega
    rw [this, e1, e2, if_neg (show ¬ d + 1 = 0 by omega), Nat.add_sub_cancel]
    split
    · rename_i h0; rw [h0]; omega
    · rename_i h0
      have h2 : 2^d = 2 * 2^(d - 1) := by rw [← Nat.pow_succ']; congr 1; omega
      have := Nat.two_pow_pos (d - 1)
      rw [h2, ← Nat.mul_assoc]
      exact Nat.mul_lt_mul_of_pos_right (by omega) this

theorem mag_mono (p : Nat) {r r' : Nat} (h : r < r') : mag p r < mag p r' := by
  induction r' with
  | zero => omega
  | succ n ih =>
    rcases Nat.eq_or_lt_of_le (Nat.le_of_lt_succ h) with rfl | h
    · exact mag_succ p _
    · exact Nat.lt_trans (ih h) (mag_succ p n)

/-- Rounding a magnitude: `sig * 2^w`, in units of which the least float is `2^u`. -/
theorem near_mag (p sig k w E u r : Nat) (hu : k + w = E + u) (hs : E ≠ 0 → 2^(p + k) ≤ sig)
    (hl : sig ≤ 2^(p + 1 + k)) :
    rne sig k ≤ 2 * 2^p ∧ (E = 0 ∨ 2^p ≤ rne sig k) ∧
    gap (sig * 2^w) (mag p (E * 2^p + rne sig k) * 2^u) ≤ gap (sig * 2^w) (mag p r * 2^u) ∧
    (gap (sig * 2^w) (mag p (E * 2^p + rne sig k) * 2^u) = gap (sig * 2^w) (mag p r * 2^u) →
      mag p r ≠ mag p (E * 2^p + rne sig k) → rne sig k % 2 = 0) := by
  have hp := Nat.two_pow_pos k
  have hl' : sig ≤ (2 * 2^p) * 2^k := by rwa [Nat.pow_add, Nat.pow_succ'] at hl
  have a1 : rne sig k ≤ 2 * 2^p := by
    have h1 : sig / 2^k ≤ 2 * 2^p := Nat.div_le_of_le_mul (by rw [Nat.mul_comm]; exact hl')
    rcases Nat.eq_or_lt_of_le h1 with h2 | h2
    · have h3 : sig % 2^k = 0 := by
        have := Nat.div_add_mod sig (2^k)
        rw [Nat.mul_comm] at hl'
        rw [h2] at this
        generalize 2^k * (2 * 2^p) = z at *
        omega
      simp only [rne, h3, h2]
      rw [if_neg (by omega)]
      exact Nat.le_refl _
    · simp only [rne]
      split <;> omega
  have a2 : E = 0 ∨ 2^p ≤ rne sig k := by
    by_cases hE : E = 0
    · exact .inl hE
    · right
      have h1 : 2^p ≤ sig / 2^k := by
        rw [Nat.le_div_iff_mul_le hp, ← Nat.pow_add]
        exact hs hE
      simp only [rne]
      split <;> omega
  refine ⟨a1, a2, ?_⟩
  rw [mag_mul p E _ a1 a2]
  have conv : ∀ q, q * 2^E * 2^u = q * 2^k * 2^w := by
    intro q
    rw [Nat.mul_assoc, Nat.mul_assoc, ← Nat.pow_add, ← Nat.pow_add, hu]
  rcases mag_grid p E r with ⟨q, hq⟩ | ⟨hE, hlt⟩
  · rw [hq, conv, conv, gap_mul, gap_mul]
    obtain ⟨h1, h2⟩ := rne_near sig k q
    refine ⟨Nat.mul_le_mul_right _ h1, fun he hne => h2 ?_ ?_⟩
    · exact Nat.eq_of_mul_eq_mul_right (Nat.two_pow_pos w) he
    · intro h; exact hne (by rw [h])
  · -- the number is not below `2^p * 2^E`, which is a float itself
    have h0 : gap (sig * 2^w) (rne sig k * 2^E * 2^u) ≤ gap (sig * 2^w) (2^p * 2^E * 2^u) := by
      rw [conv, conv, gap_mul, gap_mul]
      exact Nat.mul_le_mul_right _ (rne_near sig k (2^p)).1
    have h1 : 2^p * 2^E * 2^u ≤ sig * 2^w := by
      rw [conv, ← Nat.pow_add]
      exact Nat.mul_le_mul_right _ (hs hE)
    have h2 : mag p r * 2^u < 2^p * 2^E * 2^u := Nat.mul_lt_mul_of_pos_right hlt (Nat.two_pow_pos u)
    have h3 : gap (sig * 2^w) (rne sig k * 2^E * 2^u) < gap (sig * 2^w) (mag p r * 2^u) := by
      unfold gap at *
      generalize sig * 2^w = A at *
      generalize rne sig k * 2^E * 2^u = B at *
      generalize 2^p * 2^E * 2^u = D at *
      generalize mag p r * 2^u = F at *
      omega
    exact ⟨Nat.le_of_lt h3, fun he => absurd he (Nat.ne_of_lt h3)⟩

theorem sign_nat {b : Bool} (x y : Nat) (b' : Bool) :
    ((if b = true then -(x : Int) else x) - (if b' = true then -(y : Int) else y)).natAbs =
      if b = b' then gap x y else x + y := by
  unfold gap
  cases b <;> cases b' <;> simp <;> omega

theorem mul_sign (t : Bool) (x k : Nat) : (if t = true then -(x : Int) else x) * 2^k =
    if t = true then -((x * 2^k : Nat) : Int) else (x * 2^k : Nat) := by
  cases t
  · simp [Int.natCast_mul]
  · simp [Int.natCast_mul, Int.neg_mul]

end Verif.Codec
