import Verif.Base

/-!
# Text: decimal numbers and the parts of an address
-/

namespace Verif

/-- The digits of a number, with fuel.  For /repo/hub.go:71, /repo/dock.go:119 and /repo/network/mock.go:59. -/
def decimalAux : Nat → Nat → Str
  | 0, _ => []
  | f + 1, n => if n < 10 then [BitVec.ofNat 8 (48 + n)] else decimalAux f (n / 10) ++ [BitVec.ofNat 8 (48 + n % 10)]

/-- `%d` of `fmt.Sprintf` for non-negative numbers, /repo/hub.go:71, /repo/dock.go:119 and /repo/network/mock.go:59. -/
def decimal (n : Nat) : Str := decimalAux (n + 1) n

theorem decimalAux_fuel : ∀ f n, n < f → decimalAux f n = decimal n := by
  intro f
  induction f using Nat.strongRecOn with
  | _ f ih =>
    intro n h
    unfold decimal
    rcases Nat.lt_or_ge (n + 1) f with h' | h'
    · cases f with
      | zero => omega
      | succ f =>
        simp only [decimalAux]
        split
        · rfl
        · rw [ih f (by omega) (n / 10) (by omega), ih n (by omega) (n / 10) (by omega)]
    · have : f = n + 1 := by omega
      rw [this]

theorem decimal_eq (n : Nat) : decimal n =
    if n < 10 then [BitVec.ofNat 8 (48 + n)] else decimal (n / 10) ++ [BitVec.ofNat 8 (48 + n % 10)] := by
  rw [decimal]
  simp only [decimalAux]
  split
  · rfl
  · rw [decimalAux_fuel n (n / 10) (by omega)]

theorem digit_inj {a b : Nat} (ha : a < 10) (hb : b < 10)
    (h : BitVec.ofNat 8 (48 + a) = BitVec.ofNat 8 (48 + b)) : a = b := by
  have := congrArg BitVec.toNat h
  simp only [BitVec.toNat_ofNat] at this
  omega

theorem decimal_ne_nil (n : Nat) : decimal n ≠ [] := by
  rw [decimal_eq]; split <;> simp

theorem decimal_inj : ∀ a b : Nat, decimal a = decimal b → a = b := by
  intro a
  induction a using Nat.strongRecOn with
  | _ a ih =>
    intro b h
    rw [decimal_eq a, decimal_eq b] at h
    split at h <;> split at h
    · rename_i h1 h2
      exact digit_inj h1 h2 (by simpa using h)
    · have := congrArg List.length h
      have h3 := List.length_pos_iff.mpr (decimal_ne_nil (b / 10))
      simp at this
      exact absurd this (decimal_ne_nil _)
    · have := congrArg List.length h
      simp at this
      exact absurd this (decimal_ne_nil _)
    · rename_i h1 h2
      obtain ⟨e1, e2⟩ := List.append_inj' h rfl
      have := ih (a / 10) (by omega) (b / 10) e1
      have := digit_inj (Nat.mod_lt a (by omega)) (Nat.mod_lt b (by omega)) (by simpa using e2)
      omega

/-- The byte `:`, /repo/hub.go:182 and /repo/network/mock.go:93. -/
def colon : Byte := 58

/-- The last element of `strings.Split(s, ":")`: what follows the last colon, or all of `s`.  For
/repo/network/mock.go:93-94. -/
def lastSegment (s : Str) : Str := (s.reverse.takeWhile (· ≠ colon)).reverse

theorem lastSegment_append (h p : Str) (hp : colon ∉ p) : lastSegment (h ++ colon :: p) = p := by
  have : ∀ x ∈ p.reverse, decide (x ≠ colon) = true := by
    intro x hx
    simp only [decide_eq_true_eq]
    rintro rfl
    exact hp (List.mem_reverse.mp hx)
  unfold lastSegment
  rw [List.reverse_append, List.reverse_cons, List.append_assoc, List.takeWhile_append_of_pos this]
  simp

theorem lastSegment_cases (s : Str) : s = lastSegment s ∨ ∃ h, s = h ++ colon :: lastSegment s := by
  have e := List.takeWhile_append_dropWhile (p := (· ≠ colon)) (l := s.reverse)
  have h2 : ∀ x xs, s.reverse.dropWhile (· ≠ colon) = x :: xs → x = colon := by
    intro x xs h
    have := List.head?_dropWhile_not (p := (· ≠ colon)) (l := s.reverse)
    rw [h] at this
    simpa using this
  cases hd : s.reverse.dropWhile (· ≠ colon) with
  | nil =>
    left
    rw [hd, List.append_nil] at e
    unfold lastSegment
    rw [e, List.reverse_reverse]
  | cons x xs =>
    right
    have hx := h2 x xs hd
    subst hx
    refine ⟨xs.reverse, ?_⟩
    unfold lastSegment
    rw [hd] at e
    have := congrArg List.reverse e
    simpa using this.symm

/-- The first element of `strings.Split(s, ":")`: what precedes the first colon, or all of `s`.  For /repo/hub.go:182-183. -/
def firstSegment (s : Str) : Str := s.takeWhile (· ≠ colon)

theorem colon_notMem_firstSegment (s : Str) : colon ∉ firstSegment s := by
  induction s with
  | nil => simp [firstSegment]
  | cons a s ih =>
    unfold firstSegment at ih ⊢
    rw [List.takeWhile_cons]
    split
    · rename_i h
      rw [List.mem_cons]
      rintro (rfl | h')
      · simp at h
      · exact ih h'
    · simp

theorem firstSegment_append (h x : Str) (hh : colon ∉ h) : firstSegment (h ++ colon :: x) = h := by
  have : ∀ x ∈ h, decide (x ≠ colon) = true := by
    intro x hx
    simp only [decide_eq_true_eq]
    rintro rfl
    exact hh hx
  unfold firstSegment
  rw [List.takeWhile_append_of_pos this]
  simp

/-- What precedes the first colon does not depend on what follows another one. -/
theorem firstSegment_host (h x y : Str) : firstSegment (h ++ colon :: x) = firstSegment (h ++ colon :: y) := by
  induction h with
  | nil => rfl
  | cons a h ih =>
    unfold firstSegment at ih ⊢
    simp only [List.cons_append, List.takeWhile_cons]
    rw [ih]

end Verif
