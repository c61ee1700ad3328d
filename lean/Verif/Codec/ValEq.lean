import Verif.Codec.Decode

/-! # Decidable equality of values, for checking concrete cases by computation in the kernel -/

namespace Verif.Codec

open Verif

mutual

def valEqb : Val → Val → Bool
  | .nil, .nil => true
  | .bool t a, .bool t' b => t == t' && a == b
  | .uint k t a, .uint k' t' b => decide (k = k') && t == t' && a.toNat == b.toNat
  | .int k t a, .int k' t' b => decide (k = k') && t == t' && a.toNat == b.toNat
  | .f32 t a, .f32 t' b => t == t' && a == b
  | .f64 t a, .f64 t' b => t == t' && a == b
  | .str t a, .str t' b => t == t' && a == b
  | .seq ty xs, .seq ty' ys => decide (ty = ty') && valsEqb xs ys
  | .map ty xs, .map ty' ys => decide (ty = ty') && entriesEqb xs ys
  | .bad k, .bad k' => decide (k = k')
  | _, _ => false

def valsEqb : List Val → List Val → Bool
  | [], [] => true
  | x :: xs, y :: ys => valEqb x y && valsEqb xs ys
  | _, _ => false

def entriesEqb : List (Val × Val) → List (Val × Val) → Bool
  | [], [] => true
  | (k, v) :: xs, (k', v') :: ys => valEqb k k' && valEqb v v' && entriesEqb xs ys
  | _, _ => false

end

mutual

theorem valEqb_sound (a b : Val) (h : valEqb a b = true) : a = b := by
  match a, b with
  | .nil, .nil => rfl
  | .bool t a, .bool t' b => simp only [valEqb, Bool.and_eq_true, beq_iff_eq] at h; rw [h.1, h.2]
  | .uint k t a, .uint k' t' b =>
    simp only [valEqb, Bool.and_eq_true, beq_iff_eq, decide_eq_true_eq] at h
    obtain ⟨⟨rfl, rfl⟩, h⟩ := h
    rw [BitVec.eq_of_toNat_eq h]
  | .int k t a, .int k' t' b =>
    simp only [valEqb, Bool.and_eq_true, beq_iff_eq, decide_eq_true_eq] at h
    obtain ⟨⟨rfl, rfl⟩, h⟩ := h
    rw [BitVec.eq_of_toNat_eq h]
  | .f32 t a, .f32 t' b => simp only [valEqb, Bool.and_eq_true, beq_iff_eq] at h; rw [h.1, h.2]
  | .f64 t a, .f64 t' b => simp only [valEqb, Bool.and_eq_true, beq_iff_eq] at h; rw [h.1, h.2]
  | .str t a, .str t' b => simp only [valEqb, Bool.and_eq_true, beq_iff_eq] at h; rw [h.1, h.2]
  | .seq ty xs, .seq ty' ys =>
    simp only [valEqb, Bool.and_eq_true, decide_eq_true_eq] at h
    rw [h.1, valsEqb_sound xs ys h.2]
  | .map ty xs, .map ty' ys =>
    simp only [valEqb, Bool.and_eq_true, decide_eq_true_eq] at h
    rw [h.1, entriesEqb_sound xs ys h.2]
  | .bad k, .bad k' => simp only [valEqb, decide_eq_true_eq] at h; rw [h]

theorem valsEqb_sound (a b : List Val) (h : valsEqb a b = true) : a = b := by
  match a, b with
  | [], [] => rfl
  | x :: xs, y :: ys =>
    simp only [valsEqb, Bool.and_eq_true] at h
    rw [valEqb_sound x y h.1, valsEqb_sound xs ys h.2]

theorem entriesEqb_sound (a b : List (Val × Val)) (h : entriesEqb a b = true) : a = b := by
  match a, b with
  | [], [] => rfl
  | (k, v) :: xs, (k', v') :: ys =>
    simp only [entriesEqb, Bool.and_eq_true] at h
    rw [valEqb_sound k k' h.1.1, valEqb_sound v v' h.1.2, entriesEqb_sound xs ys h.2]

end

mutual

theorem valEqb_refl (a : Val) : valEqb a a = true := by
  match a with
  | .nil => rfl
  | .bool _ _ => simp [valEqb]
  | .uint _ _ _ => simp [valEqb]
  | .int _ _ _ => simp [valEqb]
  | .f32 _ _ => simp [valEqb]
  | .f64 _ _ => simp [valEqb]
  | .str _ _ => simp [valEqb]
  | .seq _ xs => simp [valEqb, valsEqb_refl xs]
  | .map _ kvs => simp [valEqb, entriesEqb_refl kvs]
  | .bad _ => simp [valEqb]

theorem valsEqb_refl (a : List Val) : valsEqb a a = true := by
  match a with
  | [] => rfl
  | x :: xs => simp [valsEqb, valEqb_refl x, valsEqb_refl xs]

theorem entriesEqb_refl (a : List (Val × Val)) : entriesEqb a a = true := by
  match a with
  | [] => rfl
  | (k, v) :: rest => simp [entriesEqb, valEqb_refl k, valEqb_refl v, entriesEqb_refl rest]

end

instance : DecidableEq Val := fun a b =>
  if h : valEqb a b = true then isTrue (valEqb_sound a b h)
  else isFalse (fun he => h (he ▸ valEqb_refl a))

end Verif.Codec
