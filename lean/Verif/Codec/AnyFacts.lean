import Verif.Codec.DecodeFacts
import Verif.Codec.Any

/-! # Facts about the `IAny` object -/

namespace Verif.Codec

open Verif

/-- What `Decode` can put into an object: values of predeclared types only, no `int`/`uint`. -/
def plain : Val → Bool
  | .nil => true
  | .bool t _ => t == 0
  | .uint k t _ => t == 0 && (k == .u8 || k == .u16 || k == .u32 || k == .u64)
  | .int k t _ => t == 0 && (k == .i8 || k == .i16 || k == .i32 || k == .i64)
  | .f32 t _ => t == 0
  | .f64 t _ => t == 0
  | .str t _ => t == 0
  | .seq ty _ => ty == .ifaceSlice
  | .map ty _ => ty == .ifaceMap
  | .bad _ => false

theorem plain_inv : DecodeInv (fun _ r => ∀ v t, r = .ok (v, t) → plain v = true)
    (fun _ _ _ => True) (fun _ _ _ _ => True) where
  eof := by intro v t h; cases h
  code := by intro c s v t h; cases h
  tagEof := by intro c v t h; cases h
  nil := by intro s v t h; cases h; rfl
  bool := by intro c b s v t h; cases h; rfl
  u8 := by intro c b s v t h; cases h; rfl
  u16 := by intro c b s _ v t h; cases h; rfl
  u32 := by intro c b s _ v t h; cases h; rfl
  u64 := by intro c b s _ v t h; cases h; rfl
  i8 := by intro c b s v t h; cases h; rfl
  i16 := by intro c b s _ v t h; cases h; rfl
  i32 := by intro c b s _ v t h; cases h; rfl
  i64 := by intro c b s _ v t h; cases h; rfl
  str0 := by intro c s _ v t h; cases h; rfl
  strEof := by intro c s _ v t h; cases h
  str := by intro c s n _ _ _ v t h; cases h; rfl
  f32 := by
    intro s r _ v t hr
    cases r with
    | ok p =>
      simp only [Res.bind_ok, asFloat32] at hr
      split at hr <;> cases hr
      rfl
    | _ => cases hr
  f64 := by
    intro s r _ v t hr
    cases r with
    | ok p =>
      simp only [Res.bind_ok, asFloat64] at hr
      split at hr <;> cases hr
      rfl
    | _ => cases hr
  arr := by
    intro s n r _ _ v t hr
    cases r with
    | ok p => cases hr; rfl
    | _ => cases hr
  map := by
    intro s n r _ _ v t hr
    cases r with
    | ok p => cases hr; rfl
    | _ => cases hr
  arrNil := fun _ => trivial
  arrCons := fun _ _ _ _ _ _ => trivial
  mapNil := fun _ _ => trivial
  mapCons := fun _ _ _ _ _ _ _ _ _ => trivial

theorem decode_plain {s : List Byte} {v : Val} {t : List Byte} (h : decode s = .ok (v, t)) :
    plain v = true :=
  plain_inv.all (by intro s v t h; cases h) _ s v t h

theorem plain_canonNat (n : Nat) : plain (canonNat n) = true := by
  unfold canonNat
  split
  · rfl
  split
  · rfl
  split
  · rfl
  · rfl

theorem plain_canonInt (z : Int) : plain (canonInt z) = true := by
  unfold canonInt
  split
  · rfl
  split
  · rfl
  split
  · rfl
  · rfl

/-- The object after a successful `Decode`. -/
theorem Any.decode_ok {a : Any} {s : List Byte} {v : Val} {t : List Byte}
    (h : Codec.decode s = .ok (v, t)) : a.decode s = (Any.normalize ⟨v, a.tp⟩, .ok t) := by
  simp [Any.decode, h]

/-! ## Integer accessors on decoded integers -/

theorem signed_canonInt (z : Int) (tp : AType) (w : Nat) (h1 : -2^63 ≤ z) (h2 : z < 2^63) :
    (Any.normalize ⟨canonInt z, tp⟩).signed w = .ok (BitVec.ofInt w z) := by
  have key : ∀ n : Nat, 0 < n → -2^(n-1) ≤ z → z < 2^(n-1) →
      (BitVec.ofInt n z).signExtend w = BitVec.ofInt w z := by
    intro n hn h1 h2
    rw [BitVec.signExtend, BitVec.toInt_ofInt_eq_self hn h1 h2]
  unfold canonInt
  split
  · exact congrArg Res.ok (key 8 (by omega) (by omega) (by omega))
  split
  · exact congrArg Res.ok (key 16 (by omega) (by omega) (by omega))
  split
  · exact congrArg Res.ok (key 32 (by omega) (by omega) (by omega))
  · exact congrArg Res.ok (key 64 (by omega) (by omega) (by omega))

theorem unsigned_canonNat (n : Nat) (tp : AType) (w : Nat) (h : n < 2^64) :
    (Any.normalize ⟨canonNat n, tp⟩).unsigned w = .ok (BitVec.ofNat w n) := by
  have key : ∀ m : Nat, n < 2^m → (BitVec.ofNat m n).setWidth w = BitVec.ofNat w n := by
    intro m hm
    apply BitVec.eq_of_toNat_eq
    simp [Nat.mod_eq_of_lt hm]
  unfold canonNat
  split
  · exact congrArg Res.ok (key 8 (by omega))
  split
  · exact congrArg Res.ok (key 16 (by omega))
  split
  · exact congrArg Res.ok (key 32 (by omega))
  · exact congrArg Res.ok (key 64 (by omega))

end Verif.Codec
