import Verif.Base

/-!
# Go values as seen by the codec

`Val` is the content of a Go `interface{}`: what `NewAny` receives and what `Decode` produces.
-/

namespace Verif.Codec

open Verif

/-- Kinds of unsigned integers: `reflect.Uint8 ... reflect.Uint64, reflect.Uint, reflect.Uintptr`
(/repo/codec/encoder.go:182). -/
inductive UKind where
  | u8 | u16 | u32 | u64 | uint | uintptr
  deriving DecidableEq, Repr

/-- Kinds of signed integers (/repo/codec/encoder.go:184). -/
inductive IKind where
  | i8 | i16 | i32 | i64 | int
  deriving DecidableEq, Repr

/-- Width in bits.  `uint`, `uintptr` are modelled on a 64-bit platform
(simplification: the 32-bit branch of /repo/codec/encoder.go:68 is not modelled). -/
def UKind.width : UKind → Nat
  | .u8 => 8 | .u16 => 16 | .u32 => 32 | .u64 => 64 | .uint => 64 | .uintptr => 64

/-- Width in bits; `int` is 64 bits wide, as for `UKind.width`.  Used where /repo/codec/encoder.go:105-114 and 184 take
a signed integer. -/
def IKind.width : IKind → Nat
  | .i8 => 8 | .i16 => 16 | .i32 => 32 | .i64 => 64 | .int => 64

/-- Static types of slices and arrays, as far as the code can tell them apart:
`[]interface{}` (the only type `any.Arr` accepts, /repo/codec/any.go:232), any other slice type, and
array types.  `tid` identifies the type. -/
inductive SeqTy where
  | ifaceSlice
  | slice (tid : Nat)
  | array (tid : Nat)
  deriving DecidableEq, Repr

/-- Static types of maps: `map[interface{}]interface{}` (the only type `any.Map` accepts,
/repo/codec/any.go:240) or another one. -/
inductive MapTy where
  | ifaceMap
  | other (tid : Nat)
  deriving DecidableEq, Repr

/-- Kinds `encodeValue` does not handle (/repo/codec/encoder.go:201). -/
inductive BadKind where
  | struct | ptr | chan | func | complex | unsafePointer
  deriving DecidableEq, Repr

/-- A Go value stored in an `interface{}`.

* `tid` distinguishes the predeclared type (`tid = 0`) from named types with the same kind; type
  switches such as /repo/codec/encoder.go:209 match only `tid = 0`, `reflect.Kind` ignores it.
* floats are their IEEE-754 bit patterns.
* a map is its list of entries in the order in which `reflect.Value.MapKeys` happens to return the
  keys (Go randomises it; theorems quantify over all orders).  A nil slice/map behaves like an empty
  one everywhere in the code and is represented as such.
* an interface element holding a value is represented by the value itself, because `encodeValue`
  unwraps it (/repo/codec/encoder.go:192-198). -/
inductive Val where
  | nil
  | bool (tid : Nat) (b : Bool)
  | uint (k : UKind) (tid : Nat) (v : BitVec k.width)
  | int (k : IKind) (tid : Nat) (v : BitVec k.width)
  | f32 (tid : Nat) (bits : BitVec 32)
  | f64 (tid : Nat) (bits : BitVec 64)
  | str (tid : Nat) (s : Str)
  | seq (ty : SeqTy) (xs : List Val)
  | map (ty : MapTy) (kvs : List (Val × Val))
  | bad (k : BadKind)
  deriving Repr

/-! ## IEEE-754 details needed for Go's `==` on floats -/

/-- float32 NaN: exponent all ones, non-zero fraction.  Floats are map keys in /repo/codec/decoder.go:115. -/
def isNaN32 (b : BitVec 32) : Bool := (b.toNat / 2^23 % 2^8 == 255) && (b.toNat % 2^23 != 0)

/-- float64 NaN.  As `isNaN32`, /repo/codec/decoder.go:115. -/
def isNaN64 (b : BitVec 64) : Bool := (b.toNat / 2^52 % 2^11 == 2047) && (b.toNat % 2^52 != 0)

/-- Go `==` on float32: NaN differs from everything, the two zeros are equal.  For the map keys of
/repo/codec/decoder.go:115. -/
def eq32 (a b : BitVec 32) : Bool :=
  !isNaN32 a && !isNaN32 b && (a == b || (a.toNat % 2^31 == 0 && b.toNat % 2^31 == 0))

/-- Go `==` on float64.  For the map keys of /repo/codec/decoder.go:115. -/
def eq64 (a b : BitVec 64) : Bool :=
  !isNaN64 a && !isNaN64 b && (a == b || (a.toNat % 2^63 == 0 && b.toNat % 2^63 == 0))

mutual

/-- Go `==` on two interface values whose dynamic types are comparable: same dynamic type and equal
content.  (Used for map keys only; slices and maps are not comparable and never are keys.)  /repo/codec/decoder.go:115
and /repo/codec/encoder.go:162. -/
def goEq : Val → Val → Bool
  | .nil, .nil => true
  | .bool t a, .bool t' b => t == t' && a == b
  | .uint k t a, .uint k' t' b => k == k' && t == t' && a.toNat == b.toNat
  | .int k t a, .int k' t' b => k == k' && t == t' && a.toInt == b.toInt
  | .f32 t a, .f32 t' b => t == t' && eq32 a b
  | .f64 t a, .f64 t' b => t == t' && eq64 a b
  | .str t a, .str t' b => t == t' && a == b
  | .seq (.array t) xs, .seq (.array t') ys => t == t' && goEqList xs ys
  | _, _ => false

/-- Element-wise `==` of arrays.  For array keys, /repo/codec/encoder.go:162. -/
def goEqList : List Val → List Val → Bool
  | [], [] => true
  | x :: xs, y :: ys => goEq x y && goEqList xs ys
  | _, _ => false

end

/-- May be used as a map key without a run-time panic ("hash of unhashable type").  Restricted to what
`decode` can produce: slices (`[]interface{}`) and maps are unhashable, all other decoded values are
hashable.  /repo/codec/decoder.go:115. -/
def hashable : Val → Bool
  | .seq _ _ => false
  | .map _ _ => false
  | _ => true

/-- Go map assignment `dict[k] = v`: an entry with an equal key is overwritten (Go also replaces the
key for interface keys), otherwise an entry is added.  /repo/codec/decoder.go:115. -/
def assign (k v : Val) : List (Val × Val) → List (Val × Val)
  | [] => [(k, v)]
  | (k', v') :: rest => if goEq k' k then (k, v) :: rest else (k', v') :: assign k v rest

/-- Go map read `m[k]` / `reflect.Value.MapIndex(k)`: `none` if there is no entry with an equal key
(always the case for NaN).  /repo/codec/encoder.go:162. -/
def lookup (k : Val) : List (Val × Val) → Option Val
  | [] => none
  | (k', v') :: rest => if goEq k' k then some v' else lookup k rest

end Verif.Codec
