import Verif.Chan.Callee
import Verif.Chan.Number

/-!
# Model of /repo/chancall/meta.go: invoking a method with converted arguments
-/

namespace Verif.Chan

open Verif Verif.Codec

/-- The type of a parameter: a basic type, `interface{}`, or any other type.  `tid` as in `Val`.  `f.ft.In(i)` of
/repo/chancall/meta.go:49. -/
inductive PTy where
  | bool (tid : Nat)
  | uint (k : UKind) (tid : Nat)
  | int (k : IKind) (tid : Nat)
  | f32 (tid : Nat)
  | f64 (tid : Nat)
  | str (tid : Nat)
  | iface
  | other (tid : Nat)
  deriving DecidableEq, Repr

/-- The conversions of `reflect` that are not modelled; theorems quantify over them.  /repo/chancall/meta.go:49. -/
structure Conv where
  /-- what `int64(x)` yields for a float out of range, which depends on the implementation of Go -/
  int64 : BitVec 64 → BitVec 64
  /-- the same for `uint64(x)` -/
  uint64 : BitVec 64 → BitVec 64
  /-- a conversion that succeeds for some types only: to a slice, map, struct, non-empty interface, ..., or of a
  byte or rune slice to a string -/
  composite : PTy → Val → Option Val

/-- `int64(x)` of a float64; /repo/chancall/meta.go:49. -/
def Conv.toInt (o : Conv) (b : BitVec 64) : BitVec 64 :=
  match truncFloat b with
  | some z => if -2^63 ≤ z ∧ z < 2^63 then BitVec.ofInt 64 z else o.int64 b
  | none => o.int64 b

/-- `uint64(x)` of a float64; /repo/chancall/meta.go:49. -/
def Conv.toUint (o : Conv) (b : BitVec 64) : BitVec 64 :=
  match truncFloat b with
  | some z => if 0 ≤ z ∧ z < 2^64 then BitVec.ofInt 64 z else o.uint64 b
  | none => o.uint64 b

/-- `reflect.ValueOf(arg).Convert(t)`, /repo/chancall/meta.go:49.  `reflect.ValueOf(nil)` is the zero `Value`, whose
methods panic.  Integers are converted by truncation or extension of the two's complement representation; floats to integers
through int64 or uint64; integers to float32 through float64; integers to the string with that code point. -/
def convert (o : Conv) (p : PTy) (v : Val) : Res Val :=
  match p, v with
  | _, .nil => .panic
  | .iface, v => .ok v
  | .other t, v => match o.composite (.other t) v with
    | some w => .ok w
    | none => .panic
  | .bool t, .bool _ b => .ok (.bool t b)
  | .int k t, .int _ _ v => .ok (.int k t (BitVec.ofInt k.width v.toInt))
  | .int k t, .uint _ _ v => .ok (.int k t (BitVec.ofNat k.width v.toNat))
  | .uint k t, .int _ _ v => .ok (.uint k t (BitVec.ofInt k.width v.toInt))
  | .uint k t, .uint _ _ v => .ok (.uint k t (BitVec.ofNat k.width v.toNat))
  | .f32 t, .f32 _ b => .ok (.f32 t (narrow (widen b)))
  | .f32 t, .f64 _ b => .ok (.f32 t (narrow b))
  | .f64 t, .f32 _ b => .ok (.f64 t (widen b))
  | .f64 t, .f64 _ b => .ok (.f64 t b)
  | .str t, .str _ s => .ok (.str t s)
  | .int k t, .f32 _ b => .ok (.int k t ((o.toInt (widen b)).setWidth k.width))
  | .int k t, .f64 _ b => .ok (.int k t ((o.toInt b).setWidth k.width))
  | .uint k t, .f32 _ b => .ok (.uint k t ((o.toUint (widen b)).setWidth k.width))
  | .uint k t, .f64 _ b => .ok (.uint k t ((o.toUint b).setWidth k.width))
  | .f32 t, .int _ _ v => .ok (.f32 t (narrow (intFloat v.toInt)))
  | .f32 t, .uint _ _ v => .ok (.f32 t (narrow (intFloat v.toNat)))
  | .f64 t, .int _ _ v => .ok (.f64 t (intFloat v.toInt))
  | .f64 t, .uint _ _ v => .ok (.f64 t (intFloat v.toNat))
  | .str t, .int _ _ v => .ok (.str t (runeString v.toInt))
  | .str t, .uint _ _ v => .ok (.str t (runeString v.toNat))
  | .str t, .seq ty xs => match o.composite (.str t) (.seq ty xs) with
    | some w => .ok w
    | none => .panic
  | _, _ => .panic

/-- The parameters passed to `fn.Call`, /repo/chancall/meta.go:47-51: `f.ft.In(i)` panics if there are more arguments
than parameters, `Call` if there are fewer.  Simplified: methods are not variadic; for those see `Chan/Variadic`. -/
def convertArgs (o : Conv) : List PTy → List Val → Res (List Val)
  | [], [] => .ok []
  | p :: ps, v :: vs => do
    let w ← convert o p v
    let ws ← convertArgs o ps vs
    return w :: ws
  | _, _ => .panic

/-- The target object with these methods, given by their parameter types; /repo/chancall/meta.go:31-42. -/
def targetOf (o : Conv) (methods : Str → Option (List PTy)) : Target where
  known m := (methods m).isSome
  bad m args := match methods m with
    | none => false
    | some ps => match convertArgs o ps args with
      | .ok _ => false
      | _ => true

end Verif.Chan
