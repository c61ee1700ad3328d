import Verif.Chan.Meta

/-!
# Methods with a variadic parameter, /repo/chancall/meta.go:44-62

`meta.call` converts argument number `i` to `f.ft.In(i)` and passes the results to `fn.Call`.  Of a method with the
parameters `(a A, xs ...T)` the type `In(1)` is `[]T`, and `In(2)` panics; but `Call` expects for the variadic parameter any
number of values that can be assigned to `T`, of which it makes the slice.
-/

namespace Verif.Chan

open Verif Verif.Codec

/-- The parameters of a method, `f.ft` of /repo/chancall/meta.go:25-29. -/
structure Sig where
  /-- the parameters in front of the variadic one, or all parameters -/
  fixed : List PTy
  /-- for `...T`, the type `[]T`, and whether a value of type `[]T` can be assigned to `T`, as when `T` is `interface{}` -/
  variadic : Option (PTy × Bool)
  deriving DecidableEq

/-- What the method gets for its fixed parameters and for the elements of the variadic one, /repo/chancall/meta.go:47-51.  With
more arguments than parameters `f.ft.In(i)` panics; with fewer than the fixed parameters, `Call` panics; also if the value for the
variadic parameter, which is of type `[]T`, cannot be assigned to `T`. -/
def Sig.pass (o : Conv) (g : Sig) (args : List Val) : Res (List Val × List Val) :=
  match g.variadic with
  | none => do
    let ws ← convertArgs o g.fixed args
    return (ws, [])
  | some (slice, self) => do
    let ws ← convertArgs o g.fixed (args.take g.fixed.length)
    match args.drop g.fixed.length with
    | [] => return (ws, [])
    | [v] =>
      let w ← convert o slice v
      if self then return (ws, [w]) else .panic
    | _ => .panic

/-- The target object with these methods; /repo/chancall/meta.go:31-62. -/
def targetOfSigs (o : Conv) (methods : Str → Option Sig) : Target where
  known m := (methods m).isSome
  bad m args := match methods m with
    | none => false
    | some g => match g.pass o args with
      | .ok _ => false
      | _ => true

end Verif.Chan
