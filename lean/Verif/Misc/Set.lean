import Verif.Base

/-!
# Model of /repo/misc/set.go
-/

namespace Verif.Misc

open Verif

/-- An `interface{}` value as a map key.  Go compares dynamic type and value; values containing a NaN are not equal
to anything; slices, maps, functions and values containing them cannot be hashed.  /repo/misc/set.go:28. -/
inductive Item where
  | nil
  /-- a value of a comparable type, without NaN -/
  | comparable (ty value : Nat)
  /-- a value of a comparable type that contains a NaN -/
  | nan (ty value : Nat)
  | unhashable (ty : Nat)
  deriving DecidableEq, Repr

/-- The value is equal to itself under Go's `==`.  For /repo/misc/set.go:32 and 41. -/
def Item.reflexive : Item → Bool
  | .nil => true
  | .comparable _ _ => true
  | _ => false

/-- The runtime panics when the value is used as a map key, `hash of unhashable type`.  For /repo/misc/set.go:32 and
41. -/
def Item.hashable : Item → Bool
  | .unhashable _ => false
  | _ => true

/-- Go's `==` on hashable values.  For /repo/misc/set.go:32 and 41. -/
def goEq (a b : Item) : Bool := a.reflexive && decide (a = b)

/-- `set.data`, /repo/misc/set.go:27-29: the keys of the map, all of which have the value true; an entry whose key is
not equal to itself can be added again. The order is irrelevant: Go iterates in any order. -/
abbrev Data := List Item

/-- `s.data[item]`, /repo/misc/set.go:32 and 41. -/
def lookup (d : Data) (x : Item) : Bool := d.any (goEq · x)

/-- `Add`, /repo/misc/set.go:31-38.  `s.data[item] = true` adds an entry, because there is none for `item`. -/
def add (d : Data) (x : Item) : Res (Data × Bool) :=
  if x.hashable then
    if lookup d x then .ok (d, false) else .ok (x :: d, true)
  else .panic

/-- `Remove`, /repo/misc/set.go:40-47. -/
def remove (d : Data) (x : Item) : Res (Data × Bool) :=
  if x.hashable then
    if lookup d x then .ok (d.filter (fun y => !goEq y x), true) else .ok (d, false)
  else .panic

/-- `ToSlice`, /repo/misc/set.go:49-56, returns the keys in any order. -/
def ToSlice (d : Data) (xs : List Item) : Prop := xs.Perm d

/-- /repo/misc/set.go:31-47 -/
inductive Op where
  | add (x : Item)
  | remove (x : Item)
  deriving DecidableEq, Repr

/-- The argument, /repo/misc/set.go:31 and 40. -/
def Op.item : Op → Item
  | .add x => x
  | .remove x => x

/-- /repo/misc/set.go:31-47 -/
def Op.run (d : Data) : Op → Res (Data × Bool)
  | .add x => Misc.add d x
  | .remove x => Misc.remove d x

/-- A sequence of operations on the set, with their results.  /repo/misc/set.go:31-47. -/
def runOps : Data → List Op → Res (Data × List Bool)
  | d, [] => .ok (d, [])
  | d, op :: ops =>
    match op.run d with
    | .ok (d', b) =>
      match runOps d' ops with
      | .ok (d'', bs) => .ok (d'', b :: bs)
      | r => r
    | _ => .panic

end Verif.Misc
