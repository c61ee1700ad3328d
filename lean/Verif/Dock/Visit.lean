import Verif.Trans
import Verif.Base

/-!
# Model of /repo/registry.go and of `Visit`, /repo/slot.go:41-51

Maps are accessed atomically; a `Visit` consists of several steps, so that visits can overlap.
-/

namespace Verif.Visit

open Verif

/-- What is registered under a name.  /repo/registry.go:9-11. -/
inductive Maker where
  /-- a `func(slot ISlot) interface{}` -/
  | func (id : Nat)
  /-- a value of another type; the type assertion of /repo/registry.go:16 panics -/
  | wrong
  deriving DecidableEq, Repr

/-- Where a goroutine is in `Visit`; objects are numbers, `none` is nil.  /repo/slot.go:41-51. -/
inductive VPhase where
  /-- the map has no visitor for the name: behind line 42, before line 45 -/
  | missing
  /-- `tryMake` has returned the object with true: before line 46 -/
  | made (o : Option Nat)
  | done (o : Option Nat)
  deriving DecidableEq, Repr

/-- A call of `Visit`, /repo/slot.go:41-51. -/
structure V where
  slot : Nat
  name : Str
  phase : VPhase

/-- `registry`, /repo/registry.go:7, and the `visiters` of the slots, /repo/slot.go:36. -/
structure State where
  /-- `registry`, /repo/registry.go:7 -/
  registry : Str → Option Maker
  /-- `s.visiters` of each slot -/
  visiters : Nat → Str → Option Nat
  /-- number of visits begun -/
  n : Nat
  visit : Nat → V
  dead : Bool

/-- /repo/registry.go:7 and /repo/slot.go:25 -/
def State.init : State := ⟨fun _ => none, fun _ _ => none, 0, fun _ => ⟨0, [], .done none⟩, false⟩

/-- /repo/registry.go:9-20 and /repo/slot.go:41-51 -/
inductive Act where
  /-- `register(name, maker)`, /repo/registry.go:9-11; a nil maker unregisters the name -/
  | register (name : Str) (maker : Option Maker)
  /-- `Visit` is called: lines 42-43 -/
  | enter (slot : Nat) (name : Str)
  /-- `tryMake`, /repo/registry.go:13-20; `o` is what the maker returns -/
  | make (k : Nat) (o : Option Nat)
  /-- lines 46 and 50 -/
  | store (k : Nat)

/-- /repo/registry.go:9-20 and /repo/slot.go:41-51 -/
def State.step (s : State) (a : Act) : Option State :=
  if s.dead then none
  else
    match a with
    | .register name maker => some { s with registry := upd s.registry name maker }
    | .enter slot name => some { s with
        n := s.n + 1
        visit := upd s.visit s.n ⟨slot, name, match s.visiters slot name with
          | some o => .done (some o)
          | none => .missing⟩ }
    | .make k o =>
      match (s.visit k).phase with
      | .missing =>
        match s.registry (s.visit k).name with
        | none => some { s with visit := upd s.visit k { s.visit k with phase := .done none } }
        | some .wrong => some { s with dead := true }
        | some (.func _) => some { s with visit := upd s.visit k { s.visit k with phase := .made o } }
      | _ => none
    | .store k =>
      match (s.visit k).phase with
      | .made o => some { s with
          visiters := upd s.visiters (s.visit k).slot (upd (s.visiters (s.visit k).slot) (s.visit k).name o)
          visit := upd s.visit k { s.visit k with phase := .done o } }
      | _ => none

end Verif.Visit
