import Verif.Trans
import Verif.Codec.Value

/-!
# Model of slots and the docks they belong to, /repo/slot.go:15-29, 53-59 and /repo/dock.go:25-29

A slot is made by `Carry` and belongs to no dock until it is passed to `Startup`, which makes a new dock and stores it in
the slot.  Nothing keeps a slot from being passed to `Startup` again, or its feature from calling before that.  Slots and
docks are numbers.  Simplified: `Carry` and the loop of `newDock` are single steps; of a call only the choice of the
table, the lookup in it and the crash are modelled (the rest is in `Dock/Dock`).
-/

namespace Verif.Slot

open Verif Verif.Codec

/-- History.  /repo/slot.go:53-59 and /repo/dock.go:224-244. -/
inductive Ev where
  /-- a dock is made of slots -/
  | made (dock : Nat) (slots : List (Option Nat))
  /-- a call by the feature of `slot` is passed to the feature of slot `target`, found in the table of `dock`,
  /repo/dock.go:225-227 -/
  | inside (slot : Nat) (name : Str) (dock target : Nat)
  /-- it is not in the table of `dock`, which sends it over the network, /repo/dock.go:229-231 -/
  | outside (slot : Nat) (name : Str) (dock : Nat)
  deriving DecidableEq, Repr

/-- Slots, /repo/slot.go:31-39, and docks, /repo/dock.go:34-41. -/
structure State where
  /-- `s.callee.Name()` of the slots made so far -/
  name : Nat → Option Str
  /-- `s.dock`, nil at first -/
  dock : Nat → Option Nat
  /-- `d.slots` -/
  table : Nat → Str → Option Nat
  /-- the docks made so far -/
  made : Nat → Bool
  /-- the process has ended by a panic -/
  dead : Bool
  log : List Ev

/-- Before the first `Carry` and `Startup`, /repo/ferry.go:33-54. -/
def State.init : State := ⟨fun _ => none, fun _ => none, fun _ _ => none, fun _ => false, false, []⟩

/-- /repo/ferry.go:33-54 and /repo/slot.go:53-59 -/
inductive Act where
  /-- `Carry`; `ok` if the feature implements `IFeature`, /repo/slot.go:15-29 -/
  | carry (slot : Nat) (name : Str) (ok : Bool)
  /-- `newDock` of `Startup`, /repo/dock.go:17-32; `none` is an `ISlot` that is not a `*slot` -/
  | newDock (dock : Nat) (slots : List (Option Nat))
  /-- `Call` or `CallWithResult` of a slot, /repo/slot.go:53-59 -/
  | call (slot : Nat) (name : Str)

/-- The loop /repo/dock.go:25-29. -/
def attach (d : Nat) (s : State) : List (Option Nat) → State
  | [] => s
  | none :: _ => { s with dead := true }
  | some i :: rest => match s.name i with
    | none => { s with dead := true }
    | some n => attach d { s with table := upd s.table d (upd (s.table d) n (some i)), dock := upd s.dock i (some d) } rest

/-- /repo/slot.go:15-29, 53-59, /repo/dock.go:17-32 and 224-244 -/
def State.step (s : State) (a : Act) : Option State :=
  if s.dead then none
  else
    match a with
    | .carry i n ok =>
      if s.name i = none then
        if ok then some { s with name := upd s.name i (some n) } else some { s with dead := true }
      else none
    | .newDock d slots =>
      if s.made d then none
      else some (attach d { s with made := upd s.made d true, log := s.log ++ [.made d slots] } slots)
    | .call i n =>
      if s.name i = none then none
      else match s.dock i with
        | none => some { s with dead := true }
        | some d => match s.table d n with
          | some j => some { s with log := s.log ++ [.inside i n d j] }
          | none => some { s with log := s.log ++ [.outside i n d] }

end Verif.Slot
