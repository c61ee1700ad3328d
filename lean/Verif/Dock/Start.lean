import Verif.Trans

/-!
# Model of starting and destroying the features of a dock, /repo/dock.go:43-47 and 218-222

`start` is run by a goroutine of its own (/repo/dock.go:132) and calls `OnStart` of one feature after the other, in the
order in which the map is traversed, which is arbitrary.  `Close` calls `OnDestroy` in the same manner, in the goroutine
that called it.  What the features do is not known: a call of `OnStart` or `OnDestroy` may return at any time or never.
Features are numbers; `range` evaluates `d.slots` once, so line 47 does not influence a loop that has begun.
Simplified: `start` and `Close` are called at most once per dock (for `start` see C87, for `Close` C69).
-/

namespace Verif.Start

open Verif

/-- A loop over the features: those not yet visited and the one whose method is running.  /repo/dock.go:44-46 and
219-221. -/
structure Loop where
  todo : List Nat
  current : Option Nat
  deriving DecidableEq, Repr

/-- History.  /repo/dock.go:45 and 220. -/
inductive Ev where
  /-- `OnStart` of a feature is called -/
  | start (f : Nat)
  /-- and has returned -/
  | started (f : Nat)
  /-- `OnDestroy` of a feature is called -/
  | destroy (f : Nat)
  /-- and has returned -/
  | destroyed (f : Nat)
  deriving DecidableEq, Repr

/-- /repo/dock.go:37, with the goroutines of `start` and `Close`. -/
structure State where
  /-- `d.slots` -/
  slots : List Nat
  /-- the goroutine of `start`, once it exists -/
  start : Option Loop
  /-- the loop of `Close`, once it is called -/
  close : Option Loop
  log : List Ev

/-- A dock with the given features.  /repo/dock.go:17-32. -/
def State.init (features : List Nat) : State := ⟨features, none, none, []⟩

/-- /repo/dock.go:43-47 and 218-222 -/
inductive Act where
  /-- `go d.start()`, /repo/dock.go:132 and 219 -/
  | trigger
  /-- `s.feature.OnStart(s)` is called for the next feature, /repo/dock.go:220 -/
  | start (f : Nat)
  /-- it returns -/
  | started (f : Nat)
  /-- `Close` is called, /repo/dock.go:44 -/
  | close
  /-- `s.feature.OnDestroy(s)` is called for the next feature, /repo/dock.go:45 -/
  | destroy (f : Nat)
  /-- it returns -/
  | destroyed (f : Nat)
  /-- the loop is over: `d.slots = nil`, /repo/dock.go:47 -/
  | forget
  deriving DecidableEq, Repr

/-- The next element of a traversal: any that was not visited, if no method is running.  /repo/dock.go:44 and 219. -/
def Loop.next (l : Loop) (f : Nat) : Option Loop :=
  if l.current = none ∧ f ∈ l.todo then some ⟨l.todo.erase f, some f⟩ else none

/-- The method that is running returns.  /repo/dock.go:45 and 220. -/
def Loop.ret (l : Loop) (f : Nat) : Option Loop :=
  if l.current = some f then some { l with current := none } else none

/-- /repo/dock.go:43-47 and 218-222 -/
def State.step (s : State) : Act → Option State
  | .trigger => match s.start with
    | none => some { s with start := some ⟨s.slots, none⟩ }
    | some _ => none
  | .start f => match s.start with
    | none => none
    | some l => (l.next f).map fun l => { s with start := some l, log := s.log ++ [.start f] }
  | .started f => match s.start with
    | none => none
    | some l => (l.ret f).map fun l => { s with start := some l, log := s.log ++ [.started f] }
  | .close => match s.close with
    | none => some { s with close := some ⟨s.slots, none⟩ }
    | some _ => none
  | .destroy f => match s.close with
    | none => none
    | some l => (l.next f).map fun l => { s with close := some l, log := s.log ++ [.destroy f] }
  | .destroyed f => match s.close with
    | none => none
    | some l => (l.ret f).map fun l => { s with close := some l, log := s.log ++ [.destroyed f] }
  | .forget => match s.close with
    | some ⟨[], none⟩ => some { s with slots := [] }
    | _ => none

end Verif.Start
