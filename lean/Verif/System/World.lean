import Verif.System.System
import Verif.Dock.Whole

/-!
# A hub and any number of docks, with the callees of their features

`Verif.System` lets the methods of the features return anything at any time; here the docks are those of `Verif.Whole`, in
which calls go through package chancall.  What is said in `Verif.System` on the world around the code holds here as well.
A panic while a method is called (/repo/chancall/meta.go:49 and 51) ends the process.
-/

namespace Verif.World

open Verif Verif.Codec Verif.Proto

/-- The parts of `System/System` and `Dock/Whole`: /repo/hub.go:30-37, /repo/dock.go:34-41 and /repo/slot.go:31-39. -/
structure State where
  /-- the hub, the docks and the connections -/
  sys : System.State
  /-- what belongs to each dock beside that: its callees, the goroutines which serve requests, and the features it
  starts (the field `dock` is not used, see `State.at`) -/
  rest : Nat → Whole.State

/-- Dock `d` with its callees.  /repo/dock.go:34-41 and /repo/slot.go:31-39. -/
def State.at (S : State) (d : Nat) : Whole.State := { S.rest d with dock := S.sys.dock d }

/-- /repo/hub.go:22-28, /repo/dock.go:17-32 and /repo/slot.go:15-29 -/
def State.init (T : Nat → Nat → Chan.Target) : State where
  sys := .init
  rest := fun d => Whole.State.init (T d)

/-- The actions of a dock that involve no other process.  As `System.dockAlone`; the others are
/repo/network/socket.go:37-50, 68-81 and /repo/network/peer.go:96. -/
def alone : Whole.Act → Bool
  | .dock a => System.dockAlone a
  | _ => true

/-- /repo/hub.go:61-179, /repo/dock.go:55-265, /repo/chancall/callee.go:22-78 and /repo/chancall/caller.go:16-64 -/
inductive Act where
  /-- an action of the hub or of a connection, or one of a dock that involves another process -/
  | sys (a : System.Act)
  /-- an action of dock `d` -/
  | dock (d : Nat) (a : Whole.Act)

section
-- the features of the docks, the objects behind them, the hosts, the addresses the hub sees, and its black list
variable (C : Nat → List Dock.Carried) (T : Nat → Nat → Chan.Target) (H : Nat → Str) (R : Nat → Str) (black : List Int)

/-- Dock `d` has become `w`; if a call has panicked the process is down.  /repo/chancall/meta.go:49 and 51 panic in the
goroutine of /repo/chancall/API.go:31, which does not recover. -/
def State.put (S : State) (d : Nat) (w : Whole.State) : State where
  sys := { S.sys.setDock d w.dock with down := if w.chan.dead then upd S.sys.down (.dock d) true else S.sys.down }
  rest := upd S.rest d w

/-- One action.  /repo/hub.go:61-179, /repo/dock.go:55-265, /repo/chancall/callee.go:22-78 and
/repo/chancall/caller.go:16-64. -/
def State.step (S : State) (a : Act) : Option State :=
  match a with
  | .sys (.dock _ _) => none
  | .sys a => (S.sys.step C H R black a).map fun s => { S with sys := s }
  | .dock d a =>
    if S.sys.down (.dock d) = false ∧ alone a then ((S.at d).step (C d) (T d) a).map (S.put d) else none

end

end Verif.World
