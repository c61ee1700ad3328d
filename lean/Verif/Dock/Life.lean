import Verif.Dock.Dock

/-!
# Model of /repo/runtime.go and of the two `Close` methods, /repo/dock.go:43-53 and /repo/hub.go:45-51

`Startup` and `Serve` run until a signal arrives; `Close` may be called by any goroutine.  Every assignment to and
indexing of `insts` is a step of its own, so calls of `Startup`, `Serve` and `Close` can overlap.  The `Close` method
of one hub or dock is a single step.  What closing a socket does is modelled in `Verif.Net`; `os/signal` is not
modelled.
-/

namespace Verif.Life

open Verif Verif.Dock

/-- A hub or a dock.  Sockets and features are identified by numbers.  /repo/hub.go:30-37 and /repo/dock.go:34-41. -/
inductive Inst where
  /-- `h.socket` -/
  | hub (socket : Option Nat)
  /-- `d.slots`, as the list of features, and `d.sockets` -/
  | dock (features : List Nat) (sockets : List Nat)
  deriving DecidableEq, Repr

/-- The features in `d.slots` of `newDock(name, cs...)`, /repo/dock.go:25-29. -/
def featuresOf (cs : List Carried) : List Nat :=
  (keysOf cs).filterMap fun n => (slotsOf cs n).map (·.feature)

/-- History.  /repo/hub.go:45-51 and /repo/dock.go:43-53. -/
inductive LEv where
  /-- instance `i` is appended to `insts` -/
  | start (i : Nat)
  /-- `insts[_].Close()` is called -/
  | close (i : Nat)
  /-- `OnDestroy` of a feature -/
  | destroy (i : Nat) (feature : Nat)
  /-- a socket is closed -/
  | socket (i : Nat) (s : Nat)
  deriving DecidableEq, Repr

/-- /repo/runtime.go:17, with the hubs and docks. -/
structure State where
  /-- `insts`, /repo/runtime.go:17 -/
  insts : List Nat
  inst : Nat → Inst
  /-- the goroutines in `destroy`: `some k` if the loop variable is `k - 1` -/
  thread : Nat → Option Nat
  dead : Bool
  log : List LEv

/-- /repo/runtime.go:17 -/
def State.init : State := ⟨[], fun _ => .hub none, fun _ => none, false, []⟩

/-- `Close` of a hub, /repo/hub.go:45-51, or dock, /repo/dock.go:43-53; `order` is the order in which the map is
traversed.  A hub that has been closed has no socket: its second `Close` calls a method of a nil interface. -/
def closeInst (i : Nat) (order : List Nat) : Inst → Option (Res (Inst × List LEv))
  | .hub none => some .panic
  | .hub (some s) => some (.ok (.hub none, [.socket i s]))
  | .dock features sockets =>
    if order.isPerm features then
      some (.ok (.dock [] [], order.map (.destroy i) ++ sockets.reverse.map (.socket i)))
    else none

/-- /repo/runtime.go:19-34 and /repo/ferry.go:33-49 -/
inductive Act where
  /-- `wait` of `Serve`, /repo/runtime.go:20, behind `newHub` and `hub.run`, /repo/ferry.go:41-43 -/
  | serve (i : Nat) (socket : Nat)
  /-- `wait` of `Startup`, /repo/runtime.go:20, behind `newDock` and `dock.run`, /repo/ferry.go:34-36 -/
  | startup (i : Nat) (cs : List Carried) (socket : Nat)
  /-- a dock opens another socket, /repo/dock.go:122 and 139 -/
  | openSocket (i : Nat) (socket : Nat)
  /-- `destroy` is called: `i := len(insts) - 1` -/
  | enter (t : Nat)
  /-- `insts[i].Close()`, /repo/runtime.go:31 -/
  | next (t : Nat) (order : List Nat)
  /-- `insts = insts[:0]`, /repo/runtime.go:33 -/
  | finish (t : Nat)

/-- Each hub or dock is started once; its number is new.  /repo/runtime.go:19-34 and /repo/ferry.go:33-49. -/
def State.step (s : State) (a : Act) : Option State :=
  if s.dead then none
  else
    match a with
    | .serve i sock =>
      if .start i ∈ s.log then none
      else some { s with
        insts := s.insts ++ [i]
        inst := upd s.inst i (.hub (some sock))
        log := s.log ++ [.start i] }
    | .startup i cs sock =>
      if .start i ∈ s.log then none
      else some { s with
        insts := s.insts ++ [i]
        inst := upd s.inst i (.dock (featuresOf cs) [sock])
        log := s.log ++ [.start i] }
    | .openSocket i sock =>
      match s.inst i with
      | .dock fs socks => some { s with inst := upd s.inst i (.dock fs (socks ++ [sock])) }
      | .hub _ => none
    | .enter t =>
      match s.thread t with
      | none => some { s with thread := upd s.thread t (some s.insts.length) }
      | some _ => none
    | .next t order =>
      match s.thread t with
      | some (k + 1) =>
        match s.insts[k]? with
        | none => some { s with dead := true }
        | some i =>
          match closeInst i order (s.inst i) with
          | some (.ok (x, evs)) => some { s with
              inst := upd s.inst i x
              thread := upd s.thread t (some k)
              log := s.log ++ .close i :: evs }
          | some _ => some { s with dead := true, log := s.log ++ [.close i] }
          | none => none
      | _ => none
    | .finish t =>
      match s.thread t with
      | some 0 => some { s with insts := [], thread := upd s.thread t none }
      | _ => none

end Verif.Life
