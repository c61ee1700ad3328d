import Verif.Dock.Dock
import Verif.Chan.Callee

/-!
# Model of a dock together with its callees: /repo/dock.go, /repo/rpc.go, /repo/slot.go and /repo/chancall

`Verif.Dock` lets a call of a feature return anything at any time; here it is the call of package chancall, on a new
caller object (/repo/dock.go:147, 227, 238), and returns what that returns.  Every slot has a callee of its own
(/repo/slot.go:24), numbered by its place in the list passed to `Startup`.  The bodies of the methods are still free to
do anything: they return any result at any time, and call features of this or of other docks; a body that has called
waits until the call returns.  Goroutines of the user and the bodies of `OnStart` also call at any time; that they wait
meanwhile is not modelled.  Neither is `Close`.
-/

namespace Verif.Whole

open Verif Verif.Codec Verif.Proto Verif.Dock

/-- `d.slots[name].callee` as built by `newDock` and `newSlot`, /repo/dock.go:25-29 and /repo/slot.go:24: the callee of the
last slot of that name. -/
def calleeOf (cs : List Carried) : Str → Option Nat :=
  cs.zipIdx.foldl (fun t c => upd t c.1.name (some c.2)) (fun _ => none)

/-- The bytes of "] function call timeout!", /repo/chancall/callee.go:72. -/
def cTimedOut : Str := "] function call timeout!".toList.map fun c => BitVec.ofNat 8 c.toNat

/-- What `Call` and `CallWithResult` of package chancall return, /repo/chancall/caller.go:27-28, 42-43, with the error
as in /repo/dock.go:162-168; the error is that of /repo/chancall/callee.go:72. -/
def retOf (meth : Str) : Chan.Ans → Ret
  | .ok r => ⟨r.getD [], []⟩
  | .timeout => ⟨[], 91#8 :: (meth ++ cTimedOut)⟩

/-- The loop of `d.start()`, /repo/dock.go:218-222: the slots not yet visited, and the one whose `OnStart` is running. -/
structure Loop where
  todo : List Str
  current : Option Str
  deriving DecidableEq, Repr

/-- `dock` and the callees of its slots, /repo/dock.go:34-41 and /repo/slot.go:31-39. -/
structure State where
  dock : Dock.State
  chan : Chan.State
  /-- the request made by the goroutine of /repo/dock.go:146 with this number -/
  served : Nat → Option Nat
  /-- history: what package chancall returned to it -/
  outcome : Nat → Option Ret
  /-- history: these goroutines have sent a response, in this order -/
  answered : List Nat
  /-- the body of the method of this request waits for this remote call -/
  blocked : Nat → Option Nat
  /-- the goroutines started in /repo/dock.go:132 -/
  starts : List Loop

/-- /repo/dock.go:17-32 and /repo/slot.go:15-29 -/
def State.init (T : Nat → Chan.Target) : State where
  dock := Dock.State.init
  chan := Chan.State.init T
  served := fun _ => none
  outcome := fun _ => none
  answered := []
  blocked := fun _ => none
  starts := []

/-- /repo/dock.go:55-265 and /repo/chancall/callee.go:22-78, /repo/chancall/caller.go:16-64 -/
inductive Act where
  /-- an action of the dock that has nothing to do with local features -/
  | dock (a : Dock.Act)
  /-- an action within package chancall -/
  | chan (a : Chan.Act)
  /-- a goroutine, or the body of the method of request `parent`, calls a feature, /repo/slot.go:53-59 -/
  | call (c : Call) (clock : BitVec 64) (parent : Option Nat)
  /-- a remote call returns, /repo/rpc.go:38-40, 55-57 -/
  | returns (i : Nat)
  /-- /repo/dock.go:147-153: the request of a peer is handed to the callee -/
  | invoke (k : Nat)
  /-- the call of package chancall has returned -/
  | finish (k : Nat)
  /-- /repo/dock.go:156-172 -/
  | respond (k : Nat)
  /-- a goroutine started in /repo/dock.go:132 begins its loop -/
  | start
  /-- it calls `OnStart` of a slot, /repo/dock.go:220 -/
  | onStart (l : Nat) (name : Str)
  /-- `OnStart` returns -/
  | onStarted (l : Nat)

/-- The actions that `Verif.Dock` and `Verif.Chan` leave free and that are tied to each other here.  The calls of
/repo/dock.go:147-153, 227 and 238 and their returns. -/
def tiedD : Dock.Act → Bool
  | .call _ _ => true
  | .invoke _ => true
  | .finish _ _ => true
  | .respond _ => true
  | .closeChan _ => true
  | _ => false

/-- As `tiedD`, for the actions of package chancall: /repo/dock.go:147-153, 227 and 238. -/
def tiedC : Chan.Act → Bool
  | .call _ _ _ _ _ => true
  | _ => false

/-- How often `go d.start()` has been executed.  /repo/dock.go:132. -/
def startsIn (log : List Ev) : Nat := log.countP fun e => match e with | .start => true | _ => false

/-- The body of the method that this callee runs waits for a remote call.  /repo/rpc.go:37, 54. -/
def State.away (s : State) (c : Nat) : Bool :=
  match s.chan.handler c with
  | .running i => (s.blocked i).isSome
  | _ => false

section
variable (cs : List Carried) (T : Nat → Chan.Target)

/-- /repo/dock.go:55-265 and /repo/chancall/callee.go:22-78, /repo/chancall/caller.go:16-64 -/
def State.step (s : State) (a : Act) : Option State :=
  if s.dock.dead || s.chan.dead then none
  else
    match a with
    | .dock a => if tiedD a then none else (s.dock.step cs a).map fun d => { s with dock := d }
    | .chan a =>
      if tiedC a then none
      else
        match a with
        | .ret c res => if s.away c then none else (s.chan.step T (.ret c res)).map fun d => { s with chan := d }
        | a => (s.chan.step T a).map fun d => { s with chan := d }
    | .call c clock parent =>
      match parent with
      | none =>
        match calleeOf cs c.slot with
        | some k => do
          let d ← s.dock.step cs (.call c clock)
          let e ← s.chan.step T (.call k s.chan.n c.meth c.args none)
          return { s with dock := d, chan := e }
        | none => (s.dock.step cs (.call c clock)).map fun d => { s with dock := d }
      | some p =>
        if p < s.chan.n ∧ s.chan.mayCall p ∧ s.blocked p = none then
          match calleeOf cs c.slot with
          | some k => do
            let d ← s.dock.step cs (.call c clock)
            let e ← s.chan.step T (.call k s.chan.n c.meth c.args (some p))
            return { s with dock := d, chan := e }
          | none => (s.dock.step cs (.call c clock)).map fun d =>
              { s with dock := d, blocked := upd s.blocked p (some s.dock.n) }
        else none
    | .returns i => (s.dock.step cs (.closeChan i)).map fun d =>
        { s with dock := d, blocked := fun p => if s.blocked p = some i then none else s.blocked p }
    | .invoke k =>
      match calleeOf cs (s.dock.exec k).call.slot with
      | some c => do
        let d ← s.dock.step cs (.invoke k)
        let e ← s.chan.step T (.call c s.chan.n (s.dock.exec k).call.meth (s.dock.exec k).call.args none)
        return { s with dock := d, chan := e, served := upd s.served k (some s.chan.n) }
      | none => none
    | .finish k =>
      match s.served k with
      | some i =>
        match s.chan.result i with
        | some (_, ans) =>
          (s.dock.step cs (.finish k (retOf (s.dock.exec k).call.meth ans))).map fun d =>
            { s with dock := d, outcome := upd s.outcome k (some (retOf (s.dock.exec k).call.meth ans)) }
        | none => none
      | none => none
    | .respond k => (s.dock.step cs (.respond k)).map fun d => { s with dock := d, answered := s.answered ++ [k] }
    | .start =>
      if s.starts.length < startsIn s.dock.log then some { s with starts := s.starts ++ [⟨keysOf cs, none⟩] } else none
    | .onStart l name =>
      match s.starts[l]? with
      | some ⟨todo, none⟩ =>
        if name ∈ todo then some { s with starts := s.starts.set l ⟨todo.erase name, some name⟩ } else none
      | _ => none
    | .onStarted l =>
      match s.starts[l]? with
      | some ⟨todo, some _⟩ => some { s with starts := s.starts.set l ⟨todo, none⟩ }
      | _ => none

end

end Verif.Whole
