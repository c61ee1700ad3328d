import Verif.Trans

/-!
# Model of `Close` of a hub while packets are handled, /repo/hub.go:45-51, 61-132 and 145-169

`Close` closes the socket and then sets the tables to nil, without taking the locks of the tables and without waiting for
the goroutines that handle packets.  A lookup in a nil map finds nothing; a write to it panics, which ends the process.
Both tables are read and written in separate statements, so `Close` may come in between.

Names, hosts, handlers and queries are numbers.  A handler is the goroutine of a peer that handles one registration, a
query is the goroutine of lines 111-129.  Simplified: a handler handles one packet; the choice of the port (`Hub/Hub`) and
the answers are left out; the loop over the stubs of a name, lines 120-126, is one step; `Close` is called at most once
(a second call panics on the nil socket, line 46).
-/

namespace Verif.HubShut

open Verif

/-- Where the handler of a registration is.  /repo/hub.go:64-90 and 145-169. -/
inductive Handler where
  | idle
  /-- in front of line 149, holding `assignPortsMutex` -/
  | read (names : List Nat)
  /-- in front of line 166 -/
  | write (names : List Nat)
  /-- in the loop of lines 72-81 -/
  | slots (names : List Nat)
  /-- line 74 has found no list, in front of line 77, holding `docksMutex` -/
  | missing (name : Nat) (names : List Nat)
  /-- in front of line 79, holding `docksMutex` -/
  | push (name : Nat) (names : List Nat)
  deriving DecidableEq, Repr

/-- Where the goroutine of a query is.  /repo/hub.go:111-129. -/
inductive Query where
  | idle
  /-- in front of line 114 -/
  | top (name : Nat)
  /-- has found the list of the name, in front of line 120 -/
  | scan (name : Nat)
  /-- has answered and ended, lines 123-124 -/
  | answered
  deriving DecidableEq, Repr

/-- `hub`, /repo/hub.go:30-37, with the goroutines that use it. -/
structure State where
  /-- `h.docks`, nil or for each name whether it has a list -/
  docks : Option (Nat → Bool)
  /-- the stubs in the lists: peer and `ready` -/
  stubs : Nat → List (Nat × Bool)
  /-- is `h.assignPorts` nil? -/
  portsNil : Bool
  /-- owners of the locks -/
  docksLock : Option Nat
  portsLock : Option Nat
  handler : Nat → Handler
  query : Nat → Query
  /-- the process has ended -/
  dead : Bool

/-- `newHub`, /repo/hub.go:22-28. -/
def State.init : State :=
  ⟨some fun _ => false, fun _ => [], false, none, none, fun _ => .idle, fun _ => .idle, false⟩

/-- /repo/hub.go:45-51, 64-90, 111-129 and 145-169 -/
inductive Act where
  /-- a registration with these names is handled; `allocate` takes its lock, /repo/hub.go:64-69 and 146 -/
  | register (p : Nat) (names : List Nat)
  /-- `port := h.assignPorts[addr]` and the loop after it, /repo/hub.go:149-160 -/
  | readPort (p : Nat)
  /-- `h.assignPorts[addr] = port` and the end of `allocate`, /repo/hub.go:166-169 -/
  | writePort (p : Nat)
  /-- lines 73-75, for the next name -/
  | lookup (p : Nat)
  /-- lines 76-77 -/
  | insert (p : Nat)
  /-- lines 79-80 -/
  | push (p : Nat)
  /-- the loop is over; the response is sent, lines 83-89 -/
  | respond (p : Nat)
  /-- one name of a ready packet of a peer, lines 94-107 -/
  | ready (p : Nat) (name : Nat)
  /-- a query arrives and gets a goroutine, line 111 -/
  | ask (q : Nat) (name : Nat)
  /-- lines 114-116 of a query -/
  | look (q : Nat)
  /-- lines 117-126 of a query -/
  | scan (q : Nat)
  /-- `h.docks = nil`, line 48 -/
  | nilDocks
  /-- `h.assignPorts = nil`, line 49 -/
  | nilPorts
  deriving DecidableEq, Repr

/-- `stub.ready = true` for the first stub of the peer, lines 98-104. -/
def mark (p : Nat) : List (Nat × Bool) → List (Nat × Bool)
  | [] => []
  | (q, r) :: l => if q = p then (q, true) :: l else (q, r) :: mark p l

/-- /repo/hub.go:45-51, 64-90, 111-129 and 145-169 -/
def State.step (s : State) (a : Act) : Option State :=
  if s.dead then none
  else match a with
  | .register p names => match s.handler p, s.portsLock with
    | .idle, none => some { s with handler := upd s.handler p (.read names), portsLock := some p }
    | _, _ => none
  | .readPort p => match s.handler p with
    | .read names => some { s with handler := upd s.handler p (.write names) }
    | _ => none
  | .writePort p => match s.handler p with
    | .write names =>
      if s.portsNil then some { s with dead := true }
      else some { s with handler := upd s.handler p (.slots names), portsLock := none }
    | _ => none
  | .lookup p => match s.handler p, s.docksLock with
    | .slots (n :: names), none => match s.docks with
      | some t => if t n
        then some { s with handler := upd s.handler p (.push n names), docksLock := some p }
        else some { s with handler := upd s.handler p (.missing n names), docksLock := some p }
      | none => some { s with handler := upd s.handler p (.missing n names), docksLock := some p }
    | _, _ => none
  | .insert p => match s.handler p with
    | .missing n names => match s.docks with
      | some t => some { s with docks := some (upd t n true), handler := upd s.handler p (.push n names) }
      | none => some { s with dead := true }
    | _ => none
  | .push p => match s.handler p with
    | .push n names => some { s with
        stubs := upd s.stubs n (s.stubs n ++ [(p, false)]), handler := upd s.handler p (.slots names), docksLock := none }
    | _ => none
  | .respond p => match s.handler p with
    | .slots [] => some { s with handler := upd s.handler p .idle }
    | _ => none
  | .ready p n => match s.handler p, s.docksLock with
    | .idle, none => match s.docks with
      | some t => if t n then some { s with stubs := upd s.stubs n (mark p (s.stubs n)) } else some s
      | none => some s
    | _, _ => none
  | .ask q n => match s.query q with
    | .idle => some { s with query := upd s.query q (.top n) }
    | _ => none
  | .look q => match s.query q, s.docksLock with
    | .top n, none => match s.docks with
      | some t => if t n then some { s with query := upd s.query q (.scan n) } else some s
      | none => some s
    | _, _ => none
  | .scan q => match s.query q with
    | .scan n => if (s.stubs n).any (·.2) then some { s with query := upd s.query q .answered }
      else some { s with query := upd s.query q (.top n) }
    | _ => none
  | .nilDocks => if s.docks.isSome then some { s with docks := none } else none
  | .nilPorts => if s.docks.isNone then some { s with portsNil := true } else none

end Verif.HubShut
