import Verif.Base
import Verif.Trans
import Verif.Codec.Value

/-!
# Model of calls on a dock that is being closed, /repo/dock.go:43-53, 199-205, 224-265 and /repo/rpc.go:26-58

`Dock/Dock` has calls on a dock that stays open, `Dock/Life` closing as a single step.  Here both are taken apart: any
number of goroutines call features while one executes `Close`.  Simplified: only the tables matter, so a feature is its
name and of the sockets only the number counts; the answer to a request may arrive at any time, unless the request was
sent after all sockets were closed.
-/

namespace Verif.Shut

open Verif Verif.Codec

/-- Where `Close` is.  /repo/dock.go:43-53. -/
inductive ClosePc where
  /-- not called -/
  | none
  /-- in the loop of /repo/dock.go:44-46, with the features it has not visited -/
  | destroying (rest : List Str)
  /-- behind line 47, in the loop of lines 49-51, with the number of sockets still to be closed -/
  | sockets (left : Nat)
  /-- behind line 52 -/
  | done
  deriving DecidableEq, Repr

/-- Where a call is.  /repo/dock.go:224-244. -/
inductive CallPc where
  | idle
  /-- the feature is one of this dock; the call is passed to its callee, /repo/dock.go:227 and 238 -/
  | inside (name : Str)
  /-- it is not; `commit` is next, /repo/dock.go:229-231, 240-242 -/
  | outside (name : Str)
  /-- the request was handed to a peer before the end of `Close`, /repo/dock.go:252-255 -/
  | sent (peer : Nat)
  /-- the request was handed to a peer of a closed socket: its send routine has been told to end and its connection is
  closed, /repo/network/peer.go:107 and 114 -/
  | stale (peer : Nat)
  /-- the hub was asked, /repo/dock.go:258-263 -/
  | asked (name : Str)
  /-- the hub was to be asked, over a socket that is closed -/
  | staleAsked (name : Str)
  /-- the call has returned -/
  | returned
  deriving DecidableEq, Repr

/-- `dock`, /repo/dock.go:34-41, with `Close` and the calls. -/
structure State where
  /-- the keys of `d.slots` -/
  slots : List Str
  /-- `len(d.sockets)` -/
  sockets : Nat
  /-- `d.remoteSlots` -/
  remote : Str → Option Nat
  close : ClosePc
  call : Nat → CallPc
  /-- `d.sockets[0]` was out of range: the process has ended -/
  dead : Bool

/-- A dock after `newDock`, /repo/dock.go:17-32. -/
def State.init (names : List Str) : State := ⟨names, 0, fun _ => none, .none, fun _ => .idle, false⟩

/-- /repo/dock.go:43-53, 110, 122, 139, 199-205 and 224-265 -/
inductive Act where
  /-- `d.sockets = append(d.sockets, socket)`, /repo/dock.go:204 for the hub, /repo/dock.go:122 and 139
for others; a handler of a packet can still be on its way to it when `Close` is over -/
  | append
  /-- `d.remoteSlots[slot] = peer`, /repo/dock.go:110 -/
  | learn (slot : Str) (peer : Nat)
  /-- `Close` is called; the map is traversed in some order -/
  | closeBegin (order : List Str)
  /-- `OnDestroy` of the next feature, /repo/dock.go:45 -/
  | destroy
  /-- `d.slots = nil`, /repo/dock.go:47 -/
  | clear
  /-- `d.sockets[i].Close()`, /repo/dock.go:50 -/
  | closeSocket
  /-- `d.sockets = d.sockets[:0]`, /repo/dock.go:52 -/
  | truncate
  /-- goroutine `c` calls a feature and looks it up, /repo/dock.go:225-226, 236-237 -/
  | look (c : Nat) (name : Str)
  /-- goroutine `c` executes `commit`, /repo/dock.go:246-265 -/
  | commit (c : Nat)
  /-- the callee has executed the call -/
  | executed (c : Nat)
  /-- the response arrives -/
  | response (c : Nat)
  deriving DecidableEq, Repr

/-- One action.  /repo/dock.go:43-53, 110, 122, 139, 199-205 and 224-265. -/
def State.step (s : State) (a : Act) : Option State :=
  if s.dead then none
  else
    match a with
    | .append => some { s with sockets := s.sockets + 1 }
    | .learn slot peer => some { s with remote := upd s.remote slot (some peer) }
    | .closeBegin order =>
      if s.close = .none ∧ order.isPerm s.slots then some { s with close := .destroying order } else none
    | .destroy =>
      match s.close with
      | .destroying (_ :: rest) => some { s with close := .destroying rest }
      | _ => none
    | .clear =>
      match s.close with
      | .destroying [] => some { s with slots := [], close := .sockets s.sockets }
      | _ => none
    | .closeSocket =>
      match s.close with
      | .sockets (k + 1) => some { s with close := .sockets k }
      | _ => none
    | .truncate =>
      match s.close with
      | .sockets 0 => some { s with sockets := 0, close := .done }
      | _ => none
    | .look c name =>
      match s.call c with
      | .idle => some { s with call := upd s.call c (if name ∈ s.slots then .inside name else .outside name) }
      | _ => none
    | .commit c =>
      match s.call c with
      | .outside name =>
        match s.remote name with
        | some p => some { s with call := upd s.call c (if s.close = .done then .stale p else .sent p) }
        | none =>
          if s.sockets = 0 then some { s with dead := true }
          else some { s with call := upd s.call c (if s.close = .done then .staleAsked name else .asked name) }
      | _ => none
    | .executed c =>
      match s.call c with
      | .inside _ => some { s with call := upd s.call c .returned }
      | _ => none
    | .response c =>
      match s.call c with
      | .sent _ => some { s with call := upd s.call c .returned }
      -- the hub's answer leads to a connection, a registration and a second `commit`, see `Dock/Dock`
      | .asked _ => some { s with call := upd s.call c .returned }
      | _ => none

end Verif.Shut
