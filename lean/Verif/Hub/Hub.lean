import Verif.Trans
import Verif.Text
import Verif.Proto.Packet

/-!
# Model of /repo/hub.go

Every connected peer has one goroutine that handles its packets one at a time; every query has its own goroutine.
The packets are those that `Unmarshal` produced, so the body has the type the identifier names.  Not modelled
here: `Close` (lines 45-51, see `Hub/Shut`) and the socket (lines 139-142).  A packet handed to `peer.Send` counts as sent; whether it
arrives is the subject of `Verif.Net`.  Reads and writes of the stubs that the code does outside `docksMutex` are
taken to be sequentially consistent.
-/

namespace Verif.Hub

open Verif Verif.Proto

/-- `cOriginPort`, /repo/hub.go:18 -/
def cOriginPort : Nat := 20000

/-- `cMaxPortRange`, /repo/hub.go:19 -/
def cMaxPortRange : Nat := 49000

/-- `stub`, /repo/hub.go:39-43 -/
structure Stub where
  addr : Str
  peer : Nat
  ready : Bool
  deriving DecidableEq, Repr

/-- `pickIP`, /repo/hub.go:181-184 -/
def pickIP (addr : Str) : Str := firstSegment addr

/-- The loop of `allocate`, /repo/hub.go:150-160, with fuel: the number of iterations is bounded by the number of
black-listed ports above the current one (`nextPort_spec`). -/
def nextPortAux (black : List Int) : Nat → Nat → Nat
  | 0, port => port
  | f + 1, port =>
    let port := if port = 0 then cOriginPort else port
    if ((port + 1 : Nat) : Int) ∈ black then nextPortAux black f (port + 1) else port + 1

/-- The port that the loop of `allocate` ends with, started with the given one.  /repo/hub.go:150-160. -/
def nextPort (black : List Int) (port : Nat) : Nat := nextPortAux black (black.length + 1) port

/-- The goroutine that handles the packets of a peer.  /repo/hub.go:61-132. -/
inductive Task where
  | idle
  /-- in the loop of lines 72-81, with the slots left -/
  | adding (addr : Str) (port : Nat) (slots : List Str)
  /-- in the loop of lines 94-107, with the slots left -/
  | marking (slots : List Str)

/-- The goroutine of a query, /repo/hub.go:111-129. -/
inductive Phase where
  /-- at the top of the loop of line 113 -/
  | top
  /-- in the loop of line 120, about to look at the stub with this index -/
  | seek (k : Nat)
  /-- has found the stub with this index ready, line 122 -/
  | chosen (k : Nat)
  /-- returned; the address is history -/
  | done (addr : Str)

/-- A query and its goroutine, /repo/hub.go:111-129. -/
structure Query where
  peer : Nat
  slot : Str
  phase : Phase

/-- History: what happened at the hub, in order.  /repo/hub.go:61-179. -/
inductive Ev where
  /-- a register request was received and this port was allocated -/
  | register (p : Nat) (slots : List Str) (port : Nat)
  /-- the stub for one slot of a register request was appended -/
  | added (p : Nat) (slot addr : Str)
  /-- a ready packet was received -/
  | ready (p : Nat) (slots : List Str)
  /-- a query was received -/
  | query (p : Nat) (slot : Str)
  /-- a packet was handed to the peer -/
  | sent (p : Nat) (pkt : Proto)
  /-- the connection ended -/
  | closed (p : Nat)

/-- `hub`, /repo/hub.go:30-37. -/
structure State where
  /-- `assignPorts`; 0 for hosts without entry, as in Go -/
  ports : Str → Nat
  /-- `docks`; the empty list for slots without entry -/
  stubs : Str → List Stub
  task : Nat → Task
  /-- number of queries -/
  n : Nat
  query : Nat → Query
  /-- the connection of the peer has ended -/
  closed : Nat → Bool
  /-- `log.Fatal` was called -/
  dead : Bool
  /-- history -/
  log : List Ev

/-- `newHub`, /repo/hub.go:22-28 -/
def State.init : State where
  ports := fun _ => 0
  stubs := fun _ => []
  task := fun _ => .idle
  n := 0
  query := fun _ => ⟨0, [], .top⟩
  closed := fun _ => false
  dead := false
  log := []

/-- /repo/hub.go:61-179 -/
inductive Act where
  /-- a packet arrives: `OnPacket`, /repo/hub.go:61-132, up to the loops -/
  | recv (p : Nat) (pkt : Proto)
  /-- one iteration of the loop of line 72 or 94, or what comes behind it -/
  | work (p : Nat)
  /-- the query routine looks up the list and its last element, lines 114-120 -/
  | look (q : Nat)
  /-- the query routine looks at the next stub, lines 120-122 -/
  | examine (q : Nat)
  /-- the query routine responds, lines 123-124 -/
  | respond (q : Nat)
  /-- the connection ends; `OnClosed` does nothing, lines 57-59 -/
  | close (p : Nat)

/-- Lines 99-105: the first stub of the peer is marked. -/
def mark (p : Nat) : List Stub → List Stub
  | [] => []
  | s :: l => if s.peer = p then { s with ready := true } :: l else s :: mark p l

/-- Line 71. -/
def fullAddr (host : Str) (port : Nat) : Str := host ++ colon :: decimal port

section
-- remote addresses of the peers, and the black-listed ports
variable (R : Nat → Str) (black : List Int)

/-- One action.  /repo/hub.go:61-179. -/
def State.step (s : State) (a : Act) : Option State :=
  if s.dead then none
  else
    match a with
    | .recv p pkt =>
      match s.task p, s.closed p with
      | .idle, false =>
        match pkt with
        | .registerRequest slots =>
          let host := pickIP (R p)
          let port := nextPort black (s.ports host)
          if port > cMaxPortRange then some { s with dead := true }
          else some { s with
            ports := upd s.ports host port
            task := upd s.task p (.adding (fullAddr host port) port slots)
            log := s.log ++ [.register p slots port] }
        | .ready slots => some { s with
            task := upd s.task p (.marking slots)
            log := s.log ++ [.ready p slots] }
        | .queryRequest slot => some { s with
            n := s.n + 1
            query := upd s.query s.n ⟨p, slot, .top⟩
            log := s.log ++ [.query p slot] }
        | _ => some s
      | _, _ => none
    | .work p =>
      match s.task p with
      | .idle => none
      | .adding addr port (slot :: rest) => some { s with
          stubs := upd s.stubs slot (s.stubs slot ++ [⟨addr, p, false⟩])
          task := upd s.task p (.adding addr port rest)
          log := s.log ++ [.added p slot addr] }
      | .adding _ port [] => some { s with
          task := upd s.task p .idle
          log := s.log ++ [.sent p (.registerResponse (BitVec.ofNat 64 port))] }
      | .marking (slot :: rest) => some { s with
          stubs := upd s.stubs slot (mark p (s.stubs slot))
          task := upd s.task p (.marking rest) }
      | .marking [] => some { s with task := upd s.task p .idle }
    | .look q =>
      if q < s.n then
        match (s.query q).phase with
        | .top =>
          match (s.stubs (s.query q).slot).length with
          | 0 => some s
          | k + 1 => some { s with query := upd s.query q { s.query q with phase := .seek k } }
        | _ => none
      else none
    | .examine q =>
      match (s.query q).phase with
      | .seek k =>
        match (s.stubs (s.query q).slot)[k]? with
        | some st =>
          if st.ready then some { s with query := upd s.query q { s.query q with phase := .chosen k } }
          else
            match k with
            | 0 => some { s with query := upd s.query q { s.query q with phase := .top } }
            | k + 1 => some { s with query := upd s.query q { s.query q with phase := .seek k } }
        | none => none
      | _ => none
    | .respond q =>
      match (s.query q).phase with
      | .chosen k =>
        match (s.stubs (s.query q).slot)[k]? with
        | some st => some { s with
            query := upd s.query q { s.query q with phase := .done st.addr }
            log := s.log ++ [.sent (s.query q).peer (.queryResponse st.addr)] }
        | none => none
      | _ => none
    | .close p => some { s with closed := upd s.closed p true, log := s.log ++ [.closed p] }

end

end Verif.Hub
