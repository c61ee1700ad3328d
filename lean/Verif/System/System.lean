import Verif.Dock.Dock
import Verif.Hub.Hub

/-!
# A hub and any number of docks

The docks of `Verif.Dock` and the hub of `Verif.Hub` are composed through connections.  What one end of a connection
hands to `peer.Send` (/repo/network/peer.go:54-60) is queued for the other end; a delivery takes the oldest packet,
passes it through `serializer.Marshal` and `serializer.Unmarshal` as modelled in `Verif.Proto`, and hands the outcome to
`OnPacket` (/repo/network/peer.go:63-99).  `Verif.Net` is about how the bytes get there.

Assumptions about the world around the code:

* A connection hands over packets in order but may lose any of them (C122 derives this from the model of peers; `Send` drops packets when its buffer is full,
  /repo/network/peer.go:55-57; a broken connection loses the rest).
* Processes fail by stopping: one that panics or calls `log.Fatal` takes no further steps.
* Dock `d` runs on host `H d`.  A connection to `host:port` reaches a dock on that host which listens on that port, or
  fails.  The remote address the hub sees for a connection starts with the host of the dialling dock.
* There is one hub, and no other programs speak the protocol.
* A packet has less than 4 GiB.
-/

namespace Verif.System

open Verif Verif.Codec Verif.Proto

/-- The processes.  They are started by /repo/ferry.go:33-44. -/
inductive Proc where
  | hub
  | dock (d : Nat)
  deriving DecidableEq, Repr

/-- Connection `c` has the ends `2 * c` (which dialled) and `2 * c + 1` (which accepted).  The ends serve as peer
numbers of the processes.  Peers are made in /repo/network/socket.go:43 and 74. -/
def other (e : Nat) : Nat := if e % 2 = 0 then e + 1 else e - 1

/-- The fate of a packet on its way through the serializers of sender and receiver.  Marshal and Unmarshal are at
/repo/network/peer.go:71 and /repo/network/peer.go:94; identifier and body of the packets sent always agree. -/
inductive Fate where
  | arrives (pkt : Proto)
  /-- `Marshal` stops the sender -/
  | killsSender
  /-- `Unmarshal` stops the receiver -/
  | killsReceiver
  /-- more than 4 GiB, not modelled -/
  | tooLong

/-- The identifiers that go with the packets: /repo/dock.go:63, 99, 126, 157, 253, 259, /repo/hub.go:84, 173. -/
def idOf : Proto → BitVec 8
  | .error _ => cError
  | .heartbeat => cHeartbeat
  | .ready _ => cReady
  | .registerRequest _ => cRegisterRequest
  | .registerResponse _ => cRegisterResponse
  | .queryRequest _ => cQueryRequest
  | .queryResponse _ => cQueryResponse
  | .rpcRequest .. => cRpcRequest
  | .rpcResponse .. => cRpcResponse

/-- What becomes of a packet that is sent: /repo/serializer.go:31-96, called in /repo/network/peer.go:71 and 94. -/
def fate (pkt : Proto) : Fate :=
  match marshal ⟨idOf pkt, pkt⟩ with
  | .ok bytes =>
    if bytes.length < 2 ^ 32 + 4 then
      match unmarshal bytes with
      | .ok q => .arrives q.p
      | _ => .killsReceiver
    else .tooLong
  | _ => .killsSender

/-- The hub, /repo/hub.go:30-37, the docks, /repo/dock.go:34-41, and the connections, /repo/network/peer.go:31-40. -/
structure State where
  hub : Hub.State
  dock : Nat → Dock.State
  /-- number of connections -/
  n : Nat
  /-- the process at each end -/
  owner : Nat → Option Proc
  /-- for ends that accepted at a dock: the port -/
  port : Nat → BitVec 64
  /-- the packets on their way to the end -/
  queue : Nat → List Proto
  /-- processes that have stopped -/
  down : Proc → Bool
  /-- history: what was delivered to the end -/
  got : Nat → List Proto

/-- /repo/hub.go:22-28 and /repo/dock.go:17-32 -/
def State.init : State where
  hub := .init
  dock := fun _ => .init
  n := 0
  owner := fun _ => none
  port := fun _ => 0
  queue := fun _ => []
  down := fun _ => false
  got := fun _ => []

/-- The packets that a dock handed to peer `e`.  /repo/network/peer.go:54-60. -/
def dockSent (e : Nat) (log : List Dock.Ev) : List Proto :=
  log.filterMap fun
    | .sent p pkt => if p = e then some pkt else none
    | _ => none

/-- The packets that the hub handed to peer `e`.  /repo/network/peer.go:54-60. -/
def hubSent (e : Nat) (log : List Hub.Ev) : List Proto :=
  log.filterMap fun
    | .sent p pkt => if p = e then some pkt else none
    | _ => none

/-- Dock `d` has taken a step to `s`: what it sent meanwhile is queued at the other ends.
/repo/network/peer.go:54-60. -/
def State.setDock (S : State) (d : Nat) (s : Dock.State) : State :=
  { S with
    dock := upd S.dock d s
    queue := fun e => S.queue e ++
      if S.owner (other e) = some (.dock d) then dockSent (other e) (s.log.drop (S.dock d).log.length) else [] }

/-- The hub has taken a step.  /repo/network/peer.go:54-60. -/
def State.setHub (S : State) (s : Hub.State) : State :=
  { S with
    hub := s
    queue := fun e => S.queue e ++
      if S.owner (other e) = some .hub then hubSent (other e) (s.log.drop S.hub.log.length) else [] }

/-- A connection between two processes is made; `port` is the port dialled.  /repo/network/socket.go:37-44 and 68-75. -/
def State.connect (S : State) (a b : Proc) (port : BitVec 64) : State :=
  { S with
    n := S.n + 1
    owner := upd (upd S.owner (2 * S.n) (some a)) (2 * S.n + 1) (some b)
    port := upd S.port (2 * S.n + 1) port }

/-- The actions of a dock that involve no other process.  The others are /repo/network/socket.go:37-50, 68-81 and
/repo/network/peer.go:96. -/
def dockAlone : Dock.Act → Bool
  | .dialHub _ => false
  | .accept _ _ => false
  | .recv _ _ => false
  | .dialOK _ _ => false
  | _ => true

/-- The actions of the hub that involve no other process.  The other one is /repo/network/peer.go:96. -/
def hubAlone : Hub.Act → Bool
  | .recv _ _ => false
  | _ => true

/-- /repo/dock.go:55-265, /repo/hub.go:61-179, /repo/network/socket.go:21-82 and /repo/network/peer.go:54-101 -/
inductive Act where
  | dock (d : Nat) (a : Dock.Act)
  | hub (a : Hub.Act)
  /-- dock `d` dials the hub, /repo/dock.go:199-203 -/
  | join (d : Nat)
  /-- dock `d` dials the address that it was handling for its peer `p` and reaches dock `d'` at the given port -/
  | dial (d p d' : Nat) (port : BitVec 64)
  /-- the dock at end `e` accepts the connection, /repo/network/socket.go:43-50 -/
  | accept (e : Nat)
  /-- the oldest packet on its way to end `e` arrives -/
  | deliver (e : Nat)
  /-- packet number `k` on its way to end `e` is lost -/
  | lose (e k : Nat)
  /-- a process stops -/
  | crash (p : Proc)

section
-- the features of the docks, their hosts, the addresses the hub sees, and its black list
variable (C : Nat → List Dock.Carried) (H : Nat → Str) (R : Nat → Str) (black : List Int)

/-- A process is handed a packet.  /repo/network/peer.go:94-97. -/
def State.receive (S : State) (e : Nat) (pkt : Proto) : Option State :=
  match S.owner e with
  | some (.dock d) =>
    if S.down (.dock d) then none
    else match (S.dock d).step (C d) (.recv e pkt) with
      | some s => some (S.setDock d s)
      | none => none
  | some .hub =>
    if S.down .hub then none
    else match S.hub.step R black (.recv e pkt) with
      | some s => some (S.setHub s)
      | none => none
  | none => none

/-- One action.  /repo/dock.go:55-265, /repo/hub.go:61-179, /repo/network/socket.go:21-82 and
/repo/network/peer.go:54-101. -/
def State.step (S : State) (a : Act) : Option State :=
  match a with
  | .dock d a =>
    if S.down (.dock d) = false ∧ dockAlone a then
      match (S.dock d).step (C d) a with
      | some s => some (S.setDock d s)
      | none => none
    else none
  | .hub a =>
    if S.down .hub = false ∧ hubAlone a then
      match S.hub.step R black a with
      | some s => some (S.setHub s)
      | none => none
    else none
  | .join d =>
    if S.down (.dock d) = false ∧ S.down .hub = false ∧ Hub.pickIP (R (2 * S.n + 1)) = H d then
      match (S.dock d).step (C d) (.dialHub (2 * S.n)) with
      | some s => some ((S.connect (.dock d) .hub 0).setDock d s)
      | none => none
    else none
  | .dial d p d' port =>
    match (S.dock d).handler p with
    | .dialling addr =>
      if S.down (.dock d) = false ∧ S.down (.dock d') = false ∧ port ∈ (S.dock d').ports ∧
          addr = H d' ++ colon :: decimal port.toNat then
        match (S.dock d).step (C d) (.dialOK p (2 * S.n)) with
        | some s => some ((S.connect (.dock d) (.dock d') port).setDock d s)
        | none => none
      else none
    | _ => none
  | .accept e =>
    match S.owner e with
    | some (.dock d) =>
      if S.down (.dock d) = false ∧ e % 2 = 1 then
        match (S.dock d).step (C d) (.accept e (S.port e)) with
        | some s => some (S.setDock d s)
        | none => none
      else none
    | _ => none
  | .deliver e =>
    match S.queue e with
    | [] => none
    | pkt :: rest =>
      let T := { S with queue := upd S.queue e rest }
      match fate pkt with
      | .arrives q => ({ T with got := upd T.got e (T.got e ++ [q]) } : State).receive C R black e q
      | .killsSender => match S.owner (other e) with
        | some p => some { T with down := upd T.down p true }
        | none => none
      | .killsReceiver => match S.owner e with
        | some p => some { T with down := upd T.down p true }
        | none => none
      | .tooLong => none
  | .lose e k =>
    if k < (S.queue e).length then some { S with queue := upd S.queue e ((S.queue e).eraseIdx k) } else none
  | .crash p => some { S with down := upd S.down p true }

end

end Verif.System
