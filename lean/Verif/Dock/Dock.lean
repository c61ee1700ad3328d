import Verif.Trans
import Verif.Text
import Verif.Proto.Packet

/-!
# Model of /repo/dock.go, /repo/rpc.go and the call methods of /repo/slot.go

One dock.  Its environment are the peers, which may send any packet at any time, the user's goroutines, which make
calls, and the methods of the features, which return anything.  Every access to shared memory that can be observed by
another goroutine is an action of its own, except that

* operations on Go maps and `append` to `d.sockets` are atomic (the code does not synchronise them; the Go runtime may
  also abort on concurrent map accesses),
* a packet handed to `peer.Send` counts as sent; whether it arrives is the subject of `Verif.Net` and `Verif.System`.

`Close` is modelled in `Verif.Dock.Life`.  Calls of local features end in package chancall, modelled in `Verif.Chan`;
here they are only recorded.
-/

namespace Verif.Dock

open Verif Verif.Codec Verif.Proto

/-- A feature as passed to `Startup`: `Carry(name, feature, discoverable)`, /repo/ferry.go:52-54, /repo/slot.go:15-29.
The feature object is identified by a number. -/
structure Carried where
  name : Str
  feature : Nat
  discoverable : Bool
  deriving DecidableEq, Repr

/-- `d.slots` as built by `newDock`, /repo/dock.go:25-29: later entries overwrite earlier ones. -/
def slotsOf (cs : List Carried) : Str → Option Carried :=
  cs.foldl (fun t c => upd t c.name (some c)) (fun _ => none)

/-- The keys of `d.slots`, each once.  /repo/dock.go:25-29. -/
def keysOf (cs : List Carried) : List Str := (cs.map (·.name)).eraseDups

/-- `d.collect()`, /repo/dock.go:207-216, in some order: Go iterates over maps in any order, so `collect` returns
any permutation of this list. -/
def collectOf (cs : List Carried) : List Str :=
  (keysOf cs).filter fun n => match slotsOf cs n with
    | some c => c.discoverable
    | none => false

/-- The arguments of `Call` and `CallWithResult`, /repo/slot.go:53-59. -/
structure Call where
  slot : Str
  meth : Str
  args : List Val
  withResult : Bool

/-- `ret`, /repo/rpc.go:21-24; the empty error message stands for no error, as in /repo/dock.go:185. -/
structure Ret where
  result : List Val
  err : Str

/-- The goroutine of a remote call, /repo/dock.go:229-231, 240-242 and /repo/rpc.go:26-58. -/
inductive CallPhase where
  /-- `newRpc` has returned -/
  | created
  /-- `d.rpcs[rpc.index] = rpc` done -/
  | stored
  /-- `r.req` set -/
  | set
  /-- `commit` has returned; at `<-r.ret` -/
  | waiting
  /-- before `close(r.ret)` -/
  | received (r : Ret)
  | returned (r : Ret)

/-- The sockets of the dock.  /repo/dock.go:36. -/
inductive Sock where
  /-- dialled by `run`, /repo/dock.go:202-203 -/
  | hub
  /-- of /repo/dock.go:120 -/
  | listener (port : BitVec 64)
  /-- of /repo/dock.go:137, with its only peer -/
  | dialled (peer : Nat)
  deriving DecidableEq, Repr

/-- The goroutine that handles the packets of a peer: what it is doing in `OnPacket`, /repo/dock.go:75-197. -/
inductive Handler where
  | idle
  /-- at line 86 -/
  | slots (rest : List Str)
  /-- in the loop of line 87: which entries the map had at the start, and which have been visited -/
  | scan (slot : Str) (rest : List Str) (start visited : List Nat)
  /-- line 88: `r.req != nil` was true -/
  | tested (slot : Str) (rest : List Str) (start visited : List Nat) (i : Nat)
  /-- before `d.commit(r)`, line 89 -/
  | commit (slot : Str) (rest : List Str) (start visited : List Nat) (i : Nat)
  /-- before line 104 -/
  | reply (slots : List Str)
  /-- in the loop of line 108 -/
  | cache (rest : List Str)
  /-- behind `socket.Listen()`, line 121 -/
  | listening (port : BitVec 64)
  /-- before line 125 -/
  | announce
  /-- in `socket.Dial()`, line 138 -/
  | dialling (addr : Str)
  /-- before line 139 -/
  | dialled (e : Nat)

/-- A goroutine started in line 146. -/
inductive ExecPhase where
  | spawned
  /-- the call is in package chancall -/
  | running
  /-- before line 172 -/
  | returned (r : Ret)
  | over

/-- The goroutine that serves a request, /repo/dock.go:146-173. -/
structure Exec where
  peer : Nat
  index : BitVec 64
  call : Call
  feature : Nat
  phase : ExecPhase

/-- A goroutine started in line 181. -/
inductive CbPhase where
  /-- before `rpc.callback`, line 182 -/
  | sending
  /-- before `delete`, line 192 -/
  | deleting
  | over

/-- The goroutine that handles the answer to a call, /repo/dock.go:181-193. -/
structure Callback where
  rpc : Nat
  index : BitVec 64
  ret : Ret
  phase : CbPhase

/-- History.  /repo/dock.go:55-265. -/
inductive Ev where
  | recv (p : Nat) (pkt : Proto)
  | sent (p : Nat) (pkt : Proto)
  /-- a call by the user -/
  | called (c : Call)
  /-- a call is handed to package chancall; `src` is the peer and the index if it is on behalf of a peer -/
  | invoke (src : Option (Nat × BitVec 64)) (feature : Nat) (c : Call)
  /-- package chancall has returned from a call on behalf of a peer -/
  | returned (src : Nat × BitVec 64) (feature : Nat) (c : Call) (r : Ret)
  /-- `Listen` on 0.0.0.0:port returned -/
  | listen (port : BitVec 64)
  /-- `go d.start()`, line 132 -/
  | start

/-- `dock`, /repo/dock.go:34-41, with the goroutines that use it. -/
structure State where
  /-- number of remote calls -/
  n : Nat
  call : Nat → Call
  /-- `rpc.index` -/
  index : Nat → BitVec 64
  phase : Nat → CallPhase
  /-- `rpc.req` is not nil; its content is that of the call -/
  req : Nat → Bool
  /-- `rpc.ret`, capacity 1 -/
  chan : Nat → Option Ret
  chanClosed : Nat → Bool
  rpcs : BitVec 64 → Option Nat
  /-- `remoteSlots` -/
  remote : Str → Option Nat
  sockets : List Sock
  /-- `run` has dialled the hub but not yet stored the socket -/
  hubPending : Bool
  /-- the ports on which `Listen` has been called -/
  ports : List (BitVec 64)
  /-- the peers with their sockets -/
  peers : List (Nat × Sock)
  /-- the goroutine of `OnConnected` has not yet sent the register request -/
  greeting : Nat → Bool
  handler : Nat → Handler
  /-- number of goroutines of line 146 -/
  nx : Nat
  exec : Nat → Exec
  /-- number of goroutines of line 181 -/
  nc : Nat
  cb : Nat → Callback
  dead : Bool
  log : List Ev

/-- A call number that is not used; /repo/rpc.go:15-19. -/
def noCall : Call := ⟨[], [], [], false⟩

/-- `newDock`, /repo/dock.go:17-32 -/
def State.init : State where
  n := 0
  call := fun _ => noCall
  index := fun _ => 0
  phase := fun _ => .created
  req := fun _ => false
  chan := fun _ => none
  chanClosed := fun _ => false
  rpcs := fun _ => none
  remote := fun _ => none
  sockets := []
  hubPending := false
  ports := []
  peers := []
  greeting := fun _ => false
  handler := fun _ => .idle
  nx := 0
  exec := fun _ => ⟨0, 0, noCall, 0, .over⟩
  nc := 0
  cb := fun _ => ⟨0, 0, ⟨[], []⟩, .over⟩
  dead := false
  log := []

/-- /repo/dock.go:55-265 and /repo/rpc.go:26-62 -/
inductive Act where
  /-- `dock.run`, /repo/dock.go:199-203: the hub is connected through the new peer `e` -/
  | dialHub (e : Nat)
  /-- /repo/dock.go:204 -/
  | storeHub
  /-- a peer connects to a listener of this dock, /repo/network/socket.go:43-50 -/
  | accept (e : Nat) (port : BitVec 64)
  /-- the goroutine started by `OnConnected`, /repo/dock.go:61-69 -/
  | greet (e : Nat) (order : List Str)
  /-- a goroutine calls a feature; `clock` is the index if it is remote, /repo/dock.go:224-244, /repo/rpc.go:11-13 -/
  | call (c : Call) (clock : BitVec 64)
  /-- /repo/dock.go:230, 241 -/
  | store (i : Nat)
  /-- /repo/rpc.go:27-33, 44-50 -/
  | setReq (i : Nat)
  /-- /repo/rpc.go:35, 52 -/
  | commit (i : Nat)
  /-- /repo/rpc.go:37, 54 -/
  | receive (i : Nat)
  /-- /repo/rpc.go:38, 55 -/
  | closeChan (i : Nat)
  /-- a packet arrives -/
  | recv (p : Nat) (pkt : Proto)
  /-- the handler of a ready packet looks at an entry of `d.rpcs`, line 87 and the first half of line 88 -/
  | visit (p : Nat) (i : Nat)
  /-- the next step of the handler; `order` is the order in which `collect` lists the names, if it is called -/
  | work (p : Nat) (order : List Str)
  /-- `Dial` succeeds with the new peer `e`, /repo/network/socket.go:68-81 -/
  | dialOK (p e : Nat)
  /-- `Dial` fails and calls `log.Fatal`, /repo/network/socket.go:69-72 -/
  | dialFail (p : Nat)
  /-- line 147-153: the call is handed to package chancall -/
  | invoke (k : Nat)
  /-- the call returns -/
  | finish (k : Nat) (r : Ret)
  /-- line 156-172 -/
  | respond (k : Nat)
  /-- `r.ret <- ret`, /repo/rpc.go:61 -/
  | callback (k : Nat)
  /-- line 192 -/
  | delete (k : Nat)

/-- The remote calls that are in `d.rpcs`.  /repo/dock.go:40 and 87. -/
def State.pending (s : State) : List Nat := (List.range s.n).filter fun i => s.rpcs (s.index i) = some i

/-- The request packet of a remote call, /repo/rpc.go:27-33, 44-50. -/
def State.request (s : State) (i : Nat) : Proto :=
  .rpcRequest (s.index i) (s.call i).slot (s.call i).meth (s.call i).args (s.call i).withResult

/-- `d.commit(rpc)`, /repo/dock.go:246-265, holding the mutex throughout. -/
def State.doCommit (s : State) (i : Nat) : State :=
  if s.req i then
    match s.remote (s.call i).slot with
    | some p => { s with req := upd s.req i false, log := s.log ++ [.sent p (s.request i)] }
    | none =>
      match s.sockets with
      | [] => { s with dead := true }
      | k :: _ => { s with
          log := s.log ++ (s.peers.filter (·.2 = k)).map (fun e => .sent e.1 (.queryRequest (s.call i).slot)) }
  else { s with dead := true }

/-- A peer is connected: `newPeer` and `OnConnected`.  /repo/network/peer.go:18-29 and /repo/dock.go:55-70. -/
def State.connected (s : State) (e : Nat) (k : Sock) : State :=
  { s with peers := s.peers ++ [(e, k)], greeting := upd s.greeting e true }

/-- A peer number not used yet.  /repo/network/peer.go:18-29 makes a new object. -/
def State.isNew (s : State) (e : Nat) : Bool := (s.peers.all fun x => x.1 ≠ e)

/-- A peer that has connected, /repo/dock.go:55. -/
def State.isPeer (s : State) (e : Nat) : Bool := (s.peers.any fun x => x.1 = e)

section
variable (cs : List Carried)

/-- The handler of peer `p` starts with a packet: lines 76-197 up to the first access to shared memory. -/
def State.onPacket (s : State) (p : Nat) (pkt : Proto) : State :=
  match pkt with
  | .ready slots => { s with handler := upd s.handler p (.slots slots) }
  | .registerRequest slots => { s with handler := upd s.handler p (.reply slots) }
  | .registerResponse port => { s with
      ports := s.ports ++ [port], handler := upd s.handler p (.listening port), log := s.log ++ [.listen port] }
  | .queryResponse addr => { s with handler := upd s.handler p (.dialling addr) }
  | .rpcRequest index slot meth args withResult =>
    match slotsOf cs slot with
    | some c => { s with
        nx := s.nx + 1
        exec := upd s.exec s.nx ⟨p, index, ⟨slot, meth, args, withResult⟩, c.feature, .spawned⟩ }
    | none => s
  | .rpcResponse index _ _ result err =>
    match s.rpcs index with
    | some i => { s with nc := s.nc + 1, cb := upd s.cb s.nc ⟨i, index, ⟨result, err⟩, .sending⟩ }
    | none => s
  | _ => s

/-- The next step of the handler of peer `p`.  /repo/dock.go:75-197. -/
def State.work (s : State) (p : Nat) (order : List Str) : Option State :=
  match s.handler p with
  | .idle => none
  | .slots [] => some { s with handler := upd s.handler p .idle }
  | .slots (slot :: rest) => some { s with handler := upd s.handler p (.scan slot rest s.pending []) }
  | .scan _ rest start visited =>
    if start.all fun i => i ∈ visited ∨ s.rpcs (s.index i) ≠ some i then
      some { s with handler := upd s.handler p (.slots rest) }
    else none
  | .tested slot rest start visited i =>
    if s.req i then
      if (s.call i).slot = slot then some { s with handler := upd s.handler p (.commit slot rest start visited i) }
      else some { s with handler := upd s.handler p (.scan slot rest start visited) }
    else some { s with dead := true }
  | .commit slot rest start visited i =>
    some { s.doCommit i with handler := upd s.handler p (.scan slot rest start visited) }
  | .reply slots =>
    if order.isPerm (collectOf cs) then
      some { s with handler := upd s.handler p (.cache slots), log := s.log ++ [.sent p (.ready order)] }
    else none
  | .cache [] => some { s with handler := upd s.handler p .idle }
  | .cache (slot :: rest) => some { s with
      remote := upd s.remote slot (some p), handler := upd s.handler p (.cache rest) }
  | .listening port => some { s with
      sockets := s.sockets ++ [.listener port], handler := upd s.handler p .announce }
  | .announce =>
    if order.isPerm (collectOf cs) then
      some { s with handler := upd s.handler p .idle, log := s.log ++ [.sent p (.ready order), .start] }
    else none
  | .dialling _ => none
  | .dialled e => some { s with
      sockets := s.sockets ++ [.dialled e], handler := upd s.handler p .idle }

/-- One action.  /repo/dock.go:55-265 and /repo/rpc.go:26-62. -/
def State.step (s : State) (a : Act) : Option State :=
  if s.dead then none
  else
    match a with
    | .dialHub e =>
      if s.sockets = [] ∧ s.hubPending = false ∧ s.peers = [] then
        some { s.connected e .hub with hubPending := true }
      else none
    | .storeHub =>
      if s.hubPending then some { s with hubPending := false, sockets := s.sockets ++ [.hub] } else none
    | .accept e port =>
      if s.isNew e ∧ port ∈ s.ports then some (s.connected e (.listener port)) else none
    | .greet e order =>
      if s.greeting e ∧ order.isPerm (collectOf cs) then
        some { s with greeting := upd s.greeting e false, log := s.log ++ [.sent e (.registerRequest order)] }
      else none
    | .call c clock =>
      match slotsOf cs c.slot with
      | some f => some { s with log := s.log ++ [.called c, .invoke none f.feature c] }
      | none => some { s with
          n := s.n + 1, call := upd s.call s.n c, index := upd s.index s.n clock
          phase := upd s.phase s.n .created, log := s.log ++ [.called c] }
    | .store i =>
      if i < s.n then
        match s.phase i with
        | .created => some { s with rpcs := upd s.rpcs (s.index i) (some i), phase := upd s.phase i .stored }
        | _ => none
      else none
    | .setReq i =>
      match s.phase i with
      | .stored => some { s with req := upd s.req i true, phase := upd s.phase i .set }
      | _ => none
    | .commit i =>
      match s.phase i with
      | .set => some { s.doCommit i with phase := upd s.phase i .waiting }
      | _ => none
    | .receive i =>
      match s.phase i, s.chan i with
      | .waiting, some r => some { s with chan := upd s.chan i none, phase := upd s.phase i (.received r) }
      | _, _ => none
    | .closeChan i =>
      match s.phase i with
      | .received r => some { s with chanClosed := upd s.chanClosed i true, phase := upd s.phase i (.returned r) }
      | _ => none
    | .recv p pkt =>
      match s.handler p with
      | .idle =>
        if s.isPeer p then some (({ s with log := s.log ++ [.recv p pkt] } : State).onPacket cs p pkt) else none
      | _ => none
    | .visit p i =>
      match s.handler p with
      | .scan slot rest start visited =>
        if s.rpcs (s.index i) = some i ∧ i ∉ visited then
          if s.req i then some { s with handler := upd s.handler p (.tested slot rest start (i :: visited) i) }
          else some { s with handler := upd s.handler p (.scan slot rest start (i :: visited)) }
        else none
      | _ => none
    | .work p order => s.work cs p order
    | .dialOK p e =>
      match s.handler p with
      | .dialling _ =>
        if s.isNew e then
          some { s.connected e (.dialled e) with handler := upd s.handler p (.dialled e) }
        else none
      | _ => none
    | .dialFail p =>
      match s.handler p with
      | .dialling _ => some { s with dead := true }
      | _ => none
    | .invoke k =>
      let x := s.exec k
      match x.phase with
      | .spawned => some { s with
          exec := upd s.exec k { x with phase := .running }
          log := s.log ++ [.invoke (some (x.peer, x.index)) x.feature x.call] }
      | _ => none
    | .finish k r =>
      let x := s.exec k
      match x.phase with
      | .running => some { s with
          exec := upd s.exec k { x with phase := .returned r }
          log := s.log ++ [.returned (x.peer, x.index) x.feature x.call r] }
      | _ => none
    | .respond k =>
      let x := s.exec k
      match x.phase with
      | .returned r => some { s with
          exec := upd s.exec k { x with phase := .over }
          log := s.log ++ [.sent x.peer (.rpcResponse x.index x.call.slot x.call.meth
            (if x.call.withResult then r.result else []) r.err)] }
      | _ => none
    | .callback k =>
      let x := s.cb k
      match x.phase with
      | .sending =>
        if s.chanClosed x.rpc then some { s with dead := true }
        else
          match s.chan x.rpc with
          | none => some { s with
              chan := upd s.chan x.rpc (some x.ret), cb := upd s.cb k { x with phase := .deleting } }
          | some _ => none
      | _ => none
    | .delete k =>
      let x := s.cb k
      match x.phase with
      | .deleting => some { s with rpcs := upd s.rpcs x.index none, cb := upd s.cb k { x with phase := .over } }
      | _ => none

end

end Verif.Dock
