import Verif.Net.Peer
import Verif.Trans

/-!
# A server and a client on the mock network, in the manner of /repo/network/API_test.go:52-67

The test with any strings and any count of the wait group: a server listens, a client dials, the server sends the strings `msgs` in
`OnConnected`, both call `wg.Done` there, the client calls it in `OnPacket` too, and `TestFlow` waits and closes both.  Every goroutine
of the program has its own program counter; what the goroutines share is what the code shares.

Simplified: `Send` is one step, as nobody else uses the channel between its two lines here.  The address of the test and the printing
play no role.  The receive routine hands up the frames of a read one by one, but cuts the buffer into frames when it reads.
-/

namespace Verif.Net.Flow

open Verif

/-- The goroutine of the test, /repo/network/API_test.go:52-67.  `Listen` has returned. -/
inductive Main where
  /-- in `Dial` at the receive of /repo/network/mock.go:77 -/
  | dialing
  /-- before `OnConnected`, /repo/network/socket.go:78 -/
  | greeting
  /-- before `run`, /repo/network/socket.go:81 -/
  | running
  /-- in `wg.Wait`, /repo/network/API_test.go:64 -/
  | waiting
  /-- in `close` of the client's peer before `Send(nil)`, /repo/network/peer.go:107 -/
  | nilC
  /-- before `p.sink = nil`, /repo/network/peer.go:111 -/
  | sinkC
  /-- in `conn.Close` before the test of /repo/network/mock.go:161 -/
  | testC
  /-- at the send of /repo/network/mock.go:162 -/
  | putC
  /-- before /repo/network/mock.go:171 -/
  | unlinkC
  /-- in `Close` of the server before `listener.Close`, /repo/network/socket.go:87 -/
  | listener
  /-- in `close` of the server's peer before `Send(nil)`, /repo/network/peer.go:107 -/
  | nilS
  /-- before `p.sink = nil`, /repo/network/peer.go:111 -/
  | sinkS
  /-- in `conn.Close` before the test of /repo/network/mock.go:161 -/
  | testS
  /-- at the send of /repo/network/mock.go:162 -/
  | putS
  /-- before /repo/network/mock.go:171 -/
  | unlinkS
  /-- the test has passed, /repo/network/API_test.go:67 -/
  | ended
  /-- `log.Fatal` of /repo/network/socket.go:70 has ended the process -/
  | fatal
  deriving DecidableEq

/-- The goroutine that `Dial` starts, /repo/network/mock.go:49-75. -/
inductive Dialer where
  /-- before the tests of lines 53-68; `timeout` is so many microseconds -/
  | polling (left : Nat)
  /-- before line 66 -/
  | expiring
  /-- before line 74 -/
  | leaving
  /-- it has sent this value -/
  | over (ok : Bool)
  deriving DecidableEq

/-- The goroutine that `Listen` starts, /repo/network/socket.go:35-52. -/
inductive Acceptor where
  /-- in `Accept` for the first time -/
  | first
  /-- in `OnConnected` with these strings still to be sent, /repo/network/API_test.go:20-24 -/
  | greeting (rest : List Str)
  /-- before `run`, line 50 -/
  | running
  /-- in `Accept` for the second time -/
  | again
  /-- it has returned -/
  | ended
  deriving DecidableEq

/-- The send routine of the server, /repo/network/peer.go:64-77, and `Write`, /repo/network/mock.go:160-167. -/
inductive Sender where
  /-- not started -/
  | off
  /-- at line 66 -/
  | waiting
  /-- before the test of /repo/network/mock.go:161 -/
  | writing (x : Str)
  /-- before line 162 -/
  | tested (x : Str)
  /-- in the send of line 162 -/
  | sending (x : Str)
  | ended
  deriving DecidableEq

/-- The receive routine of the client, /repo/network/peer.go:80-100. -/
inductive Receiver where
  /-- not started -/
  | off
  /-- in `conn.Read`, line 82 -/
  | reading
  /-- before the test of line 95, with these frames to hand up -/
  | testing (todo : List Str)
  /-- before the call of line 96 -/
  | calling (o : Str) (todo : List Str)
  | ended
  deriving DecidableEq

/-- A routine that only waits for the end, /repo/network/peer.go:64-100: the send routine of the client, the receive routine of the server. -/
inductive Idler where
  | off
  | waiting
  | ended
  deriving DecidableEq

/-- The program. -/
structure State where
  main : Main
  dial : Dialer
  /-- `status` of the client's end, /repo/network/mock.go:144; 3 stands for -1 -/
  status : Nat
  /-- `chanconn` of the listener, of capacity 1, /repo/network/mock.go:99; `false` stands for nil -/
  chanconn : Option Bool
  acc : Acceptor
  /-- `sendPackets` of the server's peer, /repo/network/peer.go:37 -/
  queue : List (Option Str)
  /-- its send routine -/
  sendS : Sender
  /-- its receive routine -/
  recvS : Idler
  /-- there is a nil in `sendPackets` of the client's peer -/
  told : Bool
  /-- its send routine -/
  sendC : Idler
  /-- its receive routine -/
  recvC : Receiver
  /-- its `recvBuffer`, without the frames taken off -/
  buf : Str
  /-- a nil is in `chanbuf` of the server's end, /repo/network/mock.go:148; the client writes nothing else -/
  chanS : Bool
  /-- `chanbuf` of the client's end -/
  chanC : Option (Option Str)
  /-- `peer` of the server's end is not nil, /repo/network/mock.go:147 -/
  linkS : Bool
  /-- `peer` of the client's end is not nil -/
  linkC : Bool
  /-- `sink` of the client's peer is not nil, /repo/network/peer.go:35 -/
  sink : Bool
  /-- the counter of the wait group -/
  wg : Nat
  /-- history: the strings that the client's routine has read -/
  read : List Str
  /-- history: the strings passed to `OnPacket` of the client -/
  packets : List Str
  /-- nil has been dereferenced, or the counter of the wait group has become negative -/
  crashed : Bool
  deriving DecidableEq

/-- `wg.Add(n)` and `Listen` have returned and `Dial` has begun, /repo/network/API_test.go:57-62; `timeout` is 1 s, /repo/network/mock.go:51. -/
def State.init (n : Nat) : State :=
  ⟨.dialing, .polling 1000000, 0, none, .first, [], .off, .off, false, .off, .off, [], false, none, false, false, true, n, [], [], false⟩

/-- The goroutines. -/
inductive Act where
  | main
  | dial
  | accept
  | sendS
  | recvS
  | sendC
  | recvC
  deriving DecidableEq

/-- `wg.Done`, /repo/network/API_test.go:23, 40, 49, which panics if the counter would become negative. -/
def done (s t : State) : State := if s.wg = 0 then { s with crashed := true } else { t with wg := s.wg - 1 }

/-- One step of the test, /repo/network/API_test.go:62-66.  The rest of `Close` of the listener, line 124 of /repo/network/mock.go, and of
`OnClosed`, which is empty, play no role. -/
def State.mainStep (s : State) : Option State :=
  match s.main with
  | .dialing =>
    match s.dial with
    | .over true => some { s with main := .greeting }
    | .over false => some { s with main := .fatal }
    | _ => none
  | .greeting => some (done s { s with main := .running })
  | .running => some { s with main := .waiting, sendC := .waiting, recvC := .reading }
  | .waiting => if s.wg = 0 then some { s with main := .nilC } else none
  | .nilC => some { s with main := .sinkC, told := true }
  | .sinkC => some { s with main := .testC, sink := false }
  | .testC => some { s with main := if s.linkC then .putC else .unlinkC }
  | .putC => if s.chanS then none else some { s with main := .unlinkC, chanS := true }
  | .unlinkC => some { s with main := .listener, linkC := false }
  | .listener => if s.chanconn = none then some { s with main := .nilS, chanconn := some false } else none
  | .nilS => some { s with main := .sinkS, queue := if s.queue.length = cSendChanSize then s.queue else s.queue ++ [none] }
  | .sinkS => some { s with main := .testS }
  | .testS => some { s with main := if s.linkS then .putS else .unlinkS }
  | .putS => if s.chanC = none then some { s with main := .unlinkS, chanC := some none } else none
  | .unlinkS => some { s with main := .ended, linkS := false }
  | .ended => none
  | .fatal => none

/-- One step of the goroutine that dials, /repo/network/mock.go:49-75. -/
def State.dialStep (s : State) : Option State :=
  match s.dial with
  | .polling left =>
    if s.status = 0 then
      if s.chanconn = none then some { s with dial := .polling (left - 1), status := 1, chanconn := some true } else none
    else if s.status = 2 then some { s with dial := .leaving }
    else if left = 0 then some { s with dial := .expiring }
    else some { s with dial := .polling (left - 1) }
  | .expiring => some { s with dial := .leaving, status := 3 }
  | .leaving => some { s with dial := .over (s.status = 2) }
  | .over _ => none

/-- One step of the goroutine that accepts, /repo/network/socket.go:35-52, /repo/network/mock.go:103-120; there is one `Dial`, so the second
`Accept` can only get nil. -/
def State.acceptStep (msgs : List Str) (s : State) : Option State :=
  match s.acc, s.chanconn with
  | .first, some true => some { s with acc := .greeting msgs, chanconn := none, status := 2, linkS := true, linkC := true }
  | .first, some false | .again, some false => some { s with acc := .ended, chanconn := none }
  | .greeting (x :: rest), _ =>
    some { s with acc := .greeting rest, queue := if s.queue.length = cSendChanSize then s.queue else s.queue ++ [some x] }
  | .greeting [], _ => some (done s { s with acc := .running })
  | .running, _ => some { s with acc := .again, sendS := .waiting, recvS := .waiting }
  | _, _ => none

/-- One step of the send routine of the server, /repo/network/peer.go:64-77, /repo/network/mock.go:160-167. -/
def State.sendStep (s : State) : Option State :=
  match s.sendS with
  | .waiting =>
    match s.queue with
    | [] => none
    | none :: rest => some { s with sendS := .ended, queue := rest }
    | some x :: rest => some { s with sendS := .writing x, queue := rest }
  | .writing x => some { s with sendS := if s.linkS then .tested x else .ended }
  | .tested x => if s.linkS then some { s with sendS := .sending x } else some { s with crashed := true }
  | .sending x => if s.chanC = none then some { s with sendS := .waiting, chanC := some (some x) } else none
  | _ => none

/-- One step of the receive routine of the client, /repo/network/peer.go:80-100, /repo/network/mock.go:151-158. -/
def State.recvStep (s : State) : Option State :=
  match s.recvC with
  | .reading =>
    match s.chanC with
    | none => none
    | some none => some { s with recvC := .ended, chanC := none }
    | some (some x) =>
      match recvChunk txtSerializer s.buf (x.take cRecvBytesSize) with
      | (objs, some buf) => some { s with recvC := .testing objs, chanC := none, buf := buf, read := s.read ++ [x] }
      | (_, none) => some { s with crashed := true }
  | .testing [] => some { s with recvC := .reading }
  | .testing (o :: todo) => some { s with recvC := if s.sink then .calling o todo else .testing todo }
  | .calling o todo =>
    if s.sink then some (done s { s with recvC := .testing todo, packets := s.packets ++ [o] }) else some { s with crashed := true }
  | _ => none

/-- One step.  Nothing happens after a crash or `log.Fatal`. -/
def State.step (msgs : List Str) (s : State) (a : Act) : Option State :=
  if s.crashed = true ∨ s.main = .fatal then none else
  match a with
  | .main => s.mainStep
  | .dial => s.dialStep
  | .accept => s.acceptStep msgs
  | .sendS => s.sendStep
  | .recvS => if s.recvS = .waiting ∧ s.chanS = true then some { s with recvS := .ended, chanS := false } else none
  | .sendC => if s.sendC = .waiting ∧ s.told = true then some { s with sendC := .ended, told := false } else none
  | .recvC => s.recvStep

end Verif.Net.Flow
