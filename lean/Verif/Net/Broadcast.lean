import Verif.Net.Peer

/-!
# Model of `socket.Send`, /repo/network/socket.go:96-100

Calls of `Send` of a socket by any number of goroutines, with the queues of its peers.  A call visits the peers one after
the other; at each it executes `peer.Send`, /repo/network/peer.go:54-60, whose test and channel send are separate steps.
Simplified: what is done with an object taken from a queue is left out, see `Net/Peer`, and so are the nil objects that
`close` sends.
-/

namespace Verif.Net

open Verif

/-- A call of `socket.Send`.  /repo/network/socket.go:96-100. -/
structure CastCall (α : Type) where
  obj : α
  /-- the peers that the loop has not finished -/
  todo : List Nat
  /-- the test of /repo/network/peer.go:55 for the first of them found room, line 59 is next -/
  waiting : Bool
  deriving DecidableEq, Repr

/-- History: what became of the object of a call at a peer.  /repo/network/peer.go:54-60. -/
inductive CastEv where
  | queued (call peer : Nat)
  /-- with the length of the queue at that moment -/
  | dropped (call peer len : Nat)
  deriving DecidableEq, Repr

/-- The peers of a socket, /repo/network/socket.go:18, and the calls of `Send`. -/
structure Cast (α : Type) where
  /-- `s.peers`, numbered in the order of creation -/
  peers : List Nat
  /-- number of peers created so far -/
  made : Nat
  /-- the contents of `p.sendPackets` -/
  queue : Nat → List α
  /-- the send routine of the peer (/repo/network/peer.go:64-77) has ended -/
  ended : Nat → Bool
  /-- the calls in the order in which they began -/
  calls : List (CastCall α)
  log : List CastEv

/-- No packets yet, /repo/network/peer.go:24. -/
def Cast.init (α : Type) : Cast α := ⟨[], 0, fun _ => [], fun _ => false, [], []⟩

/-- /repo/network/socket.go:96-100 and /repo/network/peer.go:54-77 -/
inductive CastAct (α : Type) where
  /-- `s.peers = append(s.peers, peer)`, /repo/network/socket.go:44 and 75 -/
  | connect
  /-- `s.peers = nil`, /repo/network/socket.go:93 -/
  | forget
  /-- a goroutine calls `Send`; `range s.peers` evaluates the slice once, /repo/network/socket.go:97 -/
  | send (obj : α)
  /-- call `c` executes the test of /repo/network/peer.go:55 -/
  | check (c : Nat)
  /-- call `c` executes /repo/network/peer.go:59 -/
  | push (c : Nat)
  /-- the send routine of a peer takes an object from its queue, /repo/network/peer.go:66 -/
  | take (p : Nat)
  /-- the send routine of a peer ends because a write failed, /repo/network/peer.go:73-75 -/
  | stop (p : Nat)
  deriving DecidableEq, Repr

/-- /repo/network/socket.go:96-100 and /repo/network/peer.go:54-77 -/
def Cast.step {α : Type} (s : Cast α) : CastAct α → Option (Cast α)
  | .connect => some { s with peers := s.peers ++ [s.made], made := s.made + 1 }
  | .forget => some { s with peers := [] }
  | .send obj => some { s with calls := s.calls ++ [⟨obj, s.peers, false⟩] }
  | .check c =>
    match s.calls[c]? with
    | some ⟨obj, p :: rest, false⟩ =>
      if (s.queue p).length = cSendChanSize then
        some { s with calls := s.calls.set c ⟨obj, rest, false⟩, log := s.log ++ [.dropped c p (s.queue p).length] }
      else some { s with calls := s.calls.set c ⟨obj, p :: rest, true⟩ }
    | _ => none
  | .push c =>
    match s.calls[c]? with
    | some ⟨obj, p :: rest, true⟩ =>
      -- a send on a full channel blocks
      if cSendChanSize ≤ (s.queue p).length then none
      else some { s with
        calls := s.calls.set c ⟨obj, rest, false⟩, queue := upd s.queue p (s.queue p ++ [obj]),
        log := s.log ++ [.queued c p] }
    | _ => none
  | .take p =>
    if s.ended p then none
    else
      match s.queue p with
      | [] => none
      | _ :: rest => some { s with queue := upd s.queue p rest }
  | .stop p => if s.ended p then none else some { s with ended := upd s.ended p true }

end Verif.Net
