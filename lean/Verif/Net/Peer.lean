import Verif.Net.Recv
import Verif.Trans

/-!
# Model of a connection: the send and receive routines of /repo/network/peer.go over a byte stream

The sending peer, the bytes in flight and the receiving peer in one state.  Calls of `Send` by several
goroutines interleave: the check of line 55 and the channel send of line 59 are separate actions.
Fields marked "history" are not in the code; they record what happened.
-/

namespace Verif.Net

open Verif

/-- Capacity of the send channel, /repo/network/peer.go:14 -/
def cSendChanSize : Nat := 20

/-- Size of the receive buffer, /repo/network/peer.go:15 -/
def cRecvBytesSize : Nat := 1024 * 10

/-- One direction of a connection.  `none` in `queue` and `pending` is the nil object that `close` sends.  Fields of
`peer`, /repo/network/peer.go:31-40, and of the peer at the other end. -/
structure Link (α : Type) where
  /-- contents of `sendPackets` -/
  queue : List (Option α)
  /-- goroutines between line 55 and line 59 of /repo/network/peer.go, with the object they are sending -/
  pending : List (Option α)
  /-- the send routine (lines 64-77) has not ended -/
  sending : Bool
  /-- bytes written to the connection and not yet read at the other end -/
  wire : List Byte
  /-- `recvBuffer` of the receiving peer -/
  recvBuf : List Byte
  /-- the sending process ended in `Marshal` (`log.Fatal`) -/
  dead : Bool
  /-- the receiving process ended in `Unmarshal` -/
  gone : Bool
  /-- history: objects that entered the queue -/
  accepted : List (Option α)
  /-- history: objects that `Send` discarded, with the length of the queue at that moment -/
  dropped : List (Option α × Nat)
  /-- history: objects whose bytes were passed to `conn.Write` -/
  sent : List α
  /-- history: objects handed to `OnPacket` at the other end -/
  delivered : List α

/-- A new connection.  `newPeer`, /repo/network/peer.go:18-29. -/
def Link.init (α : Type) : Link α := ⟨[], [], true, [], [], false, false, [], [], [], []⟩

/-- The steps of `Send`, of the two routines and of `close`, /repo/network/peer.go:54-115. -/
inductive Act (α : Type) where
  /-- a goroutine calls `Send(obj)` and executes the test of line 55 -/
  | check (obj : Option α)
  /-- the `i`-th waiting goroutine executes line 59 -/
  | push (i : Nat)
  /-- the send routine takes an object and writes it; `fail = some k`: `conn.Write` returns an error after
  it has written the first `k` bytes -/
  | transmit (fail : Option Nat)
  /-- the receive routine of the other side executes one turn, `conn.Read` delivering `n` bytes -/
  | recv (n : Nat)

section
variable {α : Type} (S : Serializer α)

/-- One action.  The receive action handles all complete frames at once: the loop of lines 88-98 touches
only the receiver's own buffer and calls `OnPacket` in order.  `conn.Read` returns at least one byte and
at most the size of the buffer. -/
def Link.step (s : Link α) : Act α → Option (Link α)
  | .check obj =>
    if s.dead then none
    else if s.queue.length = cSendChanSize then
      some { s with dropped := s.dropped ++ [(obj, s.queue.length)] }
    else some { s with pending := s.pending ++ [obj] }
  | .push i =>
    match s.pending[i]? with
    | none => none
    | some obj =>
      -- a send on a full channel blocks
      if s.dead ∨ cSendChanSize ≤ s.queue.length then none
      else some { s with
        pending := s.pending.eraseIdx i, queue := s.queue ++ [obj], accepted := s.accepted ++ [obj] }
  | .transmit fail =>
    if s.dead ∨ s.sending = false then none
    else
      match s.queue with
      | [] => none                                                        -- line 66 blocks
      | none :: rest => some { s with queue := rest, sending := false }   -- lines 67-69
      | some obj :: rest =>
        match S.marshal obj with
        | .ok data =>
          match fail with
          | none => some { s with queue := rest, wire := s.wire ++ data, sent := s.sent ++ [obj] }
          | some k =>                                                      -- lines 73-75
            some { s with
              queue := rest, wire := s.wire ++ data.take k, sent := s.sent ++ [obj], sending := false }
        | _ => some { s with queue := rest, dead := true }
  | .recv n =>
    if s.gone ∨ n = 0 ∨ cRecvBytesSize < n ∨ s.wire.length < n then none
    else
      match recvChunk S s.recvBuf (s.wire.take n) with
      | (objs, some buf) =>
        some { s with wire := s.wire.drop n, recvBuf := buf, delivered := s.delivered ++ objs }
      | (objs, none) => some { s with delivered := s.delivered ++ objs, gone := true }

end

end Verif.Net
