import Verif.System.System

/-!
# One direction of a connection as `Verif.System.System` sees it

The lines of `State.step` that concern the packets on their way to one end, on their own.  `Verif.Props.Net7` compares
them with the goroutines, the queue and the byte stream of `Verif.Net.Peer` on one side and with `State.step` on the
other.
-/

namespace Verif.System

open Verif Verif.Proto

/-- One direction of a connection, in packets.  /repo/network/peer.go:31-40. -/
structure Conn where
  /-- the packets on their way -/
  queue : List Proto
  /-- the packets handed to `OnPacket`, /repo/network/peer.go:94-97 -/
  got : List Proto
  /-- a packet stopped the sender in `Marshal`, /repo/network/peer.go:71 -/
  dead : Bool
  /-- a packet stopped the receiver in `Unmarshal`, /repo/network/peer.go:94 -/
  gone : Bool
  /-- history: the packets passed to `Send`, /repo/network/peer.go:54-60 -/
  sends : List Proto

/-- /repo/network/peer.go:18-29 -/
def Conn.init : Conn := ⟨[], [], false, false, []⟩

/-- /repo/network/peer.go:54-98 -/
inductive ConnAct where
  | send (p : Proto)
  /-- packet number `k` on its way is lost: /repo/network/peer.go:55-57 or a broken connection -/
  | lose (k : Nat)
  /-- the oldest packet arrives, /repo/network/peer.go:64-98 -/
  | deliver

/-- One action: /repo/network/peer.go:54-98 in packets. -/
def Conn.step (c : Conn) : ConnAct → Option Conn
  | .send p => if c.dead then none else some { c with queue := c.queue ++ [p], sends := c.sends ++ [p] }
  | .lose k => if k < c.queue.length then some { c with queue := c.queue.eraseIdx k } else none
  | .deliver =>
    match c.queue with
    | [] => none
    | p :: rest =>
      match fate p with
      | .arrives q => if c.gone then none else some { c with queue := rest, got := c.got ++ [q] }
      | .killsSender => some { c with queue := rest, dead := true }
      | .killsReceiver => some { c with queue := rest, gone := true }
      | .tooLong => none

end Verif.System
