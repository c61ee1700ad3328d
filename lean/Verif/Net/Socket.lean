import Verif.Trans

/-!
# Model of /repo/network/socket.go and of the life of a peer (/repo/network/peer.go:79-115)
-/

namespace Verif.Net

open Verif

/-! ## Sockets: which peers are closed when -/

/-- What the sink of a socket is told, and the return of `Close` calls.  /repo/network/socket.go:46-48, 77-79, 84-94. -/
inductive SockEv where
  | connected (peer : Nat)
  | closed (peer : Nat)
  | closeReturned
  deriving DecidableEq, Repr

/-- A socket and its peers, which are numbered in the order of creation.  /repo/network/socket.go:12-19. -/
structure Sock where
  /-- `s.peers` -/
  peers : List Nat
  /-- number of peers created so far -/
  made : Nat
  /-- `p.sink` is not nil -/
  sink : Nat → Bool
  /-- the `Close` calls in progress: the part of the slice they still have to visit -/
  closers : List (List Nat)
  /-- history -/
  log : List SockEv

/-- /repo/network/API.go:71-74 -/
def Sock.init : Sock := ⟨[], 0, fun _ => false, [], []⟩

/-- /repo/network/socket.go:21-94 -/
inductive SockAct where
  /-- a connection is made, by `Dial` (/repo/network/socket.go:74-81) or by the accept routine (lines 43-50):
  new peer, append, `OnConnected` -/
  | connect
  /-- a goroutine enters `Close`; `range s.peers` (line 90) evaluates the slice once -/
  | closeStart
  /-- the `j`-th `Close` call executes `peer.close()` for its next peer (/repo/network/peer.go:103-115); the
  call is atomic here because `close` holds the peer's lock -/
  | closeNext (j : Nat)
  /-- the `j`-th `Close` call has visited all its peers and executes `s.peers = nil` (line 93) -/
  | closeFinish (j : Nat)
  deriving DecidableEq, Repr

/-- One action.  The sink of the socket is not nil (`Dial` insists on it, /repo/network/socket.go:56-59). -/
def Sock.step (s : Sock) : SockAct → Option Sock
  | .connect => some { s with
      peers := s.peers ++ [s.made], made := s.made + 1, sink := upd s.sink s.made true,
      log := s.log ++ [.connected s.made] }
  | .closeStart => some { s with closers := s.closers ++ [s.peers] }
  | .closeNext j =>
    match s.closers[j]? with
    | some (p :: rest) =>
      if s.sink p then
        some { s with closers := s.closers.set j rest, sink := upd s.sink p false, log := s.log ++ [.closed p] }
      else some { s with closers := s.closers.set j rest }
    | _ => none
  | .closeFinish j =>
    match s.closers[j]? with
    | some [] => some { s with closers := s.closers.eraseIdx j, peers := [], log := s.log ++ [.closeReturned] }
    | _ => none

/-! ## One peer: the receive routine against `close` -/

/-- Where the receive routine is (/repo/network/peer.go:81-99). -/
inductive RecvPc (α : Type) where
  /-- reading or slicing (lines 82-92) -/
  | idle
  /-- after line 94 -/
  | have' (obj : α)
  /-- after the test of line 95 found a sink -/
  | checked (obj : α)
  /-- line 96 has loaded `p.sink` and is about to call `OnPacket` -/
  | loaded (obj : α)
  /-- left the loop because `Read` returned an error (lines 83-85) -/
  | stopped
  deriving DecidableEq, Repr

/-- Where a `close` call is, /repo/network/peer.go:103-115; the lock admits one at a time. -/
inductive ClosePc where
  | none
  /-- has the lock -/
  | locked
  /-- has called `OnClosed` -/
  | notified
  /-- has set `p.sink = nil`, or found it nil -/
  | cleared
  deriving DecidableEq, Repr

/-- History: the calls of the sink, /repo/network/peer.go:96 and 110. -/
inductive LifeEv (α : Type) where
  | onClosed
  | onPacket (obj : α)
  | closeReturned
  deriving DecidableEq, Repr

/-- A peer, /repo/network/peer.go:31-40, as far as its sink and its connection are concerned. -/
structure Life (α : Type) where
  sink : Bool
  recv : RecvPc α
  close : ClosePc
  panicked : Bool
  log : List (LifeEv α)
  deriving DecidableEq

/-- /repo/network/peer.go:18-29 -/
def Life.init (α : Type) : Life α := ⟨true, .idle, .none, false, []⟩

/-- /repo/network/peer.go:79-115 -/
inductive LifeAct (α : Type) where
  /-- the receive routine has unmarshalled an object -/
  | object (obj : α)
  /-- `Read` returned an error: the remote end disconnected, or `close` closed the connection -/
  | readError
  | check
  | load
  | call
  | closeLock
  | closeNotify
  | closeClear
  | closeConn
  deriving DecidableEq, Repr

/-- One action; nothing happens any more after a panic.  /repo/network/peer.go:79-115. -/
def Life.step {α : Type} (s : Life α) (a : LifeAct α) : Option (Life α) :=
  if s.panicked then none
  else
    match a, s.recv, s.close with
    | .object obj, .idle, _ => some { s with recv := .have' obj }
    | .readError, .idle, _ => some { s with recv := .stopped }
    | .check, .have' obj, _ => some { s with recv := if s.sink then .checked obj else .idle }
    | .load, .checked obj, _ =>
      -- calling a method on a nil interface panics
      if s.sink then some { s with recv := .loaded obj } else some { s with panicked := true }
    | .call, .loaded obj, _ => some { s with recv := .idle, log := s.log ++ [.onPacket obj] }
    | .closeLock, _, .none => some { s with close := .locked }
    | .closeNotify, _, .locked =>
      if s.sink then some { s with close := .notified, log := s.log ++ [.onClosed] }
      else some { s with close := .cleared }
    | .closeClear, _, .notified => some { s with close := .cleared, sink := false }
    | .closeConn, _, .cleared => some { s with close := .none, log := s.log ++ [.closeReturned] }
    | _, _, _ => none

end Verif.Net
