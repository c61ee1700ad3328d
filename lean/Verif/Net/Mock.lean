import Verif.Trans
import Verif.Text

/-!
# Model of /repo/network/mock.go
-/

namespace Verif.Net.Mock

open Verif

/-! ## One direction of a mock connection -/

/-- The channel `chanbuf` of the reading end, of capacity 1 (/repo/network/mock.go:138).  Simplified: `Write` hands
over the caller's slice, here a value, so later changes of the slice by the writer are not seen. -/
structure Pipe where
  /-- contents of the channel; `some none` is the nil slice that `Close` writes -/
  chan : Option (Option (List Byte))
  /-- `Close` was called by the writing end, which sets `peer = nil` -/
  closed : Bool
  /-- `Read` has returned an error -/
  ended : Bool
  /-- history: all bytes given to `Write` calls that returned no error -/
  written : List Byte
  /-- history: all bytes returned by `Read` -/
  out : List Byte
  deriving DecidableEq

/-- /repo/network/mock.go:133-141 -/
def Pipe.init : Pipe := ⟨none, false, false, [], []⟩

/-- /repo/network/mock.go:151-173 -/
inductive PipeAct where
  /-- `Write`, /repo/network/mock.go:160-167, with a slice that is not nil -/
  | write (b : List Byte)
  /-- `Read` with a buffer of `n` bytes, lines 151-158 -/
  | read (n : Nat)
  /-- `Close`, lines 169-173 -/
  | close
  deriving DecidableEq

/-- One action; an action that would block is not enabled.  /repo/network/mock.go:151-173. -/
def Pipe.step (p : Pipe) : PipeAct → Option Pipe
  | .write b =>
    if p.closed then some p   -- returns the error "Conn is nil!"
    else
      match p.chan with
      | none => some { p with chan := some (some b), written := p.written ++ b }
      | some _ => none
  | .read n =>
    match p.chan with
    | none => none
    | some none => some { p with chan := none, ended := true }
    -- `copy(b, bytes)` copies what fits; the rest of `bytes` is dropped
    | some (some b) => some { p with chan := none, out := p.out ++ b.take n }
  | .close =>
    if p.closed then some p
    else
      match p.chan with
      | none => some { p with chan := some none, closed := true }
      | some _ => none

/-! ## Listening and dialling -/

/-- `formatAddr`, /repo/network/mock.go:92-95: "0.0.0.0:" and the last segment. -/
def anyHost : Str := [48, 46, 48, 46, 48, 46, 48, 58]

/-- /repo/network/mock.go:92-95 -/
def formatAddr (a : Str) : Str := anyHost ++ lastSegment a

/-- Progress of the dialling routine, /repo/network/mock.go:49-75. -/
inductive Stage where
  /-- waiting for a listener (lines 53-55) -/
  | polling
  /-- after `vport += 1` (line 56), with the listener found -/
  | bumped (l : Nat)
  /-- after lines 57-60 -/
  | named (l : Nat)
  /-- after line 61 -/
  | pushed
  deriving DecidableEq

/-- Progress of the dialling routine after line 61, and of `Dial` itself (lines 63-82). -/
inductive Wait where
  /-- in the loop -/
  | waiting
  /-- line 65 has found the time elapsed -/
  | expired
  /-- has left the loop -/
  | leaving
  /-- `Dial` has returned; `true` if without error -/
  | returned (ok : Bool)
  deriving DecidableEq

/-- `conn`, /repo/network/mock.go:143-149, without its channel.  Addresses are values here; they are shared
pointers in the code but are not changed after they are shared. -/
structure Conn where
  /-- the address given to `Dial`; `none` for a connection made by `Accept` -/
  dialled : Option Str
  stage : Stage
  wait : Wait
  status : Int
  localAddr : Str
  remoteAddr : Str
  peer : Option Nat
  deriving DecidableEq

/-- The mock network, /repo/network/mock.go:20-24, with its listeners, lines 97-101, and connections, lines 143-149. -/
structure Net where
  conns : Nat → Conn
  nConns : Nat
  /-- the global map `listeners` -/
  listeners : Str → Option Nat
  /-- the address of each listener made -/
  lAddr : Nat → Str
  /-- `chanconn` of each listener, capacity 1 (line 36); `some none` is the nil that `Close` sends -/
  lChan : Nat → Option (Option Nat)
  /-- the routine that calls `Accept` (/repo/network/socket.go:36-52) is running -/
  accepting : Nat → Bool
  /-- that routine is before line 117 -/
  recording : Nat → Bool
  /-- the number of `Close` calls of a listener that are before line 124 -/
  closing : Nat → Nat
  /-- the map `conns` of a listener is not nil -/
  hasMap : Nat → Bool
  /-- a goroutine has panicked, the process is gone -/
  dead : Bool
  nListeners : Nat
  vport : Nat

/-- `newConn`, /repo/network/mock.go:133-141. -/
def noConn : Conn := ⟨none, .polling, .waiting, 0, [], [], none⟩

/-- Lines 20-24. -/
def Net.init : Net := ⟨fun _ => noConn, 0, fun _ => none, fun _ => [], fun _ => none, fun _ => false, fun _ => false, fun _ => 0, fun _ => true, false,
  0, 65536⟩

/-- /repo/network/mock.go:29-127 and 169-173 -/
inductive Act where
  | listen (a : Str)
  | dial (a : Str)
  | bump (i : Nat)
  | name (i : Nat)
  | push (i : Nat)
  | accept (l : Nat)
  /-- the end of `Accept` (line 117) -/
  | record (l : Nat)
  /-- the dialling routine sees that it was accepted (lines 63-64) -/
  | see (i : Nat)
  /-- the dialling routine finds that its time has elapsed (line 65) -/
  | expire (i : Nat)
  /-- the dialling routine sets the status to -1 (lines 66-67) -/
  | giveUp (i : Nat)
  /-- the dialling routine reads the status again and `Dial` returns (lines 74-82) -/
  | ret (i : Nat)
  /-- `Close` of a listener sends nil (line 123) -/
  | lclose (l : Nat)
  /-- `Close` of a listener drops the map (line 124) -/
  | lclear (l : Nat)
  | reset
  deriving DecidableEq

/-- One action.  Of the `conns` map of a listener, which nothing reads, only whether it is nil is modelled.  Time is not modelled either: the time of a
dialling routine elapses at any moment.  /repo/network/mock.go:29-127 and 169-173. -/
def Net.step (s : Net) (a : Act) : Option Net := if s.dead then none else match a with
  -- lines 29-44
  | .listen a => some { s with
      listeners := upd s.listeners (formatAddr a) (some s.nListeners)
      lAddr := upd s.lAddr s.nListeners (formatAddr a)
      accepting := upd s.accepting s.nListeners true
      nListeners := s.nListeners + 1 }
  -- lines 46-50
  | .dial a => some { s with
      conns := upd s.conns s.nConns { noConn with dialled := some a }, nConns := s.nConns + 1 }
  -- lines 53-56
  | .bump i =>
    match (s.conns i).dialled, (s.conns i).stage with
    | some a, .polling =>
      match s.listeners (formatAddr a) with
      | some l => some { s with conns := upd s.conns i { s.conns i with stage := .bumped l }, vport := s.vport + 1 }
      | none => none
    | _, _ => none
  -- lines 57-60
  | .name i =>
    match (s.conns i).stage with
    | .bumped l => some { s with conns := upd s.conns i { s.conns i with
        stage := .named l, status := 1, localAddr := anyHost ++ decimal s.vport, remoteAddr := s.lAddr l } }
    | _ => none
  -- line 61
  | .push i =>
    match (s.conns i).stage with
    | .named l =>
      match s.lChan l with
      | none => some { s with
          conns := upd s.conns i { s.conns i with stage := .pushed }, lChan := upd s.lChan l (some (some i)) }
      | some _ => none
    | _ => none
  -- lines 103-116, called by /repo/network/socket.go:38, which stops after an error
  | .accept l =>
    if s.accepting l && !s.recording l then
      match s.lChan l with
      | some (some i) => some { s with
          conns := upd (upd s.conns i { s.conns i with peer := some s.nConns, status := 2 }) s.nConns
            { noConn with localAddr := s.lAddr l, remoteAddr := (s.conns i).localAddr, peer := some i }
          nConns := s.nConns + 1
          lChan := upd s.lChan l none
          recording := upd s.recording l true }
      | some none => some { s with lChan := upd s.lChan l none, accepting := upd s.accepting l false }
      | none => none
    else none
  -- an assignment to an entry of a nil map panics
  | .record l =>
    if s.recording l then
      if s.hasMap l then some { s with recording := upd s.recording l false } else some { s with dead := true }
    else none
  | .see i =>
    match (s.conns i).stage, (s.conns i).wait with
    | .pushed, .waiting => if (s.conns i).status = 2 then
        some { s with conns := upd s.conns i { s.conns i with wait := .leaving } } else none
    | _, _ => none
  | .expire i =>
    match (s.conns i).stage, (s.conns i).wait with
    | .pushed, .waiting => if (s.conns i).status = 1 then
        some { s with conns := upd s.conns i { s.conns i with wait := .expired } } else none
    | _, _ => none
  | .giveUp i =>
    match (s.conns i).wait with
    | .expired => some { s with conns := upd s.conns i { s.conns i with status := -1, wait := .leaving } }
    | _ => none
  | .ret i =>
    match (s.conns i).wait with
    | .leaving => some { s with
        conns := upd s.conns i { s.conns i with wait := .returned (decide ((s.conns i).status = 2)) } }
    | _ => none
  -- blocks while the channel is full
  | .lclose l =>
    if l < s.nListeners then
      match s.lChan l with
      | none => some { s with lChan := upd s.lChan l (some none), closing := upd s.closing l (s.closing l + 1) }
      | some _ => none
    else none
  | .lclear l =>
    if 0 < s.closing l then
      some { s with closing := upd s.closing l (s.closing l - 1), hasMap := upd s.hasMap l false }
    else none
  -- lines 85-90
  | .reset => some { s with listeners := fun _ => none, vport := 65535 }

end Verif.Net.Mock
