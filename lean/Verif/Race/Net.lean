import Verif.Race.Race

/-!
# Accesses to the data of package network, /repo/network/{API,inet,mock,peer,socket}.go

Not included: `Mock` and `bind`, which replace entries of `makers` (for tests, before anything else).
-/

namespace Verif.Race

/-- Shared data of the package.  /repo/network/API.go:90-93, /repo/network/inet.go:41, /repo/network/mock.go:20-24,
/repo/network/socket.go:12-19 and /repo/network/peer.go:31-40. -/
inductive NetVar where
  /-- the map `serializers`, /repo/network/API.go:91 -/
  | serializers
  /-- the map `makers`, /repo/network/inet.go:41 -/
  | makers
  /-- the map `listeners` and the counter `vport` of the mock, /repo/network/mock.go:22-23 -/
  | listeners | vport
  /-- the slice `peers` of a socket, /repo/network/socket.go:18 -/
  | peers (socket : Nat)
  /-- the field `sink` of a peer, /repo/network/peer.go:35 -/
  | sink (peer : Nat)
  deriving DecidableEq, Repr

/-- `listenersMutex`, /repo/network/mock.go:21, and the mutex of a peer, /repo/network/peer.go:32. -/
inductive NetMutex where
  | listeners
  | peer (p : Nat)
  deriving DecidableEq, Repr

/-- /repo/network/API.go:67-88, /repo/network/mock.go:29-90, /repo/network/socket.go:21-100 and
/repo/network/peer.go:62-115 -/
inductive NetTask where
  /-- `ExtendSerializer`, /repo/network/API.go:86-88 -/
  | extend
  /-- `NewSocket`, /repo/network/API.go:68-77 (`once.Do` has been done) -/
  | newSocket
  /-- `Listen` of a socket, /repo/network/socket.go:21-33, with `Listen` of the mock, /repo/network/mock.go:29-44, or without -/
  | listen (mock : Bool)
  /-- one connection in the goroutine started by it, /repo/network/socket.go:36-50 -/
  | accept (socket : Nat)
  /-- `Dial` of a socket, /repo/network/socket.go:55-81 -/
  | dial (socket : Nat)
  /-- the goroutine of `Dial` of the mock, /repo/network/mock.go:49-74: how often the listener was not there -/
  | dialMock (tries : Nat)
  /-- `Close` of a socket with these peers, /repo/network/socket.go:84-94 and /repo/network/peer.go:103-115 -/
  | close (socket : Nat) (peers : List Nat)
  /-- `Send` of a socket with this number of peers, /repo/network/socket.go:96-100 -/
  | send (socket : Nat)
  /-- a packet arrives at a peer, /repo/network/peer.go:95-97 -/
  | packet (peer : Nat)

/-- `close` of a peer, /repo/network/peer.go:103-115. -/
def closePeerOps (p : Nat) : List (Op NetVar NetMutex) :=
  .lock (.peer p) :: (access (.sink p) false ++ (access (.sink p) true ++ [.unlock (.peer p)]))

/-- The accesses of a task, in the order of the lines cited at `NetTask`: /repo/network/API.go:67-88,
/repo/network/mock.go:29-90, /repo/network/socket.go:21-100 and /repo/network/peer.go:62-115 -/
def NetTask.ops : NetTask → List (Op NetVar NetMutex)
  | .extend => access .serializers true
  | .newSocket => access .serializers false
  | .listen mock => access .makers false ++ if mock then .lock .listeners :: (access .listeners true ++ [.unlock .listeners]) else []
  | .accept s => access (.peers s) true
  | .dial s => access .makers false ++ access (.peers s) true
  | .dialMock tries => times (tries + 1) (access .listeners false) ++ access .vport true
  | .close s ps => access (.peers s) false ++ ((ps.map closePeerOps).flatten ++ access (.peers s) true)
  | .send s => access (.peers s) false
  | .packet p => times 2 (access (.sink p) false)

/-- What a goroutine does that has these tasks one after the other: /repo/network/API.go:67-88,
/repo/network/socket.go:21-100. -/
def netProg (tasks : List NetTask) : List (Op NetVar NetMutex) := (tasks.map NetTask.ops).flatten

end Verif.Race
