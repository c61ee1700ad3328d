import Verif.Race.Race

/-!
# Accesses of a dock and its slots to their data, /repo/dock.go:43-265, /repo/rpc.go:26-58, /repo/slot.go:41-51

Not included: `newDock`, which is over before anybody else knows the dock.  A goroutine started by a function is a
goroutine of its own, with a task of its own.  `commit` sends while it holds the mutex, which can block (C98); that is
left out.
-/

namespace Verif.Race

/-- Shared data of a dock.  /repo/dock.go:34-41. -/
inductive DockVar where
  /-- the maps and the slice of sockets, /repo/dock.go:36-40 -/
  | slots | remote | rpcs | sockets
  /-- the field `req` of a call -/
  | req (call : Nat)
  /-- the map `visiters` of a slot, /repo/slot.go:36 -/
  | visiters (slot : Nat)
  /-- the map `registry`, /repo/registry.go:7 -/
  | registry
  deriving DecidableEq, Repr

/-- `remoteSlotsMutex`, /repo/dock.go:38. -/
inductive DockMutex where
  | remote
  deriving DecidableEq, Repr

/-- What goroutines do.  /repo/dock.go:55-265 and /repo/slot.go:41-51. -/
inductive DockTask where
  /-- the goroutine started by `OnConnected`, /repo/dock.go:61-69: `collect` with this number of slots -/
  | announce (slots : Nat)
  /-- a ready packet, /repo/dock.go:82-93: for every name, the calls in the table, and if it is for the name, whether
  `commit` finds a peer -/
  | ready (names : List (List (Nat × Option Bool)))
  /-- a registration of another dock, /repo/dock.go:95-113 -/
  | registered (slots : Nat) (names : Nat)
  /-- the response of the hub to a registration, /repo/dock.go:115-132 -/
  | response (slots : Nat)
  /-- `start`, /repo/dock.go:218-222 -/
  | start (slots : Nat)
  /-- the response of the hub to a query, /repo/dock.go:134-140 -/
  | found
  /-- a call from another dock, /repo/dock.go:141-145 -/
  | request
  /-- the answer to a call, /repo/dock.go:176-180 -/
  | answer
  /-- the goroutine started by it, /repo/dock.go:181-193 -/
  | callback
  /-- `run`, /repo/dock.go:199-205 -/
  | run
  /-- a call by a feature, /repo/dock.go:224-244: of a feature of this dock -/
  | inside
  /-- of another feature; does `commit` find a peer? -/
  | outside (call : Nat) (peer : Bool)
  /-- `Visit`, /repo/slot.go:41-51: is the visitor there already, and if not, is there a maker? -/
  | visit (slot : Nat) (there : Bool) (maker : Bool)
  /-- `Close` with these numbers of slots and sockets, /repo/dock.go:43-53 -/
  | close (slots sockets : Nat)
  /-- `Register`, /repo/ferry.go:57-60 and /repo/registry.go:9-11 -/
  | register

/-- `collect`, /repo/dock.go:207-216: the map is accessed for each entry and at the end. -/
def collectOps (slots : Nat) : List (Op DockVar DockMutex) := times (slots + 1) (access .slots false)

/-- `commit`, /repo/dock.go:246-265. -/
def commitOps (call : Nat) (peer : Bool) : List (Op DockVar DockMutex) :=
  .lock .remote :: (access (.req call) false ++ (access .remote false ++ (access (.req call) false ++
    (access (if peer then .req call else .sockets) peer ++ [.unlock .remote]))))

/-- The inner loop of a ready packet, /repo/dock.go:87-91. -/
def awaitedOps (calls : List (Nat × Option Bool)) : List (Op DockVar DockMutex) :=
  (calls.map fun p => access .rpcs false ++ (times 2 (access (.req p.1) false) ++ match p.2 with
    | none => []
    | some peer => commitOps p.1 peer)).flatten ++ access .rpcs false

/-- /repo/dock.go:55-265 and /repo/slot.go:41-51 -/
def DockTask.ops : DockTask → List (Op DockVar DockMutex)
  | .announce n => collectOps n
  | .ready names => (names.map awaitedOps).flatten
  | .registered n names => collectOps n ++ times names (.lock .remote :: (access .remote true ++ [.unlock .remote]))
  | .response n => access .sockets true ++ collectOps n
  | .start n => collectOps n
  | .found => access .sockets true
  | .request => access .slots false
  | .answer => access .rpcs false
  | .callback => access .rpcs true
  | .run => access .sockets true
  | .inside => access .slots false
  | .outside call peer => access .slots false ++ (access .rpcs true ++ (access (.req call) true ++ commitOps call peer))
  | .visit s there maker => access (.visiters s) false ++ if there then [] else access .registry false ++
      if maker then access (.visiters s) true else []
  | .close n k => collectOps n ++ (access .slots true ++ (times (k + 1) (access .sockets false) ++ access .sockets true))
  | .register => access .registry true

/-- What a goroutine does that has these tasks one after the other.  /repo/dock.go:55-265. -/
def dockProg (tasks : List DockTask) : List (Op DockVar DockMutex) := (tasks.map DockTask.ops).flatten

end Verif.Race
