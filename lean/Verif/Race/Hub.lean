import Verif.Race.Race

/-!
# Accesses of a hub to its data, /repo/hub.go:45-51 and 61-169

Not included: `run`, which writes `blackPorts` before the hub listens and so before any packet can arrive, lines 134-142.  The fields of a stub other than `ready` are never changed.
-/

namespace Verif.Race

/-- Shared data of a hub.  /repo/hub.go:30-43. -/
inductive HubVar where
  /-- the maps, /repo/hub.go:33-36 -/
  | docks | ports | black
  /-- the list of stubs of a name -/
  | list (name : Nat)
  /-- `ready` of the stubs in it -/
  | flag (name : Nat)
  deriving DecidableEq, Repr

/-- `docksMutex` and `assignPortsMutex`, /repo/hub.go:32-34. -/
inductive HubMutex where
  | docks | ports
  deriving DecidableEq, Repr

/-- Handling of one packet, or the goroutine of one query.  /repo/hub.go:61-132. -/
inductive HubTask where
  /-- a registration: how often the loop of `allocate` is repeated; for every name, is there no list of it yet? -/
  | register (again : Nat) (names : List (Nat × Bool))
  /-- a ready packet: for every name, if there is a list of it, how many stubs are passed over and is one found? -/
  | ready (names : List (Nat × Option (Nat × Bool)))
  /-- a query: in every round, if there is a list of the name, how many stubs are looked at? -/
  | query (name : Nat) (rounds : List (Option Nat))
  /-- `Close`, /repo/hub.go:45-51 -/
  | close

/-- `allocate`, /repo/hub.go:145-169. -/
def allocateOps (again : Nat) : List (Op HubVar HubMutex) :=
  .lock .ports :: (access .ports false ++ (times (again + 1) (access .black false) ++ (access .ports true ++ [.unlock .ports])))

/-- One name of a registration, /repo/hub.go:73-80. -/
def addOps (name : Nat) (missing : Bool) : List (Op HubVar HubMutex) :=
  .lock .docks :: (access .docks false ++ (times (if missing then 1 else 0) (access .docks true) ++
    (access (.list name) true ++ [.unlock .docks])))

/-- `stubs, ok := h.docks[slot]` with its lock, /repo/hub.go:95-97 and 114-116. -/
def findOps : List (Op HubVar HubMutex) := .lock .docks :: (access .docks false ++ [.unlock .docks])

/-- One name of a ready packet, /repo/hub.go:94-107. -/
def markOps (name : Nat) (found : Option (Nat × Bool)) : List (Op HubVar HubMutex) := findOps ++ match found with
  | none => []
  | some (passed, hit) => times (passed + 1) (access (.list name) false) ++ if hit then access (.flag name) true else []

/-- One round of a query, /repo/hub.go:114-127. -/
def roundOps (name : Nat) (found : Option Nat) : List (Op HubVar HubMutex) := findOps ++ match found with
  | none => []
  | some looked => times looked (access (.list name) false ++ access (.flag name) false)

/-- The accesses of a task.  /repo/hub.go:61-132. -/
def HubTask.ops : HubTask → List (Op HubVar HubMutex)
  | .register again names => allocateOps again ++ (names.map fun p => addOps p.1 p.2).flatten
  | .ready names => (names.map fun p => markOps p.1 p.2).flatten
  | .query name rounds => (rounds.map (roundOps name)).flatten
  | .close => access .docks true ++ (access .ports true ++ access .black true)

/-- What a goroutine does that handles these one after the other.  /repo/network/peer.go:88-98 calls
/repo/hub.go:61-132. -/
def hubProg (tasks : List HubTask) : List (Op HubVar HubMutex) := (tasks.map HubTask.ops).flatten

end Verif.Race
