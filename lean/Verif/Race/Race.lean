import Verif.Trans

/-!
# Accesses to shared data

Go maps, slices and lists are not safe for concurrent use: if one goroutine writes while another one reads or writes, the
result is undefined, and for maps the runtime may end the process ("concurrent map writes").  The other models take such
accesses to be atomic.  Here they have a beginning and an end, and all that is kept of a goroutine is the sequence of its
accesses and of its operations on mutexes.  The sequences that the functions of /repo can produce are in `Race/Hub`,
`Race/Dock`, `Race/Net` and `Race/Chan`; where the code branches on data, both branches are possible.

`sync.Mutex.Lock` waits until the mutex is free.  `Unlock` frees it (in /repo only its owner calls it).
-/

namespace Verif.Race

open Verif

variable {V M : Type}

/-- Used for the lines cited in `Race/Hub`, `Race/Dock`, `Race/Net` and `Race/Chan`: for example `lock` for
/repo/hub.go:73, `unlock` for line 80, an access for line 74. -/
inductive Op (V M : Type) where
  | lock (m : M)
  | unlock (m : M)
  /-- an access begins -/
  | enter (x : V) (write : Bool)
  /-- and ends -/
  | leave
  deriving DecidableEq, Repr

/-- Goroutines at the operations above, for example of /repo/hub.go:73-80. -/
structure State (V M : Type) where
  /-- what each goroutine has still to do -/
  rest : Nat → List (Op V M)
  /-- the access that each goroutine is in the middle of -/
  acc : Nat → Option (V × Bool)
  /-- owner of each mutex -/
  owner : M → Option Nat

/-- All goroutines at their beginning.  For example before /repo/hub.go:73. -/
def State.init (prog : Nat → List (Op V M)) : State V M := ⟨prog, fun _ => none, fun _ => none⟩

/-- A step of goroutine `i`.  For example /repo/hub.go:73. -/
def State.step [DecidableEq M] (s : State V M) (i : Nat) : Option (State V M) := match s.rest i with
  | [] => none
  | .lock m :: r => match s.owner m with
    | none => some { s with rest := upd s.rest i r, owner := upd s.owner m (some i) }
    | some _ => none
  | .unlock m :: r => some { s with rest := upd s.rest i r, owner := upd s.owner m none }
  | .enter x w :: r => some { s with rest := upd s.rest i r, acc := upd s.acc i (some (x, w)) }
  | .leave :: r => some { s with rest := upd s.rest i r, acc := upd s.acc i none }

/-- Two goroutines access the same data at the same time and one of them writes.  For example /repo/hub.go:102 and
122. -/
def Conflict (s : State V M) (x : V) : Prop :=
  ∃ i j w, i ≠ j ∧ s.acc i = some (x, true) ∧ s.acc j = some (x, w)

/-- An access as a whole.  For example /repo/hub.go:74. -/
def access (x : V) (write : Bool) : List (Op V M) := [.enter x write, .leave]

/-- `n` times the same.  For the loops, for example /repo/hub.go:99-105. -/
def times (n : Nat) (l : List (Op V M)) : List (Op V M) := (List.replicate n l).flatten

end Verif.Race
