import Verif.Trans

/-!
# Model of the tables of serializers and networks: /repo/network/API.go:66-93, /repo/network/inet.go:17-45

The functions are meant to be called one after the other; the tables are not synchronised.
-/

namespace Verif.Net.Tables

open Verif

/-- What makes connections: `netTcp` (/repo/network/inet.go:47-56) or `netMockTcp` (/repo/network/mock.go:16-18). -/
inductive Maker where
  | tcp
  | mock
  deriving DecidableEq, Repr

/-- The global variables; `σ` stands for serializers.  /repo/network/inet.go:41-45 and /repo/network/API.go:90-93. -/
structure State (σ : Type) where
  /-- `serializers`, /repo/network/API.go:91; a missing entry reads as nil -/
  serializers : String → Option σ
  /-- `once` has been used, /repo/network/API.go:92 -/
  done : Bool
  /-- `makers`, /repo/network/inet.go:41-45 -/
  makers : String → Option Maker
  /-- history: the serializers of the sockets made, /repo/network/API.go:73 -/
  sockets : List (Option σ)
  /-- history: how often the tables of the mock were reset -/
  resets : Nat

/-- /repo/network/inet.go:41-45, /repo/network/API.go:91-92. -/
def State.init (σ : Type) : State σ := ⟨fun _ => none, false, upd (fun _ => none) "tcp" (some .tcp), [], 0⟩

/-- `ExtendSerializer`, /repo/network/API.go:86-88; `none` is nil. -/
def State.extend {σ : Type} (s : State σ) (name : String) (x : Option σ) : State σ :=
  { s with serializers := upd s.serializers name x }

/-- `NewSocket`, /repo/network/API.go:67-77; `txt` is the `txtSerializer`. -/
def State.newSocket {σ : Type} (txt : σ) (s : State σ) (serializer : String) : State σ :=
  let s := if s.done then s else { s.extend "txt" (some txt) with done := true }
  { s with sockets := s.sockets ++ [s.serializers serializer] }

/-- `bind`, /repo/network/inet.go:17-24, with a maker that is not nil; `false` if it returns an error. -/
def State.bind {σ : Type} (s : State σ) (network : String) (m : Maker) : State σ × Bool :=
  if network = "" then (s, false) else ({ s with makers := upd s.makers network (some m) }, true)

/-- `Mock`, /repo/network/API.go:80-83; the error of `bind` is ignored. -/
def State.mock {σ : Type} (s : State σ) (network : String) : State σ :=
  (({ s with resets := s.resets + 1 }).bind network .mock).1

/-- `makeNet`, /repo/network/inet.go:28-39; `none` if it returns an error. -/
def State.makeNet {σ : Type} (s : State σ) (network : String) : Option Maker :=
  if network = "" then none else s.makers network

/-- The calls of a program that uses the package.  /repo/network/API.go:67-88 and /repo/network/inet.go:17-39. -/
inductive Op (σ : Type) where
  | extend (name : String) (x : Option σ)
  | newSocket (serializer : String)
  | mock (network : String)

/-- /repo/network/API.go:67-88 and /repo/network/inet.go:17-39 -/
def State.exec {σ : Type} (txt : σ) (s : State σ) : Op σ → State σ
  | .extend n x => s.extend n x
  | .newSocket n => s.newSocket txt n
  | .mock n => s.mock n

/-- `Listen` and `Dial` of a socket get their network with `makeNet("tcp")` (/repo/network/socket.go:23 and 62) and end
the process if it fails. -/
def State.socketNet {σ : Type} (s : State σ) : Option Maker := s.makeNet "tcp"

end Verif.Net.Tables
