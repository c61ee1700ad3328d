import Verif.Race.Race

/-!
# Accesses to the data of package chancall, /repo/chancall/{callee,meta,data}.go

Not included: `NewCallee`, which is over before anybody else knows the callee.  The map `functions` is never used.
The response is sent while the mutex of the request is held, which does not block: the channel holds one response, and
`done` admits one.
-/

namespace Verif.Race

/-- Shared data of the package: /repo/chancall/meta.go:20-29 and /repo/chancall/data.go:11-17. -/
inductive ChanVar where
  /-- the map `funcs` of a callee, /repo/chancall/meta.go:22 -/
  | funcs (callee : Nat)
  /-- the field `timeout` of a method, /repo/chancall/meta.go:28 -/
  | timeout (callee : Nat) (method : Nat)
  /-- the field `done` of a request, /repo/chancall/data.go:16 -/
  | done (request : Nat)
  deriving DecidableEq, Repr

/-- The mutex of a request, /repo/chancall/data.go:12. -/
structure ChanMutex where
  request : Nat
  deriving DecidableEq, Repr

/-- /repo/chancall/callee.go:22-78 and /repo/chancall/meta.go:44-78 -/
inductive ChanTask where
  /-- `SetTimeout`, /repo/chancall/callee.go:22-24 and /repo/chancall/meta.go:73-78: does the method exist? -/
  | setTimeout (callee method : Nat) (there : Bool)
  /-- `process`, /repo/chancall/callee.go:35-39: does the method exist, and is the request not done yet? -/
  | process (callee method request : Nat) (there first : Bool)
  /-- the goroutine of `track`, /repo/chancall/callee.go:64-77: is the request not done yet? -/
  | track (request : Nat) (first : Bool)

/-- `request.Lock()` to `request.Unlock()`, /repo/chancall/callee.go:52-59 and 66-76. -/
def finishOps (request : Nat) (first : Bool) : List (Op ChanVar ChanMutex) :=
  .lock ⟨request⟩ :: (access (.done request) false ++ (times (if first then 1 else 0) (access (.done request) true) ++
    [.unlock ⟨request⟩]))

/-- /repo/chancall/callee.go:22-78 and /repo/chancall/meta.go:44-78 -/
def ChanTask.ops : ChanTask → List (Op ChanVar ChanMutex)
  | .setTimeout c m there => access (.funcs c) false ++ if there then access (.timeout c m) true else []
  | .process c m r there first => access (.funcs c) false ++ ((if there then access (.timeout c m) false else []) ++
      (access (.funcs c) false ++ finishOps r first))
  | .track r first => finishOps r first

/-- What a goroutine does that has these tasks one after the other, for example /repo/chancall/callee.go:26-33. -/
def chanProg (tasks : List ChanTask) : List (Op ChanVar ChanMutex) := (tasks.map ChanTask.ops).flatten

end Verif.Race
