import Verif.Trans
import Verif.Codec.Value

/-!
# Model of /repo/chancall: callers, callees, timers

Any number of callees and caller objects, and one goroutine per call.  A call made by the body of a running
method has that method's request as `parent`; the body waits for it.  Fields marked "history" are not in the code.
-/

namespace Verif.Chan

open Verif

/-- What invoking a method by name does, /repo/chancall/meta.go:44-62. -/
inductive Invoke where
  /-- the target has no such method: `call` returns nil (line 61) -/
  | unknown
  /-- converting the arguments or calling panics (lines 49, 51) -/
  | panics
  /-- the method body runs -/
  | runs
  deriving DecidableEq, Repr

/-- The target object of a callee.  /repo/chancall/meta.go:20-29. -/
structure Target where
  /-- the method set, /repo/chancall/meta.go:31-42 -/
  known : Str → Bool
  /-- the arguments cannot be passed to the method -/
  bad : Str → List Codec.Val → Bool

/-- /repo/chancall/meta.go:44-62 -/
def Target.invoke (t : Target) (m : Str) (args : List Codec.Val) : Invoke :=
  if t.known m then (if t.bad m args then .panics else .runs) else .unknown

/-- `callResponse`, /repo/chancall/data.go:19-22: a result (nil or a list) without error, or the timeout error. -/
inductive Ans where
  | ok (result : Option (List Codec.Val))
  | timeout

/-- `callRequest`, /repo/chancall/data.go:11-17, as far as it does not change. -/
structure Req where
  callee : Nat
  caller : Nat
  meth : Str
  args : List Codec.Val
  parent : Option Nat
  /-- history: the time of the call -/
  calledAt : Nat

/-- The goroutine started by `track`, /repo/chancall/callee.go:63-78. -/
inductive Timer where
  | none
  /-- in `time.Sleep` until the given time -/
  | sleeping (until' : Nat)
  /-- before `request.Lock` -/
  | woken
  /-- has set `done` and is sending the response, holding the lock -/
  | sending
  | over
  deriving DecidableEq

/-- The goroutine of a callee, /repo/chancall/callee.go:26-61. -/
inductive Handler where
  | idle
  /-- the body of the method is running -/
  | running (i : Nat)
  /-- `meta.call` has returned (line 37) -/
  | returned (i : Nat) (res : Option (List Codec.Val))
  /-- has set `done` and is sending the response, holding the lock (lines 54-56) -/
  | sending (i : Nat) (res : Option (List Codec.Val))

/-- What the handler of a callee does.  /repo/chancall/callee.go:35-39. -/
inductive HEv where
  | started (i : Nat)
  | finished (i : Nat)
  deriving DecidableEq, Repr

/-- Capacity of `callRequest`, /repo/chancall/API.go:29. -/
def cQueue : Nat := 2

/-- `cDefaultTimeout`, /repo/chancall/meta.go:80-82: the float32 1.0. -/
def cDefaultTimeout : BitVec 32 := 0x3f800000

/-- Nanoseconds in a second, `time.Second`.  As in /repo/chancall/callee.go:65. -/
def second : Nat := 1000000000

/-- The integer part of the absolute value of a finite float32: 24 bits of mantissa shifted by the exponent.  For the
conversion of /repo/chancall/callee.go:65. -/
def truncate (t : BitVec 32) : Nat :=
  let e := (t.toNat / 2 ^ 23) % 256
  let m := 2 ^ 23 + t.toNat % 2 ^ 23
  if e < 127 then 0
  else if e < 150 then m / 2 ^ (150 - e)
  else m * 2 ^ (e - 150)

/-- `time.Duration(timeout)`, the conversion of a float32 to an int64.  For values that do not fit (also the
infinities and NaN) the result is implementation specific; this is what amd64 gives.  /repo/chancall/callee.go:65. -/
def toInt64 (t : BitVec 32) : Int :=
  if truncate t < 2 ^ 63 then (if 2 ^ 31 ≤ t.toNat then - (truncate t : Int) else truncate t) else - 2 ^ 63

/-- `time.Duration(timeout) * time.Second` in nanoseconds, /repo/chancall/callee.go:65: the product wraps around in
64 bits; `time.Sleep` returns immediately for negative durations. -/
def sleepTime (t : BitVec 32) : Nat := ((toInt64 t * second).bmod (2 ^ 64)).toNat

/-- Callees, caller objects and requests: /repo/chancall/callee.go:12-16, /repo/chancall/caller.go:11-14 and
/repo/chancall/data.go:11-22; all of them are numbered. -/
structure State where
  /-- number of requests created -/
  n : Nat
  req : Nat → Req
  /-- the request has entered the queue of its callee -/
  pushed : Nat → Bool
  /-- `request.done` -/
  done : Nat → Bool
  /-- the request's mutex is held across a channel send -/
  lock : Nat → Bool
  timer : Nat → Timer
  /-- by callee: `callRequest` -/
  queue : Nat → List Nat
  handler : Nat → Handler
  /-- by caller object: `callResponse`, capacity 1 (/repo/chancall/API.go:40), with the request answered -/
  chan : Nat → Option (Nat × Ans)
  /-- what the call returned, with the request answered -/
  result : Nat → Option (Nat × Ans)
  /-- the call that the body of this request's method is waiting for -/
  waits : Nat → Option Nat
  /-- by callee and known method: `fcall.timeout` -/
  timeouts : Nat → Str → Option (BitVec 32)
  clock : Nat
  dead : Bool
  /-- history: the time at which the method was started, and the timeout then in force -/
  startedAt : Nat → Option (Nat × BitVec 32)
  /-- history: what `meta.call` returned for the request -/
  ret : Nat → Option (Option (List Codec.Val))
  /-- history: by callee, the requests in the order in which they entered the queue -/
  entered : Nat → List Nat
  /-- history: by callee -/
  log : Nat → List HEv
  /-- history: the responses, in the order in which requests were settled, with the time -/
  answers : List (Nat × Ans × Nat)

/-- A request number that is not used; /repo/chancall/data.go:11-17. -/
def noReq : Req := ⟨0, 0, [], [], none, 0⟩

/-- /repo/chancall/API.go:26-43: the callees are there from the beginning, and so are, without any effect, the caller
objects. -/
def State.init (T : Nat → Target) : State where
  n := 0
  req := fun _ => noReq
  pushed := fun _ => false
  done := fun _ => false
  lock := fun _ => false
  timer := fun _ => .none
  queue := fun _ => []
  handler := fun _ => .idle
  chan := fun _ => none
  result := fun _ => none
  waits := fun _ => none
  timeouts := fun c m => if (T c).known m then some cDefaultTimeout else none
  clock := 0
  dead := false
  startedAt := fun _ => none
  ret := fun _ => none
  entered := fun _ => []
  log := fun _ => []
  answers := []

/-- `meta.timeout`, /repo/chancall/meta.go:64-71 -/
def State.timeoutOf (s : State) (c : Nat) (m : Str) : BitVec 32 := (s.timeouts c m).getD cDefaultTimeout

/-- The steps of the goroutines, /repo/chancall/callee.go:22-78 and /repo/chancall/caller.go:16-64. -/
inductive Act where
  /-- a goroutine calls `Call` or `CallWithResult` on a caller object, /repo/chancall/caller.go:16-44 -/
  | call (callee caller : Nat) (meth : Str) (args : List Codec.Val) (parent : Option Nat)
  /-- the request enters the queue, /repo/chancall/caller.go:54 -/
  | push (i : Nat)
  /-- the handler takes the next request, starts its timer and invokes the method,
  /repo/chancall/callee.go:28, 36-37 -/
  | start (c : Nat)
  /-- the method body returns -/
  | ret (c : Nat) (res : List Codec.Val)
  /-- the handler locks the request and looks at `done`, lines 52-55 -/
  | settleH (c : Nat)
  /-- the handler's channel send of line 56 completes -/
  | deliverH (c : Nat)
  /-- `time.Sleep` returns, line 65 -/
  | wake (i : Nat)
  /-- the timer locks the request and looks at `done`, lines 66-69 -/
  | settleT (i : Nat)
  /-- the timer's channel send of line 70 completes -/
  | deliverT (i : Nat)
  /-- the calling goroutine receives from the response channel, /repo/chancall/caller.go:27, 42 -/
  | receive (i : Nat)
  /-- /repo/chancall/meta.go:73-78 -/
  | setTimeout (c : Nat) (m : Str) (t : BitVec 32)
  | tick

section
variable (T : Nat → Target)

/-- A call by the body of method `p` is possible: `p` is running and not waiting.  Called from
/repo/chancall/meta.go:51. -/
def State.mayCall (s : State) (p : Nat) : Prop :=
  (match s.handler (s.req p).callee with | .running i => i = p | _ => False) ∧ s.waits p = none

instance (s : State) (p : Nat) : Decidable (s.mayCall p) := by
  unfold State.mayCall
  cases s.handler (s.req p).callee <;> infer_instance

/-- One action of one goroutine.  /repo/chancall/callee.go:22-78 and /repo/chancall/caller.go:16-64. -/
def State.step (s : State) (a : Act) : Option State :=
  if s.dead then none
  else
    match a with
    | .call callee caller meth args parent =>
      match parent with
      | none => some { s with n := s.n + 1, req := upd s.req s.n ⟨callee, caller, meth, args, none, s.clock⟩ }
      | some p =>
        if p < s.n ∧ s.mayCall p then
          some { s with
            n := s.n + 1, req := upd s.req s.n ⟨callee, caller, meth, args, some p, s.clock⟩
            waits := upd s.waits p (some s.n) }
        else none
    | .push i =>
      let c := (s.req i).callee
      if i < s.n ∧ s.pushed i = false ∧ (s.queue c).length < cQueue then
        some { s with
          pushed := upd s.pushed i true, queue := upd s.queue c (s.queue c ++ [i])
          entered := upd s.entered c (s.entered c ++ [i]) }
      else none
    | .start c =>
      match s.handler c, s.queue c with
      | .idle, i :: rest =>
        let t := s.timeoutOf c (s.req i).meth
        let s := { s with
          queue := upd s.queue c rest, timer := upd s.timer i (.sleeping (s.clock + sleepTime t))
          startedAt := upd s.startedAt i (some (s.clock, t)), log := upd s.log c (s.log c ++ [HEv.started i]) }
        match (T c).invoke (s.req i).meth (s.req i).args with
        | .runs => some { s with handler := upd s.handler c (.running i) }
        | .unknown => some { s with
            handler := upd s.handler c (.returned i none), ret := upd s.ret i (some none)
            log := upd s.log c (s.log c ++ [HEv.finished i]) }
        | .panics => some { s with dead := true }
      | _, _ => none
    | .ret c res =>
      match s.handler c with
      | .running i =>
        if s.waits i = none then
          some { s with
            handler := upd s.handler c (.returned i (some res)), ret := upd s.ret i (some (some res))
            log := upd s.log c (s.log c ++ [HEv.finished i]) }
        else none
      | _ => none
    | .settleH c =>
      match s.handler c with
      | .returned i res =>
        if s.lock i then none
        else if s.done i then some { s with handler := upd s.handler c .idle }
        else some { s with
          handler := upd s.handler c (.sending i res), done := upd s.done i true, lock := upd s.lock i true
          answers := s.answers ++ [(i, .ok res, s.clock)] }
      | _ => none
    | .deliverH c =>
      match s.handler c with
      | .sending i res =>
        match s.chan (s.req i).caller with
        | none => some { s with
            handler := upd s.handler c .idle, lock := upd s.lock i false
            chan := upd s.chan (s.req i).caller (some (i, .ok res)) }
        | some _ => none
      | _ => none
    | .wake i =>
      match s.timer i with
      | .sleeping t => if t ≤ s.clock then some { s with timer := upd s.timer i .woken } else none
      | _ => none
    | .settleT i =>
      match s.timer i with
      | .woken =>
        if s.lock i then none
        else if s.done i then some { s with timer := upd s.timer i .over }
        else some { s with
          timer := upd s.timer i .sending, done := upd s.done i true, lock := upd s.lock i true
          answers := s.answers ++ [(i, .timeout, s.clock)] }
      | _ => none
    | .deliverT i =>
      match s.timer i with
      | .sending =>
        match s.chan (s.req i).caller with
        | none => some { s with
            timer := upd s.timer i .over, lock := upd s.lock i false
            chan := upd s.chan (s.req i).caller (some (i, .timeout)) }
        | some _ => none
      | _ => none
    | .receive i =>
      if i < s.n ∧ s.pushed i = true then
        match s.result i, s.chan (s.req i).caller with
        | none, some x => some { s with
            result := upd s.result i (some x), chan := upd s.chan (s.req i).caller none
            waits := match (s.req i).parent with
              | some p => upd s.waits p none
              | none => s.waits }
        | _, _ => none
      else none
    | .setTimeout c m t =>
      match s.timeouts c m with
      | some _ => some { s with timeouts := upd s.timeouts c (upd (s.timeouts c) m (some t)) }
      | none => some s
    | .tick => some { s with clock := s.clock + 1 }

end

end Verif.Chan
