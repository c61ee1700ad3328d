import Verif.Trans

/-!
# Model of waiting and of the table of instances, /repo/runtime.go:17-34 and /repo/ferry.go:33-49

Every call of `Startup` or `Serve` makes an instance, a dock or a hub, and ends in `wait`.  Such calls are made by
goroutines of the user, so they overlap with one another, with `Close` and with signals.  `insts` is a slice: `append`
reads its header, writes an element, into a larger array if the present one is full, and the new header is assigned
afterwards.  Nothing is locked.

Instances are numbers, and each is passed to `wait` once (it is made by the same call).  Simplified: a header is read and
assigned in one step; `Close` of an instance is one step (see `Dock/Life` and `Dock/Shut` for what it does); `Close` of
the package is not called again before it has returned; of the signals only those that can be caught are modelled, so
not `os.Kill`, for which `signal.Notify` has no effect.
-/

namespace Verif.Runtime

open Verif

/-- Header of a slice of instances that begins where its array begins.  /repo/runtime.go:17. -/
structure Hdr where
  arr : Nat
  len : Nat
  deriving DecidableEq, Repr

/-- Where a call of `wait` is.  /repo/runtime.go:19-27. -/
inductive Phase where
  /-- it has not begun -/
  | idle
  /-- `append` has read `insts`, /repo/runtime.go:20 -/
  | loaded (h : Hdr)
  /-- `append` has written the element and returned a header, /repo/runtime.go:20 -/
  | written (h : Hdr)
  /-- `insts` is assigned, /repo/runtime.go:20 -/
  | stored
  /-- `signal.Notify` has returned, /repo/runtime.go:23; is there a signal in the channel, which holds one? -/
  | subscribed (pending : Bool)
  /-- `wait` has returned, /repo/runtime.go:24-26, and so has `Startup` or `Serve` -/
  | returned
  deriving DecidableEq, Repr

/-- /repo/runtime.go:17, with the goroutines in `wait` and `destroy`. -/
structure State where
  phase : Nat → Phase
  /-- the arrays: their elements and sizes -/
  heap : Nat → Nat → Option Nat
  cap : Nat → Nat
  /-- number of the next array -/
  next : Nat
  insts : Hdr
  /-- the loop of `destroy`: `i + 1`, /repo/runtime.go:30 -/
  loop : Option Nat
  /-- the instances whose `Close` was called, in this order -/
  closed : List Nat
  /-- has `signal.Notify` been called? -/
  notified : Bool
  /-- the process has ended -/
  dead : Bool

/-- `insts` is empty with an array of size 0, /repo/runtime.go:17. -/
def State.init : State := ⟨fun _ => .idle, fun _ _ => none, fun _ => 0, 1, ⟨0, 0⟩, none, [], false, false⟩

/-- /repo/runtime.go:19-34 and /repo/ferry.go:33-49 -/
inductive Act where
  /-- `append` reads `insts` -/
  | load (i : Nat)
  /-- `append` writes; `size` is the size of the new array if one is needed -/
  | write (i : Nat) (size : Nat)
  /-- `insts` is assigned -/
  | store (i : Nat)
  /-- `signal.Notify` -/
  | notify (i : Nat)
  /-- the process gets a signal -/
  | signal
  /-- `<-c` receives and `wait` returns -/
  | ret (i : Nat)
  /-- `destroy` begins, /repo/runtime.go:30 -/
  | close
  /-- one round of its loop, /repo/runtime.go:31 -/
  | round
  /-- `insts = insts[:0]`, /repo/runtime.go:33 -/
  | reset
  deriving DecidableEq, Repr

/-- A signal arrives at all channels passed to `signal.Notify`; it is dropped if a channel is full.
/repo/runtime.go:22-24. -/
def deliver (p : Nat → Phase) : Nat → Phase := fun i => match p i with
  | .subscribed _ => .subscribed true
  | q => q

/-- /repo/runtime.go:19-34 and /repo/ferry.go:33-49 -/
def State.step (s : State) (a : Act) : Option State :=
  if s.dead then none
  else match a with
  | .load i => match s.phase i with
    | .idle => some { s with phase := upd s.phase i (.loaded s.insts) }
    | _ => none
  | .write i size => match s.phase i with
    | .loaded h =>
      if h.len < s.cap h.arr then
        some { s with
          heap := upd s.heap h.arr (upd (s.heap h.arr) h.len (some i))
          phase := upd s.phase i (.written ⟨h.arr, h.len + 1⟩) }
      else if h.len < size then
        some { s with
          heap := upd s.heap s.next fun k =>
            if k < h.len then s.heap h.arr k else if k = h.len then some i else none
          cap := upd s.cap s.next size
          next := s.next + 1
          phase := upd s.phase i (.written ⟨s.next, h.len + 1⟩) }
      else none
    | _ => none
  | .store i => match s.phase i with
    | .written h => some { s with insts := h, phase := upd s.phase i .stored }
    | _ => none
  | .notify i => match s.phase i with
    | .stored => some { s with phase := upd s.phase i (.subscribed false), notified := true }
    | _ => none
  | .signal => if s.notified then some { s with phase := deliver s.phase } else some { s with dead := true }
  | .ret i => match s.phase i with
    | .subscribed true => some { s with phase := upd s.phase i .returned }
    | _ => none
  | .close => match s.loop with
    | none => some { s with loop := some s.insts.len }
    | some _ => none
  | .round => match s.loop with
    | some (k + 1) =>
      if k < s.insts.len then
        match s.heap s.insts.arr k with
        | some j => some { s with closed := s.closed ++ [j], loop := some k }
        | none => some { s with dead := true }
      else some { s with dead := true }
    | _ => none
  | .reset => match s.loop with
    | some 0 => some { s with insts := ⟨s.insts.arr, 0⟩, loop := none }
    | _ => none

end Verif.Runtime
