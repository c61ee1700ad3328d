/-!
# Base: bytes, strings and outcomes of Go code

Modelling conventions shared by all files.
-/

namespace Verif

/-- A Go `byte`. -/
abbrev Byte := BitVec 8

/-- A Go `string`: an arbitrary byte sequence (Go strings need not be valid UTF-8). -/
abbrev Str := List Byte

/-- The error values the modelled code returns (only their class matters to callers; texts are not
modelled). -/
inductive GoErr where
  /-- `io.EOF` or any other error of the underlying reader -/
  | eof
  /-- `fmt.Errorf("Unsupported type: ...")`, /repo/codec/encoder.go:201 -/
  | unsupportedType
  /-- `fmt.Errorf("Unsupported code: ...")`, /repo/codec/decoder.go:263 -/
  | unsupportedCode
  /-- `fmt.Errorf("Can't convert ...")`, /repo/codec/any.go -/
  | cantConvert
  deriving DecidableEq, Repr

/-- Outcome of running a piece of Go code.

* `ok a`    : normal return with value `a`
* `err e`   : normal return with a non-nil `error`
* `panic`   : a run-time panic (failed type assertion, nil dereference, index out of range, ...).
              None of the modelled code paths recovers from these, so the process dies.
* `fatal`   : `log.Fatal`, i.e. the process exits
* `diverge` : model artefact: the fuel given to a recursive model function did not suffice.  Each
              use is accompanied by a theorem that this outcome does not occur. -/
inductive Res (α : Type) where
  | ok (a : α)
  | err (e : GoErr)
  | panic
  | fatal
  | diverge
  deriving DecidableEq, Repr

namespace Res

variable {α β : Type}

/-- Sequencing with the Go idiom `if nil != err { return ..., err }`. -/
def bind (x : Res α) (f : α → Res β) : Res β :=
  match x with
  | ok a => f a
  | err e => err e
  | panic => panic
  | fatal => fatal
  | diverge => diverge

instance : Monad Res where
  pure := ok
  bind := bind

/-- The outcome is not a crash of the process (neither panic nor `log.Fatal`). -/
def Survives : Res α → Prop
  | panic => False
  | fatal => False
  | _ => True

@[simp] theorem bind_ok (a : α) (f : α → Res β) : (Res.ok a >>= f) = f a := rfl
@[simp] theorem bind_err (e : GoErr) (f : α → Res β) : ((Res.err e : Res α) >>= f) = .err e := rfl
@[simp] theorem bind_panic (f : α → Res β) : ((Res.panic : Res α) >>= f) = .panic := rfl
@[simp] theorem bind_fatal (f : α → Res β) : ((Res.fatal : Res α) >>= f) = .fatal := rfl
@[simp] theorem bind_diverge (f : α → Res β) : ((Res.diverge : Res α) >>= f) = .diverge := rfl
@[simp] theorem pure_eq (a : α) : (pure a : Res α) = .ok a := rfl

instance : LawfulMonad Res := LawfulMonad.mk'
  (id_map := by intro α x; cases x <;> rfl)
  (pure_bind := by intros; rfl)
  (bind_assoc := by intro α β γ x f g; cases x <;> rfl)

end Res
end Verif
