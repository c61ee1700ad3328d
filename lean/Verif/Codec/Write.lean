import Verif.Codec.Encode

/-!
# Model of /repo/codec/encoder.go on any `io.Writer`

`Verif.Codec.Encode` describes the encoder on a `bytes.Buffer`, which never fails.  Here the writer is arbitrary: each
`Write` may accept any number of bytes and return an error or not.  The byte counts returned by the functions, which
`any.Encode` discards (/repo/codec/any.go:247), are in `Verif.Codec.Count`.
-/

namespace Verif.Codec

open Verif

/-- An `io.Writer` with states `σ`: the number of bytes accepted, the error if any, and the next state.  Errors are
numbered.  The `writer` of /repo/codec/encoder.go:16-243. -/
structure Writer (σ : Type) where
  write : σ → List Byte → Nat × Option Nat × σ

/-- One call of `Write`.  The calls of /repo/codec/encoder.go:16-170. -/
structure WriteCall where
  data : List Byte
  /-- number of bytes accepted -/
  n : Nat
  err : Option Nat

/-- A writer in use: its state and, as history, the calls so far.  The calls of /repo/codec/encoder.go:16-170. -/
structure Sink (σ : Type) where
  st : σ
  calls : List WriteCall

/-- What the encoder functions return.  /repo/codec/encoder.go:16-243. -/
inductive WriteErr where
  /-- an error of the writer -/
  | writer (e : Nat)
  /-- /repo/codec/encoder.go:201 -/
  | unsupported

/-- A function of the encoder.  /repo/codec/encoder.go:16-243. -/
abbrev Emit (σ : Type) := Sink σ → Option WriteErr × Sink σ

section
variable {σ : Type} (W : Writer σ)

/-- `writer.Write(bs)`, For example /repo/codec/encoder.go:17. -/
def emit (bs : List Byte) : Emit σ := fun s =>
  let (n, e, t) := W.write s.st bs
  (e.map .writer, ⟨t, s.calls ++ [⟨bs, n, e⟩]⟩)

/-- `a`, then `b` unless `a` returned an error.  For example /repo/codec/encoder.go:119-125. -/
def Emit.seq (a b : Emit σ) : Emit σ := fun s =>
  match a s with
  | (none, t) => b t
  | (some e, t) => (some e, t)

/-- `a`, whose error is ignored, then `b`: /repo/codec/encoder.go:29-30, 34-35 -/
def Emit.ignore (a b : Emit σ) : Emit σ := fun s => b (a s).2

/-- /repo/codec/encoder.go:28-31; `encodeUint32` makes one `Write` -/
def emitFloat32 (bits : BitVec 32) : Emit σ := (emit W [cFloat32]).ignore (emit W (encodeUint32 bits))

/-- /repo/codec/encoder.go:33-36; `encodeUint64` makes one `Write` -/
def emitFloat64 (bits : BitVec 64) : Emit σ := (emit W [cFloat64]).ignore (emit W (encodeUint64 bits))

/-- /repo/codec/encoder.go:116-126 -/
def emitString (value : Str) : Emit σ := (emit W (header cStr32 value.length)).seq (emit W value)

/-- `encodeValue` of `value.MapIndex(k)`, /repo/codec/encoder.go:162, as `encodeMapIndex` -/
def emitMapIndex (k : Val) : List (Val × Emit σ × Emit σ) → Emit σ
  | [] => emit W encodeNil
  | (k', _, ev) :: rest => if goEq k' k then ev else emitMapIndex k rest

/-- /repo/codec/encoder.go:155-167 -/
def emitMapLoop (table : List (Val × Emit σ × Emit σ)) : List (Val × Emit σ × Emit σ) → Emit σ
  | [] => fun s => (none, s)
  | (k, ek, _) :: rest => (ek.seq (emitMapIndex W k table)).seq (emitMapLoop table rest)

mutual

/-- /repo/codec/encoder.go:172-202, with 128-145 for arrays and 147-170 for maps.  The integer functions
(/repo/codec/encoder.go:38-114) pass the value on to the function that makes their only `Write`. -/
def emitValue : Val → Emit σ
  | .nil => emit W encodeNil
  | .bool _ b => emit W (encodeBool b)
  | .f32 _ bits => emitFloat64 W (widen bits)
  | .f64 _ bits => emitFloat64 W bits
  | .uint _ _ v => emit W (encodeUint64 (v.setWidth 64))
  | .int _ _ v => emit W (encodeInt64 (v.signExtend 64))
  | .str _ s => emitString W s
  | .seq _ xs => (emit W (header cArr32 xs.length)).seq (emitElems xs)
  | .map _ kvs => (emit W (header cMap32 kvs.length)).seq (emitMapLoop W (emitTable kvs) (emitTable kvs))
  | .bad _ => fun s => (some .unsupported, s)

/-- /repo/codec/encoder.go:135-142 -/
def emitElems : List Val → Emit σ
  | [] => fun s => (none, s)
  | x :: xs => (emitValue x).seq (emitElems xs)

/-- The entries of a map with the encoders of key and value.  Not in the code: an auxiliary for the loop
/repo/codec/encoder.go:155-167. -/
def emitTable : List (Val × Val) → List (Val × Emit σ × Emit σ)
  | [] => []
  | (k, v) :: rest => (k, emitValue k, emitValue v) :: emitTable rest

end

/-- /repo/codec/encoder.go:204-243 and `any.Encode`, /repo/codec/any.go:246-249 -/
def encodeTo : Val → Emit σ
  | .nil => emit W encodeNil
  | .bool 0 b => emit W (encodeBool b)
  | .f32 0 bits => emitFloat32 W bits
  | .f64 0 bits => emitFloat64 W bits
  | .uint .u8 0 v => emit W (encodeUint8 v)
  | .uint .u16 0 v => emit W (encodeUint16 v)
  | .uint .u32 0 v => emit W (encodeUint32 v)
  | .uint .u64 0 v => emit W (encodeUint64 v)
  | .uint .uint 0 v => emit W (encodeUint64 v)
  | .int .i8 0 v => emit W (encodeInt8 v)
  | .int .i16 0 v => emit W (encodeInt16 v)
  | .int .i32 0 v => emit W (encodeInt32 v)
  | .int .i64 0 v => emit W (encodeInt64 v)
  | .int .int 0 v => emit W (encodeInt64 v)
  | .str 0 s => emitString W s
  | v => emitValue W v

end

/-! ## Kinds of writers -/

/-- The contract of `io.Writer`: at most `len(p)` bytes are accepted, and fewer only with an error.  For the `writer` of
/repo/codec/any.go:246. -/
def Writer.lawful {σ : Type} (W : Writer σ) : Prop :=
  ∀ s bs, (W.write s bs).1 ≤ bs.length ∧ ((W.write s bs).2.1 = none → (W.write s bs).1 = bs.length)

/-- A writer that is of no use any more once it has failed, like a broken connection or a full disk: in the states
`bad` it accepts nothing.  For the `writer` of /repo/codec/any.go:246. -/
def Writer.breaks {σ : Type} (W : Writer σ) (bad : σ → Prop) : Prop :=
  (∀ s bs, (W.write s bs).2.1 ≠ none → bad (W.write s bs).2.2) ∧
  ∀ s bs, bad s → (W.write s bs).1 = 0 ∧ (W.write s bs).2.1 ≠ none

/-- All bytes that the writer has accepted.  For the `writer` of /repo/codec/any.go:246. -/
def accepted (calls : List WriteCall) : List Byte := calls.flatMap fun c => c.data.take c.n

/-- `bytes.Buffer`: never fails.  As in /repo/serializer.go:34-35. -/
def bufferWriter : Writer (List Byte) := ⟨fun s bs => (bs.length, none, s ++ bs)⟩

/-- A writer with room for a number of bytes; `none` when it has failed.  For the `writer` of /repo/codec/any.go:246. -/
def roomWriter : Writer (Option Nat) := ⟨fun s bs =>
  match s with
  | some room => if bs.length ≤ room then (bs.length, none, some (room - bs.length)) else (room, some 0, none)
  | none => (0, some 0, none)⟩

/-- A writer whose first call fails, for example because of a time limit, and all others succeed.  For the `writer` of
/repo/codec/any.go:246. -/
def hiccupWriter : Writer Bool := ⟨fun failed bs => if failed then (bs.length, none, true) else (0, some 0, true)⟩

end Verif.Codec
