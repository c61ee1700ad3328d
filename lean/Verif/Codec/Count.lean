import Verif.Codec.Write

/-!
# The byte counts returned by the functions of /repo/codec/encoder.go

As `Verif.Codec.Write`, with the number `n` that each function returns beside the error.  `any.Encode` discards it
(/repo/codec/any.go:247).
-/

namespace Verif.Codec

open Verif

/-- A function of the encoder: the number and the error it returns, and the writer afterwards.
/repo/codec/encoder.go:16-243. -/
abbrev Count (σ : Type) := Sink σ → Nat × Option WriteErr × Sink σ

section
variable {σ : Type} (W : Writer σ)

/-- `return writer.Write(bs)`.  For example /repo/codec/encoder.go:17. -/
def countBytes (bs : List Byte) : Count σ := fun s =>
  let (n, e, t) := W.write s.st bs
  (n, e.map .writer, ⟨t, s.calls ++ [⟨bs, n, e⟩]⟩)

/-- `a`, then `b` unless `a` returned an error; the numbers are added.  For example /repo/codec/encoder.go:119-125. -/
def Count.seq (a b : Count σ) : Count σ := fun s =>
  match a s with
  | (n, none, t) => (n + (b t).1, (b t).2)
  | (n, some e, t) => (n, some e, t)

/-- `a`, whose results are ignored, then `b`: /repo/codec/encoder.go:29-30, 34-35 -/
def Count.ignore (a b : Count σ) : Count σ := fun s => b (a s).2.2

/-- Nothing to do: the end of a loop, /repo/codec/encoder.go:144 and 169. -/
def Count.none : Count σ := fun s => (0, Option.none, s)

/-- /repo/codec/encoder.go:28-31 -/
def countFloat32 (bits : BitVec 32) : Count σ := (countBytes W [cFloat32]).ignore (countBytes W (encodeUint32 bits))

/-- /repo/codec/encoder.go:33-36 -/
def countFloat64 (bits : BitVec 64) : Count σ := (countBytes W [cFloat64]).ignore (countBytes W (encodeUint64 bits))

/-- /repo/codec/encoder.go:116-126 -/
def countString (value : Str) : Count σ := (countBytes W (header cStr32 value.length)).seq (countBytes W value)

/-- `encodeValue` of `value.MapIndex(k)`, /repo/codec/encoder.go:162, as `emitMapIndex` -/
def countMapIndex (k : Val) : List (Val × Count σ × Count σ) → Count σ
  | [] => countBytes W encodeNil
  | (k', _, ev) :: rest => if goEq k' k then ev else countMapIndex k rest

/-- /repo/codec/encoder.go:155-167 -/
def countMapLoop (table : List (Val × Count σ × Count σ)) : List (Val × Count σ × Count σ) → Count σ
  | [] => Count.none
  | (k, ek, _) :: rest => (ek.seq (countMapIndex W k table)).seq (countMapLoop table rest)

mutual

/-- /repo/codec/encoder.go:172-202, with 128-145 for arrays and 147-170 for maps.  The integer functions
(/repo/codec/encoder.go:38-114) return what the function returns that makes their only `Write`. -/
def countValue : Val → Count σ
  | .nil => countBytes W encodeNil
  | .bool _ b => countBytes W (encodeBool b)
  | .f32 _ bits => countFloat64 W (widen bits)
  | .f64 _ bits => countFloat64 W bits
  | .uint _ _ v => countBytes W (encodeUint64 (v.setWidth 64))
  | .int _ _ v => countBytes W (encodeInt64 (v.signExtend 64))
  | .str _ s => countString W s
  | .seq _ xs => (countBytes W (header cArr32 xs.length)).seq (countElems xs)
  | .map _ kvs => (countBytes W (header cMap32 kvs.length)).seq (countMapLoop W (countTable kvs) (countTable kvs))
  | .bad _ => fun s => (0, some .unsupported, s)

/-- /repo/codec/encoder.go:135-142 -/
def countElems : List Val → Count σ
  | [] => Count.none
  | x :: xs => (countValue x).seq (countElems xs)

/-- The entries of a map with the encoders of key and value.  Not in the code: an auxiliary for the loop
/repo/codec/encoder.go:155-167. -/
def countTable : List (Val × Val) → List (Val × Count σ × Count σ)
  | [] => []
  | (k, v) :: rest => (k, countValue k, countValue v) :: countTable rest

end

/-- `encode`, /repo/codec/encoder.go:204-243 -/
def countTo : Val → Count σ
  | .nil => countBytes W encodeNil
  | .bool 0 b => countBytes W (encodeBool b)
  | .f32 0 bits => countFloat32 W bits
  | .f64 0 bits => countFloat64 W bits
  | .uint .u8 0 v => countBytes W (encodeUint8 v)
  | .uint .u16 0 v => countBytes W (encodeUint16 v)
  | .uint .u32 0 v => countBytes W (encodeUint32 v)
  | .uint .u64 0 v => countBytes W (encodeUint64 v)
  | .uint .uint 0 v => countBytes W (encodeUint64 v)
  | .int .i8 0 v => countBytes W (encodeInt8 v)
  | .int .i16 0 v => countBytes W (encodeInt16 v)
  | .int .i32 0 v => countBytes W (encodeInt32 v)
  | .int .i64 0 v => countBytes W (encodeInt64 v)
  | .int .int 0 v => countBytes W (encodeInt64 v)
  | .str 0 s => countString W s
  | v => countValue W v

end

end Verif.Codec
