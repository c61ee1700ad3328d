import Verif.Codec.Value
import Verif.Codec.Float

/-!
# Model of /repo/codec/encoder.go

The writer is a `bytes.Buffer` (never fails), as in /repo/serializer.go:34; an encoding is the list
of bytes written plus the error returned.  The byte counts `n` returned by the functions, which
`any.Encode` discards (/repo/codec/any.go:247), are in `Verif.Codec.Count`.
-/

namespace Verif.Codec

open Verif

/-! ## Tags (/repo/codec/code.go:8-40) -/

/-- /repo/codec/code.go:9 -/
def cNil : Byte := 0xc0
/-- /repo/codec/code.go:11 -/
def cFalse : Byte := 0xc2
/-- /repo/codec/code.go:12 -/
def cTrue : Byte := 0xc3
/-- /repo/codec/code.go:18 -/
def cFloat32 : Byte := 0xca
/-- /repo/codec/code.go:19 -/
def cFloat64 : Byte := 0xcb
/-- /repo/codec/code.go:21 -/
def cUint8 : Byte := 0xcc
/-- /repo/codec/code.go:22 -/
def cUint16 : Byte := 0xcd
/-- /repo/codec/code.go:23 -/
def cUint32 : Byte := 0xce
/-- /repo/codec/code.go:24 -/
def cUint64 : Byte := 0xcf
/-- /repo/codec/code.go:26 -/
def cInt8 : Byte := 0xd0
/-- /repo/codec/code.go:27 -/
def cInt16 : Byte := 0xd1
/-- /repo/codec/code.go:28 -/
def cInt32 : Byte := 0xd2
/-- /repo/codec/code.go:29 -/
def cInt64 : Byte := 0xd3
/-- /repo/codec/code.go:33 -/
def cStr32 : Byte := 0xdb
/-- /repo/codec/code.go:36 -/
def cArr32 : Byte := 0xdd
/-- /repo/codec/code.go:39 -/
def cMap32 : Byte := 0xdf

/-! ## Range limits (/repo/codec/code.go:46-55); `2 << (8 - 1)` is 256, `2 << (8 - 2)` is 128 -/

/-- /repo/codec/code.go:46 -/
def cUint8Max : Nat := 2 <<< (8 - 1)
/-- /repo/codec/code.go:47 -/
def cUint16Max : Nat := 2 <<< (16 - 1)
/-- /repo/codec/code.go:48 -/
def cUint32Max : Nat := 2 <<< (32 - 1)
/-- /repo/codec/code.go:50 -/
def cInt8Max : Int := 2 <<< (8 - 2)
/-- /repo/codec/code.go:51 -/
def cInt8Min : Int := -cInt8Max
/-- /repo/codec/code.go:52 -/
def cInt16Max : Int := 2 <<< (16 - 2)
/-- /repo/codec/code.go:53 -/
def cInt16Min : Int := -cInt16Max
/-- /repo/codec/code.go:54 -/
def cInt32Max : Int := 2 <<< (32 - 2)
/-- /repo/codec/code.go:55 -/
def cInt32Min : Int := -cInt32Max

/-- Go conversion `byte(x)`: the low eight bits.  For example /repo/codec/encoder.go:47. -/
def byte {w : Nat} (x : BitVec w) : Byte := x.setWidth 8

/-! ## Scalars -/

/-- /repo/codec/encoder.go:16-18 -/
def encodeNil : List Byte := [cNil]

/-- /repo/codec/encoder.go:20-26 -/
def encodeBool (value : Bool) : List Byte := if value then [cTrue] else [cFalse]

/-- /repo/codec/encoder.go:38-40 -/
def encodeUint8 (value : BitVec 8) : List Byte := [cUint8, value]

/-- /repo/codec/encoder.go:42-48 -/
def encodeUint16 (value : BitVec 16) : List Byte :=
  if value.toNat < cUint8Max then encodeUint8 (value.setWidth 8)
  else [cUint16, byte (value >>> 8), byte value]

/-- /repo/codec/encoder.go:50-56 -/
def encodeUint32 (value : BitVec 32) : List Byte :=
  if value.toNat < cUint16Max then encodeUint16 (value.setWidth 16)
  else [cUint32, byte (value >>> 24), byte (value >>> 16), byte (value >>> 8), byte value]

/-- /repo/codec/encoder.go:58-64 -/
def encodeUint64 (value : BitVec 64) : List Byte :=
  if value.toNat < cUint32Max then encodeUint32 (value.setWidth 32)
  else [cUint64, byte (value >>> 56), byte (value >>> 48), byte (value >>> 40), byte (value >>> 32),
    byte (value >>> 24), byte (value >>> 16), byte (value >>> 8), byte value]

/-- /repo/codec/encoder.go:77-79; the `int8` is its two's complement byte. -/
def encodeInt8 (value : BitVec 8) : List Byte := [cInt8, value]

/-- /repo/codec/encoder.go:81-87 -/
def encodeInt16 (value : BitVec 16) : List Byte :=
  if value.toInt > cInt8Min ∧ value.toInt < cInt8Max then encodeInt8 (value.setWidth 8)
  else [cInt16, byte (value >>> 8), byte value]

/-- /repo/codec/encoder.go:89-95 -/
def encodeInt32 (value : BitVec 32) : List Byte :=
  if value.toInt > cInt16Min ∧ value.toInt < cInt16Max then encodeInt16 (value.setWidth 16)
  else [cInt32, byte (value >>> 24), byte (value >>> 16), byte (value >>> 8), byte value]

/-- /repo/codec/encoder.go:97-103 -/
def encodeInt64 (value : BitVec 64) : List Byte :=
  if value.toInt > cInt32Min ∧ value.toInt < cInt32Max then encodeInt32 (value.setWidth 32)
  else [cInt64, byte (value >>> 56), byte (value >>> 48), byte (value >>> 40), byte (value >>> 32),
    byte (value >>> 24), byte (value >>> 16), byte (value >>> 8), byte value]

/-- /repo/codec/encoder.go:28-31: the tag, then the bits as an ordinary (down-sized) unsigned integer. -/
def encodeFloat32 (bits : BitVec 32) : List Byte := [cFloat32] ++ encodeUint32 bits

/-- /repo/codec/encoder.go:33-36 -/
def encodeFloat64 (bits : BitVec 64) : List Byte := [cFloat64] ++ encodeUint64 bits

/-- The five header bytes of strings, arrays and maps
(/repo/codec/encoder.go:119, 130, 150): tag and the low 32 bits of the length, big endian. -/
def header (tag : Byte) (length : Nat) : List Byte :=
  let l : BitVec 64 := BitVec.ofNat 64 length      -- Go `int`
  [tag, byte (l >>> 24), byte (l >>> 16), byte (l >>> 8), byte l]

/-- /repo/codec/encoder.go:116-126 -/
def encodeString (value : Str) : List Byte := header cStr32 value.length ++ value

/-! ## Composite values -/

/-- Bytes written so far and the error returned, if any.  What the functions of /repo/codec/encoder.go:16-243 do. -/
structure Enc where
  bytes : List Byte
  err : Option GoErr
  deriving DecidableEq, Repr

/-- A write that succeeds.  `writer.Write` of /repo/codec/encoder.go:16-170. -/
def Enc.ok (bs : List Byte) : Enc := ⟨bs, none⟩

/-- Run `a`, and `b` unless `a` returned an error (`if nil != err { return ..., err }`).  For example
/repo/codec/encoder.go:119-125. -/
def Enc.seq (a b : Enc) : Enc :=
  match a.err with
  | none => ⟨a.bytes ++ b.bytes, b.err⟩
  | some e => ⟨a.bytes, some e⟩

/-- `value.MapIndex(k)` followed by `encodeValue`: `table` lists the entries of the map with the
encodings of their keys and values; a failed lookup (NaN keys) yields the zero `reflect.Value`, which
`encodeValue` writes as nil (/repo/codec/encoder.go:162, 173-175). -/
def encodeMapIndex (k : Val) : List (Val × Enc × Enc) → Enc
  | [] => .ok encodeNil
  | (k', _, ev) :: rest => if goEq k' k then ev else encodeMapIndex k rest

/-- The loop of `encodeMap`, /repo/codec/encoder.go:155-167: for each key, in the order of `MapKeys`,
the key and then `MapIndex(key)`. -/
def encodeMapLoop (table : List (Val × Enc × Enc)) : List (Val × Enc × Enc) → Enc
  | [] => .ok []
  | (k, ek, _) :: rest => (ek.seq (encodeMapIndex k table)).seq (encodeMapLoop table rest)

mutual

/-- /repo/codec/encoder.go:172-202, dispatch on `reflect.Kind`.  All unsigned kinds go through
`v.Uint()` (zero extension to 64 bits), all signed kinds through `v.Int()` (sign extension), all
floats through `v.Float()` (float64).  Arrays: /repo/codec/encoder.go:128-145; maps: 147-170. -/
def encodeValue : Val → Enc
  | .nil => .ok encodeNil
  | .bool _ b => .ok (encodeBool b)
  | .f32 _ bits => .ok (encodeFloat64 (widen bits))
  | .f64 _ bits => .ok (encodeFloat64 bits)
  | .uint _ _ v => .ok (encodeUint64 (v.setWidth 64))
  | .int _ _ v => .ok (encodeInt64 (v.signExtend 64))
  | .str _ s => .ok (encodeString s)
  | .seq _ xs => (Enc.ok (header cArr32 xs.length)).seq (encodeElems xs)
  | .map _ kvs =>
    (Enc.ok (header cMap32 kvs.length)).seq (encodeMapLoop (encodeTable kvs) (encodeTable kvs))
  | .bad _ => ⟨[], some .unsupportedType⟩

/-- The loop of `encodeArray`, /repo/codec/encoder.go:135-142 -/
def encodeElems : List Val → Enc
  | [] => .ok []
  | x :: xs => (encodeValue x).seq (encodeElems xs)

/-- The entries of a map together with the encodings of key and value.  Not in the code: an auxiliary for the loop
/repo/codec/encoder.go:155-167. -/
def encodeTable : List (Val × Val) → List (Val × Enc × Enc)
  | [] => []
  | (k, v) :: rest => (k, encodeValue k, encodeValue v) :: encodeTable rest

end

/-- /repo/codec/encoder.go:204-243, `any.Encode` (/repo/codec/any.go:246-249): fast paths for the
predeclared types, `encodeValue` for everything else (named types, uintptr, composites). -/
def encode : Val → Enc
  | .nil => .ok encodeNil
  | .bool 0 b => .ok (encodeBool b)
  | .f32 0 bits => .ok (encodeFloat32 bits)
  | .f64 0 bits => .ok (encodeFloat64 bits)
  | .uint .u8 0 v => .ok (encodeUint8 v)
  | .uint .u16 0 v => .ok (encodeUint16 v)
  | .uint .u32 0 v => .ok (encodeUint32 v)
  | .uint .u64 0 v => .ok (encodeUint64 v)
  | .uint .uint 0 v => .ok (encodeUint64 v)   -- encodeUint on a 64-bit platform, lines 66-75
  | .int .i8 0 v => .ok (encodeInt8 v)
  | .int .i16 0 v => .ok (encodeInt16 v)
  | .int .i32 0 v => .ok (encodeInt32 v)
  | .int .i64 0 v => .ok (encodeInt64 v)
  | .int .int 0 v => .ok (encodeInt64 v)      -- encodeInt on a 64-bit platform, lines 105-114
  | .str 0 s => .ok (encodeString s)
  | v => encodeValue v

end Verif.Codec
