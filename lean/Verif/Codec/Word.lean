import Verif.Codec.Any
import Verif.Codec.Memory

/-!
# The codec on a platform of 32 bits

`Verif.Codec.Encode`, `Decode` and `Any` describe a platform of 64 bits.  What depends on the size of `int`, `uint` and of
the address space is here: the functions that encode an `int` or a `uint`, `make` with a length announced by the input, and
the accessor `Int`.  (`Uint` is not used by the product and is left out.)

A value of type `int` or `uint` has 64 bits in `Val`; on a platform of 32 bits it is one that fits 32 bits (`fits32`).
-/

namespace Verif.Codec

open Verif

/-- The value exists on a platform of 32 bits, as far as the predeclared types `int` and `uint` are concerned, whose
functions look at the size: /repo/codec/encoder.go:66-75, 105-114. -/
def fits32 : Val → Prop
  | .int .int 0 v => (v.setWidth 32).signExtend 64 = v
  | .uint .uint 0 v => (v.setWidth 32).setWidth 64 = v
  | _ => True

/-- `encode` where `unsafe.Sizeof(value)` is 4: /repo/codec/encoder.go:66-68, 105-107, 204-243. -/
def encode32 : Val → Enc
  | .uint .uint 0 v => .ok (encodeUint32 (v.setWidth 32))
  | .int .int 0 v => .ok (encodeInt32 (v.setWidth 32))
  | v => encode v

/-- `Encode` of an object on 32 bits, /repo/codec/any.go:246-249. -/
def Any.encode32 (a : Any) : Enc := Codec.encode32 a.s

/-- What `make` can be asked for: the number of elements of a `[]interface{}` and of a `[]byte`.  With more it panics.
/repo/codec/decoder.go:87 and 235. -/
structure Limits where
  array : Nat
  string : Nat

/-- A platform of 32 bits: an `interface{}` takes 8 bytes, a slice must fit the address space, and its length an `int`.
/repo/codec/decoder.go:87 and 235. -/
def limits32 : Limits := ⟨2^29 - 1, 2^31 - 1⟩

/-- The request can be met.  /repo/codec/decoder.go:87 and 235. -/
def Limits.allow (L : Limits) : Req → Bool
  | .array count => count ≤ L.array
  | .string n => n ≤ L.string

/-- The tag `c` is that of a string or an array and the length that follows is too large for `make`.
/repo/codec/decoder.go:225-235, 244-251 and 87. -/
def Limits.refuse (L : Limits) (c : Byte) (s : List Byte) : Bool :=
  match readUint32 bytesReader s with
  | .ok (n, _) => (c = cArr32 && !L.allow (.array n.toNat)) || (c = cStr32 && !L.allow (.string n.toNat))
  | _ => false

/-- `decode` on a `bytes.Reader`, where `make` panics beyond the limits.  /repo/codec/decoder.go:121-264. -/
def decodeLF (L : Limits) : Nat → List Byte → Res (Val × List Byte)
  | 0, _ => .diverge
  | fuel + 1, s => do
    let (c, s) ← readByte bytesReader s
    if L.refuse c s then .panic else decodeTag bytesReader (decodeLF L fuel) c s

/-- With the fuel of `decode`.  /repo/codec/decoder.go:121-264. -/
def decodeL (L : Limits) (s : List Byte) : Res (Val × List Byte) := decodeLF L (s.length + 1) s

/-- `Decode` of an object, as `Any.decode`.  /repo/codec/any.go:251-261. -/
def Any.decodeL (L : Limits) (a : Any) (input : List Byte) : Any × Res (List Byte) :=
  match Codec.decodeL L input with
  | .ok (v, rest) => (Any.normalize ⟨v, a.tp⟩, .ok rest)
  | .err e => (⟨.nil, a.tp⟩, .err e)
  | .panic => (a, .panic)
  | .fatal => (a, .fatal)
  | .diverge => (a, .diverge)

/-- `Int` on 32 bits, /repo/codec/any.go:58-71. -/
def Any.intOn32 (a : Any) : Res (BitVec 32) := a.signed 32

end Verif.Codec
