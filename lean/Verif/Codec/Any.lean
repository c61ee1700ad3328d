import Verif.Codec.ValEq

/-!
# Model of /repo/codec/any.go and /repo/codec/API.go: the `IAny` object
-/

namespace Verif.Codec

open Verif

/-- /repo/codec/any.go:13-31 -/
inductive AType where
  | aNil | aBool | aString | aInt8 | aUint8 | aInt16 | aUint16 | aInt32 | aUint32 | aInt64 | aUint64
  | aFloat32 | aFloat64 | aArr | aMap
  deriving DecidableEq, Repr

/-- /repo/codec/any.go:33-36 -/
structure Any where
  s : Val
  tp : AType
  deriving Repr

/-- /repo/codec/any.go:263-302.  The type switch matches predeclared types only (`tid = 0`); `int`, `uint`,
`uintptr` and named scalars match no case, so the tag keeps its previous value. -/
def Any.normalize (a : Any) : Any :=
  match a.s with
  | .nil => { a with tp := .aNil }
  | .bool 0 _ => { a with tp := .aBool }
  | .str 0 _ => { a with tp := .aString }
  | .int .i8 0 _ => { a with tp := .aInt8 }
  | .uint .u8 0 _ => { a with tp := .aUint8 }
  | .int .i16 0 _ => { a with tp := .aInt16 }
  | .uint .u16 0 _ => { a with tp := .aUint16 }
  | .int .i32 0 _ => { a with tp := .aInt32 }
  | .uint .u32 0 _ => { a with tp := .aUint32 }
  | .int .i64 0 _ => { a with tp := .aInt64 }
  | .uint .u64 0 _ => { a with tp := .aUint64 }
  | .f32 0 _ => { a with tp := .aFloat32 }
  | .f64 0 _ => { a with tp := .aFloat64 }
  | .seq _ _ => { a with tp := .aArr }
  | .map _ _ => { a with tp := .aMap }
  | _ => a

/-- `NewAny`, /repo/codec/API.go:72-77; the zero value of `tp` is `aNil`. -/
def newAny (v : Val) : Any := Any.normalize ⟨v, .aNil⟩

/-- `Any()`, /repo/codec/any.go:38-40 -/
def Any.any (a : Any) : Val := a.s

/-- `Encode`, /repo/codec/any.go:246-249 -/
def Any.encode (a : Any) : Enc := Codec.encode a.s

/-- `Decode`, /repo/codec/any.go:251-261: the object after the call and the outcome (with the unread
input).  On error the value is set to nil (what `decode` returns along with an error) but `tp` keeps its
old value. -/
def Any.decode (a : Any) (input : List Byte) : Any × Res (List Byte) :=
  match Codec.decode input with
  | .ok (v, rest) => (Any.normalize ⟨v, a.tp⟩, .ok rest)
  | .err e => (⟨.nil, a.tp⟩, .err e)
  | .panic => (a, .panic)
  | .fatal => (a, .fatal)
  | .diverge => (a, .diverge)

/-! ## Type assertions `a.s.(T)`: panic unless the dynamic type is exactly the predeclared `T` -/

/-- /repo/codec/any.go:44 -/
def assertBool : Val → Res Bool
  | .bool 0 b => .ok b
  | _ => .panic

/-- /repo/codec/any.go:52 -/
def assertStr : Val → Res Str
  | .str 0 s => .ok s
  | _ => .panic

/-- /repo/codec/any.go:58-131 -/
def assertInt (k : IKind) : Val → Res (BitVec k.width)
  | .int k' 0 v => if h : k' = k then .ok (h ▸ v) else .panic
  | _ => .panic

/-- /repo/codec/any.go:133-206 -/
def assertUint (k : UKind) : Val → Res (BitVec k.width)
  | .uint k' 0 v => if h : k' = k then .ok (h ▸ v) else .panic
  | _ => .panic

/-- /repo/codec/any.go:211 and 222 -/
def assertF32 : Val → Res (BitVec 32)
  | .f32 0 b => .ok b
  | _ => .panic

/-- /repo/codec/any.go:213 and 224 -/
def assertF64 : Val → Res (BitVec 64)
  | .f64 0 b => .ok b
  | _ => .panic

/-- /repo/codec/any.go:232 -/
def assertArr : Val → Res (List Val)
  | .seq .ifaceSlice xs => .ok xs
  | _ => .panic

/-- /repo/codec/any.go:240 -/
def assertMap : Val → Res (List (Val × Val))
  | .map .ifaceMap kvs => .ok kvs
  | _ => .panic

/-! ## Accessors -/

/-- /repo/codec/any.go:42-48 -/
def Any.bool (a : Any) : Res Bool :=
  if a.tp = .aBool then assertBool a.s else .err .cantConvert

/-- /repo/codec/any.go:50-56 -/
def Any.string (a : Any) : Res Str :=
  if a.tp = .aString then assertStr a.s else .err .cantConvert

/-- The common shape of `Int`, `Int8`, `Int16`, `Int32`, `Int64` (/repo/codec/any.go:58-131): on a signed
tag assert the type the tag names and convert (Go conversion between signed integers: sign-extend or
truncate) to width `w`; otherwise an error. -/
def Any.signed (a : Any) (w : Nat) : Res (BitVec w) :=
  match a.tp with
  | .aInt8 => do return (← assertInt .i8 a.s).signExtend w
  | .aInt16 => do return (← assertInt .i16 a.s).signExtend w
  | .aInt32 => do return (← assertInt .i32 a.s).signExtend w
  | .aInt64 => do return (← assertInt .i64 a.s).signExtend w
  | _ => .err .cantConvert

/-- /repo/codec/any.go:58-71 (64-bit platform) -/
def Any.int (a : Any) : Res (BitVec 64) := a.signed 64
/-- /repo/codec/any.go:73-86 -/
def Any.int8 (a : Any) : Res (BitVec 8) := a.signed 8
/-- /repo/codec/any.go:88-101 -/
def Any.int16 (a : Any) : Res (BitVec 16) := a.signed 16
/-- /repo/codec/any.go:103-116 -/
def Any.int32 (a : Any) : Res (BitVec 32) := a.signed 32
/-- /repo/codec/any.go:118-131 -/
def Any.int64 (a : Any) : Res (BitVec 64) := a.signed 64

/-- The common shape of `Uint` ... `Uint64` (/repo/codec/any.go:133-206): zero-extend or truncate. -/
def Any.unsigned (a : Any) (w : Nat) : Res (BitVec w) :=
  match a.tp with
  | .aUint8 => do return (← assertUint .u8 a.s).setWidth w
  | .aUint16 => do return (← assertUint .u16 a.s).setWidth w
  | .aUint32 => do return (← assertUint .u32 a.s).setWidth w
  | .aUint64 => do return (← assertUint .u64 a.s).setWidth w
  | _ => .err .cantConvert

/-- /repo/codec/any.go:133-146 (64-bit platform) -/
def Any.uint (a : Any) : Res (BitVec 64) := a.unsigned 64
/-- /repo/codec/any.go:148-161 -/
def Any.uint8 (a : Any) : Res (BitVec 8) := a.unsigned 8
/-- /repo/codec/any.go:163-176 -/
def Any.uint16 (a : Any) : Res (BitVec 16) := a.unsigned 16
/-- /repo/codec/any.go:178-191 -/
def Any.uint32 (a : Any) : Res (BitVec 32) := a.unsigned 32
/-- /repo/codec/any.go:193-206 -/
def Any.uint64 (a : Any) : Res (BitVec 64) := a.unsigned 64

/-- /repo/codec/any.go:208-217 -/
def Any.float32 (a : Any) : Res (BitVec 32) :=
  match a.tp with
  | .aFloat32 => assertF32 a.s
  | .aFloat64 => do return narrow (← assertF64 a.s)
  | _ => .err .cantConvert

/-- /repo/codec/any.go:219-228 -/
def Any.float64 (a : Any) : Res (BitVec 64) :=
  match a.tp with
  | .aFloat32 => do return widen (← assertF32 a.s)
  | .aFloat64 => assertF64 a.s
  | _ => .err .cantConvert

/-- /repo/codec/any.go:230-236 -/
def Any.arr (a : Any) : Res (List Val) :=
  if a.tp = .aArr then assertArr a.s else .err .cantConvert

/-- /repo/codec/any.go:238-244 -/
def Any.map (a : Any) : Res (List (Val × Val)) :=
  if a.tp = .aMap then assertMap a.s else .err .cantConvert

end Verif.Codec
