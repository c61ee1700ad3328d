import Verif.Codec.Any

/-!
# Model of /repo/protocol.go and /repo/serializer.go

Packets, their bodies, and the length-prefixed frames that carry them.
-/

namespace Verif.Proto

open Verif Verif.Codec

/-- A Go `[]string` as the codec sees it (some slice type other than `[]interface{}`).  /repo/protocol.go:86 and 115. -/
def strings (ss : List Str) : Val := .seq (.slice 1) (ss.map (Val.str 0))

/-- The nine packet bodies, /repo/protocol.go:52-378.  A body is passed around as the interface `IProto`;
the constructor is its dynamic type. -/
inductive Proto where
  /-- `protoError`, /repo/protocol.go:53-55 -/
  | error (error : Str)
  /-- `protoHeartbeat`, /repo/protocol.go:73-74 -/
  | heartbeat
  /-- `protoReady`, /repo/protocol.go:85-87 -/
  | ready (slots : List Str)
  /-- `protoRegisterRequest`, /repo/protocol.go:114-116 -/
  | registerRequest (slots : List Str)
  /-- `protoRegisterResponse`, /repo/protocol.go:143-145 (`Port int`) -/
  | registerResponse (port : BitVec 64)
  /-- `protoQueryRequest`, /repo/protocol.go:163-165 -/
  | queryRequest (slot : Str)
  /-- `protoQueryResponse`, /repo/protocol.go:183-185 -/
  | queryResponse (dockAddr : Str)
  /-- `protoRpcRequest`, /repo/protocol.go:203-209 -/
  | rpcRequest (index : BitVec 64) (slot method : Str) (args : List Val) (withResult : Bool)
  /-- `protoRpcResponse`, /repo/protocol.go:292-298 -/
  | rpcResponse (index : BitVec 64) (slot method : Str) (result : List Val) (err : Str)

/-- `packer`, /repo/serializer.go:16-19; `cProtoType` is a named `uint8`, /repo/protocol.go:13. -/
structure Packer where
  id : BitVec 8
  p : Proto

/-! ## Identifiers, /repo/protocol.go:15-25 -/

/-- /repo/protocol.go:16 -/
def cError : BitVec 8 := 0x0
/-- /repo/protocol.go:17 -/
def cHeartbeat : BitVec 8 := 0x1
/-- /repo/protocol.go:18 -/
def cReady : BitVec 8 := 0x2
/-- /repo/protocol.go:19 -/
def cRegisterRequest : BitVec 8 := 0x3
/-- /repo/protocol.go:20 -/
def cRegisterResponse : BitVec 8 := 0x4
/-- /repo/protocol.go:21 -/
def cQueryRequest : BitVec 8 := 0x5
/-- /repo/protocol.go:22 -/
def cQueryResponse : BitVec 8 := 0x6
/-- /repo/protocol.go:23 -/
def cRpcRequest : BitVec 8 := 0x7
/-- /repo/protocol.go:24 -/
def cRpcResponse : BitVec 8 := 0x8

/-- /repo/protocol.go:27-50: the zero value of the body type named by the identifier, `none` for `nil`. -/
def protoMaker (id : BitVec 8) : Option Proto :=
  if id = cError then some (.error [])
  else if id = cHeartbeat then some .heartbeat
  else if id = cRegisterRequest then some (.registerRequest [])
  else if id = cRegisterResponse then some (.registerResponse 0)
  else if id = cReady then some (.ready [])
  else if id = cQueryRequest then some (.queryRequest [])
  else if id = cQueryResponse then some (.queryResponse [])
  else if id = cRpcRequest then some (.rpcRequest 0 [] [] [] false)
  else if id = cRpcResponse then some (.rpcResponse 0 [] [] [] [])
  else none

/-! ## Marshal -/

/-- `codec.NewAny(v).Encode(writer)`, For example /repo/protocol.go:58. -/
def put (v : Val) : Enc := (newAny v).encode

/-- The `Marshal` methods, /repo/protocol.go:57-59, 76-78, 89-91, 118-120, 147-149, 167-169, 187-189,
211-238, 300-327. -/
def Proto.marshal : Proto → Enc
  | .error e => put (.str 0 e)
  | .heartbeat => .ok []
  | .ready slots => put (strings slots)
  | .registerRequest slots => put (strings slots)
  | .registerResponse port => put (.int .int 0 port)
  | .queryRequest slot => put (.str 0 slot)
  | .queryResponse addr => put (.str 0 addr)
  | .rpcRequest index slot method args withResult =>
    (put (.int .i64 0 index)).seq ((put (.str 0 slot)).seq ((put (.str 0 method)).seq
      ((put (.seq .ifaceSlice args)).seq (put (.bool 0 withResult)))))
  | .rpcResponse index slot method result err =>
    (put (.int .i64 0 index)).seq ((put (.str 0 slot)).seq ((put (.str 0 method)).seq
      ((put (.seq .ifaceSlice result)).seq (put (.str 0 err)))))

/-- The named type `cProtoType` in an `interface{}` (`tid` 7 stands for it).  /repo/protocol.go:13 and
/repo/serializer.go:38. -/
def idVal (id : BitVec 8) : Val := .uint .u8 7 id

/-- The bytes of a packet without the length header, /repo/serializer.go:34-50. -/
def Packer.body (p : Packer) : Enc := (put (idVal p.id)).seq p.p.marshal

/-- The four header bytes, little endian, /repo/serializer.go:53-57. -/
def lengthHeader (length : Nat) : List Byte :=
  let l : BitVec 64 := BitVec.ofNat 64 length      -- Go `int`
  [byte l, byte (l >>> 8), byte (l >>> 16), byte (l >>> 24)]

/-- `serializer.Marshal` on a `*packer`, /repo/serializer.go:31-59; an encoding error ends the process
(`log.Fatal`).  (Other argument types also end it, lines 60-62; the modelled code only sends packers.) -/
def marshal (p : Packer) : Res (List Byte) :=
  match p.body.err with
  | some _ => .fatal
  | none => .ok (lengthHeader p.body.bytes.length ++ p.body.bytes)

/-! ## Unmarshal -/

/-- `err := any.Decode(reader)`, then `x, err := any.Accessor()`, returning on either error; the object
`any` is reused, the unread rest of the body is passed on.  For example /repo/protocol.go:95-103. -/
def get {α : Type} (a : Any) (s : List Byte) (acc : Any → Res α) : Res (α × Any × List Byte) :=
  match a.decode s with
  | (a', .ok rest) => do
    let x ← acc a'
    return (x, a', rest)
  | (_, .err e) => .err e
  | (_, .panic) => .panic
  | (_, .fatal) => .fatal
  | (_, .diverge) => .diverge

/-- `for i, iv := range arr { p.Slots[i] = iv.(string) }`, /repo/protocol.go:106-108, 135-137: panics on an
element that is not a string. -/
def assertStrings : List Val → Res (List Str)
  | [] => .ok []
  | x :: xs => do
    let s ← assertStr x
    let ss ← assertStrings xs
    return s :: ss

/-- `any.Arr()` followed by the loop above.  /repo/protocol.go:100-108, 129-137. -/
def Any.strings (a : Any) : Res (List Str) := do
  let xs ← a.arr
  assertStrings xs

/-- The `Unmarshal` methods of the body types, on the unread bytes `s`; each starts with
`codec.NewAny(nil)`.  /repo/protocol.go:61-70, 80-82, 93-111, 122-140, 151-160, 171-180, 191-200,
240-289, 329-378. -/
def Proto.unmarshal (p : Proto) (s : List Byte) : Res Proto :=
  let a := newAny .nil
  match p with
  | .error _ => do
    let (e, _, _) ← get a s Codec.Any.string
    return .error e
  | .heartbeat => .ok .heartbeat
  | .ready _ => do
    let (ss, _, _) ← get a s Any.strings
    return .ready ss
  | .registerRequest _ => do
    let (ss, _, _) ← get a s Any.strings
    return .registerRequest ss
  | .registerResponse _ => do
    let (n, _, _) ← get a s Codec.Any.int
    return .registerResponse n
  | .queryRequest _ => do
    let (x, _, _) ← get a s Codec.Any.string
    return .queryRequest x
  | .queryResponse _ => do
    let (x, _, _) ← get a s Codec.Any.string
    return .queryResponse x
  | .rpcRequest _ _ _ _ _ => do
    let (index, a, s) ← get a s Codec.Any.int64
    let (slot, a, s) ← get a s Codec.Any.string
    let (method, a, s) ← get a s Codec.Any.string
    let (args, a, s) ← get a s Codec.Any.arr
    let (withResult, _, _) ← get a s Codec.Any.bool
    return .rpcRequest index slot method args withResult
  | .rpcResponse _ _ _ _ _ => do
    let (index, a, s) ← get a s Codec.Any.int64
    let (slot, a, s) ← get a s Codec.Any.string
    let (method, a, s) ← get a s Codec.Any.string
    let (result, a, s) ← get a s Codec.Any.arr
    let (err, _, _) ← get a s Codec.Any.string
    return .rpcResponse index slot method result err

/-- `log.Fatal(err)` when the error is not nil.  /repo/serializer.go:74-77, 79-82, 87-90. -/
def fatalOnErr {α : Type} : Res α → Res α
  | .err _ => .fatal
  | r => r

/-- The length announced by the first four bytes, /repo/serializer.go:68 and 103. -/
def announced (data : List Byte) : Nat :=
  ((at' data 0).setWidth 64 ||| (at' data 1).setWidth 64 <<< 8 ||| (at' data 2).setWidth 64 <<< 16 |||
    (at' data 3).setWidth 64 <<< 24 : BitVec 64).toNat

/-- Unmarshal of a body (everything after the header), /repo/serializer.go:71-95.  `maker` returning nil
makes the method call `p.Unmarshal` on the nil interface panic. -/
def unmarshalBody (body : List Byte) : Res Packer := do
  let (value, _, rest) ← fatalOnErr (get (newAny .nil) body Codec.Any.uint8)
  match protoMaker value with
  | none => .panic
  | some p =>
    let p ← fatalOnErr (p.unmarshal rest)
    return ⟨value, p⟩

/-- `serializer.Unmarshal`, /repo/serializer.go:67-96.  Indexing outside `data` panics. -/
def unmarshal (data : List Byte) : Res Packer :=
  if data.length < 4 then .panic
  else if data.length < 4 + announced data then .panic
  else unmarshalBody ((data.drop 4).take (announced data))

/-- `serializer.Slice`, /repo/serializer.go:98-109. -/
def slice (source : List Byte) : Nat :=
  if source.length < 4 then 0
  else if source.length < 4 + announced source then 0
  else 4 + announced source

end Verif.Proto
