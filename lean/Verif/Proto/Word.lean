import Verif.Codec.Word
import Verif.Net.Recv

/-!
# /repo/serializer.go and /repo/protocol.go on a platform of 32 bits

As `Verif.Proto.Packet`, with `int` of 32 bits.  The packets have the same type as there; the port of a response is an
`int`, here one that fits 32 bits.
-/

namespace Verif.Proto

open Verif Verif.Codec

/-- `codec.NewAny(v).Encode(writer)` on 32 bits.  For example /repo/protocol.go:147-149. -/
def put32 (v : Val) : Enc := (newAny v).encode32

/-- The body of a packet: only the port is an `int`, /repo/protocol.go:143-149; all other fields have types whose
encoding does not look at the word size. -/
def Packer.body32 (p : Packer) : Enc :=
  match p.p with
  | .registerResponse port => (put (idVal p.id)).seq (put32 (.int .int 0 port))
  | _ => p.body

/-- `serializer.Marshal`, /repo/serializer.go:31-59; `length` has 32 bits. -/
def marshal32 (p : Packer) : Res (List Byte) :=
  match p.body32.err with
  | some _ => .fatal
  | none =>
    let l : BitVec 32 := BitVec.ofNat 32 p.body32.bytes.length
    .ok ([byte l, byte (l >>> 8), byte (l >>> 16), byte (l >>> 24)] ++ p.body32.bytes)

/-- `Decode` and an accessor, as `get`.  For example /repo/protocol.go:95-103. -/
def get32 {α : Type} (a : Any) (s : List Byte) (acc : Any → Res α) : Res (α × Any × List Byte) :=
  match a.decodeL limits32 s with
  | (a', .ok rest) => do
    let x ← acc a'
    return (x, a', rest)
  | (_, .err e) => .err e
  | (_, .panic) => .panic
  | (_, .fatal) => .fatal
  | (_, .diverge) => .diverge

/-- The `Unmarshal` methods, as `Proto.unmarshal`.  /repo/protocol.go:61-70, 80-82, 93-111, 122-140, 151-160, 171-180,
191-200, 240-289, 329-378. -/
def Proto.unmarshal32 (p : Proto) (s : List Byte) : Res Proto :=
  let a := newAny .nil
  match p with
  | .error _ => do
    let (e, _, _) ← get32 a s Codec.Any.string
    return .error e
  | .heartbeat => .ok .heartbeat
  | .ready _ => do
    let (ss, _, _) ← get32 a s Any.strings
    return .ready ss
  | .registerRequest _ => do
    let (ss, _, _) ← get32 a s Any.strings
    return .registerRequest ss
  | .registerResponse _ => do
    let (n, _, _) ← get32 a s Codec.Any.intOn32
    return .registerResponse (n.signExtend 64)
  | .queryRequest _ => do
    let (x, _, _) ← get32 a s Codec.Any.string
    return .queryRequest x
  | .queryResponse _ => do
    let (x, _, _) ← get32 a s Codec.Any.string
    return .queryResponse x
  | .rpcRequest _ _ _ _ _ => do
    let (index, a, s) ← get32 a s Codec.Any.int64
    let (slot, a, s) ← get32 a s Codec.Any.string
    let (method, a, s) ← get32 a s Codec.Any.string
    let (args, a, s) ← get32 a s Codec.Any.arr
    let (withResult, _, _) ← get32 a s Codec.Any.bool
    return .rpcRequest index slot method args withResult
  | .rpcResponse _ _ _ _ _ => do
    let (index, a, s) ← get32 a s Codec.Any.int64
    let (slot, a, s) ← get32 a s Codec.Any.string
    let (method, a, s) ← get32 a s Codec.Any.string
    let (result, a, s) ← get32 a s Codec.Any.arr
    let (err, _, _) ← get32 a s Codec.Any.string
    return .rpcResponse index slot method result err

/-- Everything after the header, as `unmarshalBody`.  /repo/serializer.go:71-95. -/
def unmarshalBody32 (body : List Byte) : Res Packer := do
  let (value, _, rest) ← fatalOnErr (get32 (newAny .nil) body Codec.Any.uint8)
  match protoMaker value with
  | none => .panic
  | some p =>
    let p ← fatalOnErr (p.unmarshal32 rest)
    return ⟨value, p⟩

/-- The length announced by the first four bytes, as an `int` of 32 bits.  /repo/serializer.go:68 and 103. -/
def announced32 (data : List Byte) : BitVec 32 :=
  (at' data 0).setWidth 32 ||| (at' data 1).setWidth 32 <<< 8 ||| (at' data 2).setWidth 32 <<< 16 |||
    (at' data 3).setWidth 32 <<< 24

/-- `serializer.Unmarshal`, /repo/serializer.go:67-96: `data[4 : 4+length]` panics if the sum, which may overflow, is
less than 4 or more than there is. -/
def unmarshal32 (data : List Byte) : Res Packer :=
  if data.length < 4 then .panic
  else
    let e := (4 + announced32 data).toInt
    if e < 4 ∨ (data.length : Int) < e then .panic
    else unmarshalBody32 ((data.drop 4).take (e.toNat - 4))

/-- `serializer.Slice`, /repo/serializer.go:98-109.  The result may be negative. -/
def slice32 (source : List Byte) : Int :=
  if source.length < 4 then 0
  else
    let e := (4 + announced32 source).toInt
    if (source.length : Int) < e then 0 else e

/-- The serializer on 32 bits, for the receive routine, whose loop ends unless the result of `Slice` is positive
(/repo/network/peer.go:88).  /repo/serializer.go:27-109. -/
def serializer32 : Net.Serializer Packer := ⟨marshal32, unmarshal32, fun s => (slice32 s).toNat⟩

end Verif.Proto
