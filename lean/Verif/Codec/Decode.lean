import Verif.Codec.Encode

/-!
# Model of /repo/codec/decoder.go

The decoder is parameterised by the reader.  `Reader.read s n` models `reader.Read(buf)` for a buffer
of `n ≥ 1` bytes: `none` is an error (`io.EOF`), `some (bs, s')` is a successful read that delivered
`bs` (at most `n` bytes).  The decoder ignores the number of bytes delivered (`_, err :=
reader.Read(...)`), so a short read leaves the rest of the zero-initialised buffer untouched: `fill`.
-/

namespace Verif.Codec

open Verif

/-- An `io.Reader` with state `σ`.  The `reader` of /repo/codec/decoder.go:15-264. -/
structure Reader (σ : Type) where
  read : σ → Nat → Option (List Byte × σ)

/-- `bytes.Reader` / `bytes.Buffer` holding the unread bytes: EOF when empty, otherwise copies as much as
fits.  This is the reader used by the product (/repo/serializer.go:71). -/
def bytesReader : Reader (List Byte) where
  read s n := if s = [] then none else some (s.take n, s.drop n)

/-- A reader that delivers its data in pieces, e.g. a network connection: one `Read` never crosses a
piece boundary.  For the `reader` of /repo/codec/any.go:251. -/
def chunkReader : Reader (List (List Byte)) where
  read s n := match s with
    | [] => none
    | c :: rest =>
      if c.length ≤ n then some (c, rest) else some (c.take n, c.drop n :: rest)

/-- Contents of a zeroed buffer of length `n` after `bs` was copied into it.  For the arrays of
/repo/codec/decoder.go:16-17 and its copies, and the slice of lines 235-236. -/
def fill (n : Nat) (bs : List Byte) : List Byte := bs ++ List.replicate (n - bs.length) 0

section
variable {σ : Type} (R : Reader σ)

/-- `_, err := reader.Read(data[0:])` with a zeroed buffer of length `n`
(/repo/codec/decoder.go:16-20 and its copies). -/
def readBuf (s : σ) (n : Nat) : Res (List Byte × σ) :=
  match R.read s n with
  | none => .err .eof
  | some (bs, s') => .ok (fill n bs, s')

/-- Go conversion of a byte to a wider integer followed by a left shift.  For example /repo/codec/decoder.go:32. -/
def shl (w : Nat) (b : Byte) (k : Nat) : BitVec w := (b.setWidth w) <<< k

/-- The byte at position `i` of a buffer (the buffers are always long enough).  For example
/repo/codec/decoder.go:32. -/
def at' (data : List Byte) (i : Nat) : Byte := data.getD i 0

/-- /repo/codec/decoder.go:15-23 -/
def readByte (s : σ) : Res (Byte × σ) := do
  let (d, s) ← readBuf R s 1
  return (at' d 0, s)

/-- /repo/codec/decoder.go:25-33; `readInt16` (55-63) is the same on two's complement. -/
def readUint16 (s : σ) : Res (BitVec 16 × σ) := do
  let (d, s) ← readBuf R s 2
  return (shl 16 (at' d 0) 8 ||| shl 16 (at' d 1) 0, s)

/-- /repo/codec/decoder.go:35-43; `readInt32` (65-73) is the same on two's complement. -/
def readUint32 (s : σ) : Res (BitVec 32 × σ) := do
  let (d, s) ← readBuf R s 4
  return (shl 32 (at' d 0) 24 ||| shl 32 (at' d 1) 16 ||| shl 32 (at' d 2) 8 ||| shl 32 (at' d 3) 0, s)

/-- /repo/codec/decoder.go:45-53; `readInt64` (75-83) is the same on two's complement. -/
def readUint64 (s : σ) : Res (BitVec 64 × σ) := do
  let (d, s) ← readBuf R s 8
  return (shl 64 (at' d 0) 56 ||| shl 64 (at' d 1) 48 ||| shl 64 (at' d 2) 40 ||| shl 64 (at' d 3) 32 |||
    shl 64 (at' d 4) 24 ||| shl 64 (at' d 5) 16 ||| shl 64 (at' d 6) 8 ||| shl 64 (at' d 7) 0, s)

/-- /repo/codec/decoder.go:85-98, with the recursive decoder as a parameter. -/
def decodeArray (dec : σ → Res (Val × σ)) : Nat → σ → Res (List Val × σ)
  | 0, s => .ok ([], s)
  | n + 1, s => do
    let (v, s) ← dec s
    let (vs, s) ← decodeArray dec n s
    return (v :: vs, s)

/-- /repo/codec/decoder.go:100-119: read key, read value, `dict[k] = v`, which panics if the key is not
hashable. -/
def decodeMap (dec : σ → Res (Val × σ)) : Nat → List (Val × Val) → σ → Res (List (Val × Val) × σ)
  | 0, dict, s => .ok (dict, s)
  | n + 1, dict, s => do
    let (k, s) ← dec s
    let (v, s) ← dec s
    if hashable k then decodeMap dec n (assign k v dict) s else .panic

/-- `math.Float32frombits(data.(uint32))`, /repo/codec/decoder.go:141: panics unless the nested value is
a `uint32`. -/
def asFloat32 (data : Val × σ) : Res (Val × σ) :=
  match data.1 with
  | .uint .u32 0 bits => .ok (.f32 0 bits, data.2)
  | _ => .panic

/-- `math.Float64frombits(data.(uint64))`, /repo/codec/decoder.go:150. -/
def asFloat64 (data : Val × σ) : Res (Val × σ) :=
  match data.1 with
  | .uint .u64 0 bits => .ok (.f64 0 bits, data.2)
  | _ => .panic

/-- The dispatch on the tag byte `c`, /repo/codec/decoder.go:127-263, with the recursive decoder as a
parameter. -/
def decodeTag (dec : σ → Res (Val × σ)) (c : Byte) (s : σ) : Res (Val × σ) := do
  if c = cNil then return (.nil, s)
  else if c = cFalse then return (.bool 0 false, s)
  else if c = cTrue then return (.bool 0 true, s)
  else if c = cFloat32 then
    asFloat32 (← dec s)
  else if c = cFloat64 then
    asFloat64 (← dec s)
  else if c = cUint8 then
    let (d, s) ← readByte R s
    return (.uint .u8 0 d, s)
  else if c = cUint16 then
    let (d, s) ← readUint16 R s
    return (.uint .u16 0 d, s)
  else if c = cUint32 then
    let (d, s) ← readUint32 R s
    return (.uint .u32 0 d, s)
  else if c = cUint64 then
    let (d, s) ← readUint64 R s
    return (.uint .u64 0 d, s)
  else if c = cInt8 then
    let (d, s) ← readByte R s
    return (.int .i8 0 d, s)
  else if c = cInt16 then
    let (d, s) ← readUint16 R s
    return (.int .i16 0 d, s)
  else if c = cInt32 then
    let (d, s) ← readUint32 R s
    return (.int .i32 0 d, s)
  else if c = cInt64 then
    let (d, s) ← readUint64 R s
    return (.int .i64 0 d, s)
  else if c = cStr32 then
    let (n, s) ← readUint32 R s
    if n.toNat = 0 then return (.str 0 [], s)
    else
      let (d, s) ← readBuf R s n.toNat
      return (.str 0 d, s)
  else if c = cArr32 then
    let (n, s) ← readUint32 R s
    let (vs, s) ← decodeArray dec n.toNat s
    return (.seq .ifaceSlice vs, s)
  else if c = cMap32 then
    let (n, s) ← readUint32 R s
    let (kvs, s) ← decodeMap dec n.toNat [] s
    return (.map .ifaceMap kvs, s)
  else .err .unsupportedCode

/-- /repo/codec/decoder.go:121-264.  `fuel` bounds the nesting depth. -/
def decodeF : Nat → σ → Res (Val × σ)
  | 0, _ => .diverge
  | fuel + 1, s => do
    let (c, s) ← readByte R s
    decodeTag R (decodeF fuel) c s

end

/-- `decode` on a `bytes.Reader`; the fuel is one more than the number of unread bytes, which is always
enough (`decode_ne_diverge`).  /repo/codec/decoder.go:121-264. -/
def decode (s : List Byte) : Res (Val × List Byte) := decodeF bytesReader (s.length + 1) s

/-- `decode` on a reader that delivers the data in the given non-empty pieces.  /repo/codec/decoder.go:121-264. -/
def decodeChunked (s : List (List Byte)) : Res (Val × List (List Byte)) :=
  decodeF chunkReader (s.flatten.length + 1) s

end Verif.Codec
