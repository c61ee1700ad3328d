import Verif.Codec.Decode

/-!
# Memory requested while decoding (/repo/codec/decoder.go)

The decoder reserves room for an array and for a string as soon as it has read the announced number of
elements or bytes, before it reads any of them.  `requestsF` lists these requests in the order in which
they are made, also when the decoding fails in the end.

Not counted: the small fixed-size buffers (`bytes1` to `bytes8`), the boxes of scalar values, the buckets
of a map (a map is created empty, decoder.go:102, and grows by the entries that were really read), and
the copy made by `string(data)` (decoder.go:241).
-/

namespace Verif.Codec

open Verif

/-- A request for memory whose size was announced by the input.  /repo/codec/decoder.go:87 and 235. -/
inductive Req where
  /-- `make([]interface{}, count)`, /repo/codec/decoder.go:87. -/
  | array (count : Nat)
  /-- `make(bytes, n)`, /repo/codec/decoder.go:235. -/
  | string (n : Nat)
deriving DecidableEq, Repr

/-- Size in bytes; an `interface{}` takes two words of 8 bytes.  /repo/codec/decoder.go:87 and 235. -/
def Req.size : Req → Nat
  | .array count => 16 * count
  | .string n => n

/-- The requests of the loop /repo/codec/decoder.go:88-95: those of the first element, then those of the
others unless the first failed. -/
def requestsArray (dec : List Byte → Res (Val × List Byte)) (req : List Byte → List Req) :
    Nat → List Byte → List Req
  | 0, _ => []
  | n + 1, s => req s ++ match dec s with
    | .ok (_, s) => requestsArray dec req n s
    | _ => []

/-- The requests of the loop /repo/codec/decoder.go:104-116. -/
def requestsMap (dec : List Byte → Res (Val × List Byte)) (req : List Byte → List Req) :
    Nat → List Byte → List Req
  | 0, _ => []
  | n + 1, s => req s ++ match dec s with
    | .ok (k, s) => req s ++ match dec s with
      | .ok (_, s) => if hashable k then requestsMap dec req n s else []
      | _ => []
    | _ => []

/-- The requests of `decode` on a `bytes.Reader`, /repo/codec/decoder.go:121-264. -/
def requestsF : Nat → List Byte → List Req
  | 0, _ => []
  | fuel + 1, s => match readByte bytesReader s with
    | .ok (c, s) =>
      if c = cFloat32 then requestsF fuel s
      else if c = cFloat64 then requestsF fuel s
      else if c = cStr32 then
        match readUint32 bytesReader s with
        | .ok (n, _) => if n.toNat = 0 then [] else [.string n.toNat]
        | _ => []
      else if c = cArr32 then
        match readUint32 bytesReader s with
        | .ok (n, s) =>
          .array n.toNat :: requestsArray (decodeF bytesReader fuel) (requestsF fuel) n.toNat s
        | _ => []
      else if c = cMap32 then
        match readUint32 bytesReader s with
        | .ok (n, s) => requestsMap (decodeF bytesReader fuel) (requestsF fuel) n.toNat s
        | _ => []
      else []
    | _ => []

/-- The requests of `decode` on `s`, with the same fuel as `decode`.  /repo/codec/decoder.go:121-264. -/
def requests (s : List Byte) : List Req := requestsF (s.length + 1) s

/-- Bytes requested altogether.  /repo/codec/decoder.go:87 and 235. -/
def total (rs : List Req) : Nat := (rs.map Req.size).sum

end Verif.Codec
