import Verif.Codec.Value
import Verif.Codec.Float

/-!
# Specification of the codec, independent of the wire format

Nothing in this file mentions bytes, tags or the encoder/decoder.
-/

namespace Verif.Codec

open Verif

/-- What a value means, regardless of the Go type that carries it.  Signed and unsigned integers are kept
apart (the API does: `Int64` on an unsigned value is an error).  A float is identified by the bit pattern
of its float64 representation. -/
inductive Content where
  | nil
  | bool (b : Bool)
  | nat (n : Nat)
  | int (z : Int)
  | float (bits : BitVec 64)
  | str (s : Str)
  | list (xs : List Content)
  | map (kvs : List (Content × Content))
  | unsupported

mutual

/-- The meaning of a Go value. -/
def content : Val → Content
  | .nil => .nil
  | .bool _ b => .bool b
  | .uint _ _ v => .nat v.toNat
  | .int _ _ v => .int v.toInt
  | .f32 _ b => .float (widen b)
  | .f64 _ b => .float b
  | .str _ s => .str s
  | .seq _ xs => .list (contentList xs)
  | .map _ kvs => .map (contentEntries kvs)
  | .bad _ => .unsupported

def contentList : List Val → List Content
  | [] => []
  | x :: xs => content x :: contentList xs

def contentEntries : List (Val × Val) → List (Content × Content)
  | [] => []
  | (k, v) :: rest => (content k, content v) :: contentEntries rest

end

/-- The type an unsigned integer has after a round trip: the narrowest that holds it. -/
def canonNat (n : Nat) : Val :=
  if n < 2^8 then .uint .u8 0 (BitVec.ofNat 8 n)
  else if n < 2^16 then .uint .u16 0 (BitVec.ofNat 16 n)
  else if n < 2^32 then .uint .u32 0 (BitVec.ofNat 32 n)
  else .uint .u64 0 (BitVec.ofNat 64 n)

/-- The type a signed integer has after a round trip: the narrowest whose range, without its least
element, holds it. -/
def canonInt (z : Int) : Val :=
  if -2^7 < z ∧ z < 2^7 then .int .i8 0 (BitVec.ofInt 8 z)
  else if -2^15 < z ∧ z < 2^15 then .int .i16 0 (BitVec.ofInt 16 z)
  else if -2^31 < z ∧ z < 2^31 then .int .i32 0 (BitVec.ofInt 32 z)
  else .int .i64 0 (BitVec.ofInt 64 z)

mutual

/-- The value a receiver obtains for an element of a slice or map (or for a top-level value of a named
or composite type): integers in the narrowest type, floats as float64, sequences as `[]interface{}`, maps
as `map[interface{}]interface{}`. -/
def canon : Val → Val
  | .nil => .nil
  | .bool _ b => .bool 0 b
  | .uint _ _ v => canonNat v.toNat
  | .int _ _ v => canonInt v.toInt
  | .f32 _ b => .f64 0 (widen b)
  | .f64 _ b => .f64 0 b
  | .str _ s => .str 0 s
  | .seq _ xs => .seq .ifaceSlice (canonList xs)
  | .map _ kvs => .map .ifaceMap (canonEntries kvs)
  | .bad k => .bad k

def canonList : List Val → List Val
  | [] => []
  | x :: xs => canon x :: canonList xs

def canonEntries : List (Val × Val) → List (Val × Val)
  | [] => []
  | (k, v) :: rest => (canon k, canon v) :: canonEntries rest

end

/-- The same at top level: a predeclared `float32` keeps its type, and so does the least value of a
predeclared `int8`, `int16` or `int32`. -/
def canonTop : Val → Val
  | .f32 0 b => .f32 0 b
  | .int .i8 0 v => if v.toInt = -2^7 then .int .i8 0 v else canonInt v.toInt
  | .int .i16 0 v => if v.toInt = -2^15 then .int .i16 0 v else canonInt v.toInt
  | .int .i32 0 v => if v.toInt = -2^31 then .int .i32 0 v else canonInt v.toInt
  | v => canon v

/-- No two of the keys are equal in Go's sense. -/
def distinctKeys : List Val → Bool
  | [] => true
  | k :: ks => ks.all (fun k' => !goEq k k') && distinctKeys ks

/-- Not a sequence or map. -/
def isScalar : Val → Bool
  | .seq _ _ => false
  | .map _ _ => false
  | _ => true

/-- Contains no NaN: equal to itself in Go's sense. -/
def reflexive (v : Val) : Bool := goEq v v

/-- The nil interface. -/
def isNil : Val → Bool
  | .nil => true
  | _ => false

mutual

/-- The values that survive a round trip as element of a slice or map: lengths below 2^32, no unsupported
kinds, no float64 whose bit pattern is below 2^32 (this includes +0), and map keys that are scalars and stay
different from each other on the wire; a NaN may be a key only if the value below it is nil. -/
def wireOK : Val → Bool
  | .nil => true
  | .bool _ _ => true
  | .uint _ _ _ => true
  | .int _ _ _ => true
  | .f32 _ b => b != 0
  | .f64 _ b => decide (2^32 ≤ b.toNat)
  | .str _ s => decide (s.length < 2^32)
  | .seq _ xs => decide (xs.length < 2^32) && wireOKList xs
  | .map _ kvs => decide (kvs.length < 2^32) && wireOKEntries kvs &&
      distinctKeys ((canonEntries kvs).map Prod.fst)
  | .bad _ => false

def wireOKList : List Val → Bool
  | [] => true
  | x :: xs => wireOK x && wireOKList xs

def wireOKEntries : List (Val × Val) → Bool
  | [] => true
  | (k, v) :: rest =>
    wireOK k && isScalar k && (reflexive k || isNil v) && wireOK v && wireOKEntries rest

end

/-- The same for a top-level value: a predeclared float32 must have a bit pattern of at least 2^16. -/
def topOK : Val → Bool
  | .f32 0 b => decide (2^16 ≤ b.toNat)
  | v => wireOK v

end Verif.Codec
