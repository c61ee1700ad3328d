import Verif.Codec.Spec

/-!
# The MsgPack format, as far as the content of this library's values can be expressed in it

Transcribed from the MsgPack specification (format overview), independently of the encoder: all integer,
float, string, array and map formats, not only those the encoder uses.  `MP c bs` reads "`bs` is a MsgPack
encoding of `c`".  MsgPack does not keep signed and unsigned integers apart.  (That strings should be UTF-8
is not demanded.)
-/

namespace Verif.Codec.MsgPack

open Verif Verif.Codec

/-- A big-endian number. -/
def be (p : List Byte) : Nat := p.foldl (fun a b => a * 256 + b.toNat) 0

/-- A big-endian number in two's complement. -/
def beSigned (p : List Byte) : Int :=
  if 2 * be p < 256 ^ p.length then (be p : Int) else (be p : Int) - 256 ^ p.length

/-- Integers. -/
inductive MPInt : Int → List Byte → Prop
  | posFix (b : Byte) : b.toNat < 0x80 → MPInt b.toNat [b]
  | negFix (b : Byte) : 0xe0 ≤ b.toNat → MPInt ((b.toNat : Int) - 256) [b]
  | uint (tag : Byte) (p : List Byte) :
      (tag = 0xcc ∧ p.length = 1) ∨ (tag = 0xcd ∧ p.length = 2) ∨ (tag = 0xce ∧ p.length = 4) ∨
        (tag = 0xcf ∧ p.length = 8) → MPInt (be p) (tag :: p)
  | int (tag : Byte) (p : List Byte) :
      (tag = 0xd0 ∧ p.length = 1) ∨ (tag = 0xd1 ∧ p.length = 2) ∨ (tag = 0xd2 ∧ p.length = 4) ∨
        (tag = 0xd3 ∧ p.length = 8) → MPInt (beSigned p) (tag :: p)

/-- Headers of strings, arrays and maps with a length: `fix` is the first tag of the short form, which
holds lengths below `2^fixBits`; the other tags carry the length in 1, 2 or 4 bytes. -/
inductive MPHeader (fix : Nat) (fixBits : Nat) (t8 t16 t32 : Option Byte) : Nat → List Byte → Prop
  | fix (n : Nat) : n < 2^fixBits → MPHeader fix fixBits t8 t16 t32 n [BitVec.ofNat 8 (fix + n)]
  | len8 (tag : Byte) (p : List Byte) : t8 = some tag → p.length = 1 → MPHeader fix fixBits t8 t16 t32 (be p) (tag :: p)
  | len16 (tag : Byte) (p : List Byte) : t16 = some tag → p.length = 2 → MPHeader fix fixBits t8 t16 t32 (be p) (tag :: p)
  | len32 (tag : Byte) (p : List Byte) : t32 = some tag → p.length = 4 → MPHeader fix fixBits t8 t16 t32 (be p) (tag :: p)

mutual

inductive MP : Content → List Byte → Prop
  | nil : MP .nil [0xc0]
  | false : MP (.bool false) [0xc2]
  | true : MP (.bool true) [0xc3]
  | nat (n : Nat) (bs : List Byte) : MPInt n bs → MP (.nat n) bs
  | int (z : Int) (bs : List Byte) : MPInt z bs → MP (.int z) bs
  | float32 (p : List Byte) : p.length = 4 → MP (.float (widen (BitVec.ofNat 32 (be p)))) (0xca :: p)
  | float64 (p : List Byte) : p.length = 8 → MP (.float (BitVec.ofNat 64 (be p))) (0xcb :: p)
  | str (s : Str) (hd : List Byte) :
      MPHeader 0xa0 5 (some 0xd9) (some 0xda) (some 0xdb) s.length hd → MP (.str s) (hd ++ s)
  | arr (xs : List Content) (hd bs : List Byte) :
      MPHeader 0x90 4 none (some 0xdc) (some 0xdd) xs.length hd → MPList xs bs → MP (.list xs) (hd ++ bs)
  | map (kvs : List (Content × Content)) (hd bs : List Byte) :
      MPHeader 0x80 4 none (some 0xde) (some 0xdf) kvs.length hd → MPPairs kvs bs → MP (.map kvs) (hd ++ bs)

/-- Concatenated elements. -/
inductive MPList : List Content → List Byte → Prop
  | nil : MPList [] []
  | cons {c : Content} {cs : List Content} {b bs : List Byte} : MP c b → MPList cs bs → MPList (c :: cs) (b ++ bs)

/-- Concatenated keys and values. -/
inductive MPPairs : List (Content × Content) → List Byte → Prop
  | nil : MPPairs [] []
  | cons {k v : Content} {kvs : List (Content × Content)} {bk bv bs : List Byte} :
      MP k bk → MP v bv → MPPairs kvs bs → MPPairs ((k, v) :: kvs) (bk ++ bv ++ bs)

end

end Verif.Codec.MsgPack
