import Verif.Codec.Float

/-!
# Conversions between numbers, and of integers to strings

What `reflect.Value.Convert` does with numbers, /repo/chancall/meta.go:49.  Integers go through int64 or uint64 and floats
through float64 (`Value.Int`, `Value.Uint`, `Value.Float` of package reflect).
-/

namespace Verif.Chan

open Verif Verif.Codec

/-- The bits, without sign, of the float64 nearest to a natural number below 2^1023; /repo/chancall/meta.go:49. -/
def natBits (n : Nat) : Nat :=
  if n = 0 then 0
  else if n.log2 ≤ 52 then (n.log2 + 1022) * 2^52 + n * 2^(52 - n.log2)
  else (n.log2 + 1022) * 2^52 + rne n (n.log2 - 52)

/-- `float64(z)` for an integer `z`; /repo/chancall/meta.go:49. -/
def intFloat (z : Int) : BitVec 64 := BitVec.ofNat 64 ((if z < 0 then 2^63 else 0) + natBits z.natAbs)

/-- A float64 without its fraction; none for infinities and NaNs.  /repo/chancall/meta.go:49. -/
def truncFloat (b : BitVec 64) : Option Int :=
  let n := b.toNat
  let e := n / 2^52 % 2^11
  let m := n % 2^52
  if e = 2047 then none
  else
    let mag : Nat := if e < 1023 then 0 else if e ≤ 1075 then (2^52 + m) / 2^(1075 - e) else (2^52 + m) * 2^(e - 1075)
    some (if n / 2^63 = 1 then -(mag : Int) else mag)

/-- The UTF-8 encoding of U+FFFD; /repo/chancall/meta.go:49. -/
def replacement : Str := [0xef, 0xbf, 0xbd]

/-- `string(rune(z))` for an integer: the UTF-8 encoding of the code point, or U+FFFD.  /repo/chancall/meta.go:49. -/
def runeString (z : Int) : Str :=
  if z < 0 then replacement
  else
    let n := z.toNat
    if n < 0x80 then [BitVec.ofNat 8 n]
    else if n < 0x800 then [BitVec.ofNat 8 (0xc0 + n / 64), BitVec.ofNat 8 (0x80 + n % 64)]
    else if 0xd800 ≤ n ∧ n < 0xe000 then replacement
    else if n < 0x10000 then
      [BitVec.ofNat 8 (0xe0 + n / 4096), BitVec.ofNat 8 (0x80 + n / 64 % 64), BitVec.ofNat 8 (0x80 + n % 64)]
    else if n < 0x110000 then
      [BitVec.ofNat 8 (0xf0 + n / 262144), BitVec.ofNat 8 (0x80 + n / 4096 % 64), BitVec.ofNat 8 (0x80 + n / 64 % 64),
        BitVec.ofNat 8 (0x80 + n % 64)]
    else replacement

end Verif.Chan
