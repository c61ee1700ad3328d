import Verif.Codec.Value

/-!
# Conversions between float32 and float64, on bit patterns

Go performs these conversions with the CPU's IEEE-754 instructions; they are modelled bit by bit:
exact widening, and narrowing with round-to-nearest-even.  Signalling NaNs are quieted, as on amd64
and arm64.
-/

namespace Verif.Codec

open Verif

/-- `float64(x)` for a float32 `x`, on bit patterns.  Used by `reflect.Value.Float`
(/repo/codec/encoder.go:181) and `any.Float64` (/repo/codec/any.go:222). -/
def widen (b : BitVec 32) : BitVec 64 :=
  let n := b.toNat
  let s := n / 2^31
  let e := n / 2^23 % 2^8
  let m := n % 2^23
  let mag :=
    if e = 255 then
      if m = 0 then 2047 * 2^52                                  -- infinity
      else 2047 * 2^52 + 2^51 + (m % 2^22) * 2^29                -- NaN, quiet bit set
    else if e = 0 then
      if m = 0 then 0                                            -- zero
      else (m.log2 + 874) * 2^52 + (m - 2^m.log2) * 2^(52 - m.log2) -- subnormal, normalised
    else (e + 896) * 2^52 + m * 2^29                             -- normal
  BitVec.ofNat 64 (s * 2^63 + mag)

/-- Division by `2^k` rounded to nearest, ties to even.  Used for the conversion of /repo/codec/any.go:213. -/
def rne (x k : Nat) : Nat :=
  let q := x / 2^k
  let r := x % 2^k
  if 2 * r > 2^k ∨ (2 * r = 2^k ∧ q % 2 = 1) then q + 1 else q

/-- `float32(x)` for a float64 `x`, on bit patterns.  Used by `any.Float32`
(/repo/codec/any.go:213) and by `reflect.Value.Convert` to float32. -/
def narrow (b : BitVec 64) : BitVec 32 :=
  let n := b.toNat
  let s := n / 2^63
  let e := n / 2^52 % 2^11
  let m := n % 2^52
  let mag :=
    if e = 2047 then
      if m = 0 then 255 * 2^23
      else 255 * 2^23 + 2^22 + (m / 2^29) % 2^22
    else
      let sig := if e = 0 then m else m + 2^52
      let r := (Nat.max e 897 - 897) * 2^23 + rne sig (29 + (897 - Nat.max e 1))
      if r ≥ 255 * 2^23 then 255 * 2^23 else r
  BitVec.ofNat 32 (s * 2^31 + mag)

end Verif.Codec
