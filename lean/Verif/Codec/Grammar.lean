import Verif.Codec.DecodeFacts

/-!
# A grammar of the inputs of `Decode`

Stated on bytes alone, without the decoder: `Item s t` says that an acceptable item stands at the front of
`s` and `t` is what is left behind it; `Crash s` says that `s` starts with something no decoder of this
design can survive.  `decode` is shown to agree with both.
-/

namespace Verif.Codec

open Verif

/-- The number of payload bytes behind the tag of a value of fixed size. -/
def payload (c : Byte) : Option Nat :=
  if c = 0xc0 ∨ c = 0xc2 ∨ c = 0xc3 then some 0
  else if c = 0xcc ∨ c = 0xd0 then some 1
  else if c = 0xcd ∨ c = 0xd1 then some 2
  else if c = 0xce ∨ c = 0xd2 then some 4
  else if c = 0xcf ∨ c = 0xd3 then some 8
  else none

/-- The big-endian number in the first four bytes; missing bytes count as zero. -/
def count (s : List Byte) : Nat :=
  (s.getD 0 0).toNat * 2^24 + (s.getD 1 0).toNat * 2^16 + (s.getD 2 0).toNat * 2^8 + (s.getD 3 0).toNat

mutual
/-- `Item s t`: `s` starts with an acceptable item, `t` follows it.  Payloads may be cut short by the end of
the input, as long as one byte is there. -/
inductive Item : List Byte → List Byte → Prop
  | fixed (c : Byte) (n : Nat) (s : List Byte) : payload c = some n → (n = 0 ∨ s ≠ []) →
      Item (c :: s) (s.drop n)
  | str (s : List Byte) : s ≠ [] → (count s = 0 ∨ s.drop 4 ≠ []) →
      Item (0xdb :: s) ((s.drop 4).drop (count s))
  | f32 (s t : List Byte) : s.head? = some 0xce → Item s t → Item (0xca :: s) t
  | f64 (s t : List Byte) : s.head? = some 0xcf → Item s t → Item (0xcb :: s) t
  | arr (s t : List Byte) : s ≠ [] → Items (count s) (s.drop 4) t → Item (0xdd :: s) t
  | map (s t : List Byte) : s ≠ [] → Pairs (count s) (s.drop 4) t → Item (0xdf :: s) t

/-- `n` items in a row. -/
inductive Items : Nat → List Byte → List Byte → Prop
  | none (s : List Byte) : Items 0 s s
  | more (n : Nat) (s t u : List Byte) : Item s t → Items n t u → Items (n + 1) s u

/-- `n` pairs of items in a row, of which the first is no array and no map. -/
inductive Pairs : Nat → List Byte → List Byte → Prop
  | none (s : List Byte) : Pairs 0 s s
  | more (n : Nat) (s t u w : List Byte) : Item s t → s.head? ≠ some 0xdd → s.head? ≠ some 0xdf →
      Item t u → Pairs n u w → Pairs (n + 1) s w
end

mutual
/-- Inputs no run of `Decode` survives. -/
inductive Crash : List Byte → Prop
  | wrong32 (s t : List Byte) : Item s t → s.head? ≠ some 0xce → Crash (0xca :: s)
  | wrong64 (s t : List Byte) : Item s t → s.head? ≠ some 0xcf → Crash (0xcb :: s)
  | in32 (s : List Byte) : Crash s → Crash (0xca :: s)
  | in64 (s : List Byte) : Crash s → Crash (0xcb :: s)
  | arr (s : List Byte) : s ≠ [] → CrashItems (count s) (s.drop 4) → Crash (0xdd :: s)
  | map (s : List Byte) : s ≠ [] → CrashPairs (count s) (s.drop 4) → Crash (0xdf :: s)

/-- One of `n` items in a row is fatal, and those before it are acceptable. -/
inductive CrashItems : Nat → List Byte → Prop
  | here (n : Nat) (s : List Byte) : Crash s → CrashItems (n + 1) s
  | later (n : Nat) (s t : List Byte) : Item s t → CrashItems n t → CrashItems (n + 1) s

/-- One of `n` pairs in a row is fatal, and those before it are acceptable: its key is, or its value is, or
both are acceptable but the key is an array or a map. -/
inductive CrashPairs : Nat → List Byte → Prop
  | key (n : Nat) (s : List Byte) : Crash s → CrashPairs (n + 1) s
  | value (n : Nat) (s t : List Byte) : Item s t → Crash t → CrashPairs (n + 1) s
  | unhashable (n : Nat) (s t u : List Byte) : Item s t → Item t u →
      (s.head? = some 0xdd ∨ s.head? = some 0xdf) → CrashPairs (n + 1) s
  | later (n : Nat) (s t u : List Byte) : Item s t → s.head? ≠ some 0xdd → s.head? ≠ some 0xdf →
      Item t u → CrashPairs n u → CrashPairs (n + 1) s
end

/-! ## Reading a count -/

private theorem shl_toNat (b : Byte) (k : Nat) (hk : k ≤ 24) : (shl 32 b k).toNat = b.toNat <<< k := by
  have hb := b.isLt
  simp only [shl, BitVec.toNat_shiftLeft, BitVec.toNat_setWidth]
  rw [Nat.mod_eq_of_lt (show b.toNat < 2^32 by omega), Nat.mod_eq_of_lt]
  rw [Nat.shiftLeft_eq]
  have h2 : 2^k ≤ 2^24 := Nat.pow_le_pow_right (by omega) hk
  calc b.toNat * 2^k ≤ 255 * 2^24 := Nat.mul_le_mul (by omega) h2
    _ < 2^32 := by decide

private theorem join_toNat (a b c d : Byte) :
    (shl 32 a 24 ||| shl 32 b 16 ||| shl 32 c 8 ||| shl 32 d 0).toNat =
      a.toNat * 2^24 + b.toNat * 2^16 + c.toNat * 2^8 + d.toNat := by
  have := b.isLt; have := c.isLt; have := d.isLt
  simp only [BitVec.toNat_or, shl_toNat _ 24 (by omega), shl_toNat _ 16 (by omega), shl_toNat _ 8 (by omega),
    shl_toNat _ 0 (by omega), Nat.or_assoc, Nat.shiftLeft_zero]
  rw [← Nat.shiftLeft_add_eq_or_of_lt (show d.toNat < 2^8 by omega) c.toNat]
  rw [← Nat.shiftLeft_add_eq_or_of_lt (i := 16) (by rw [Nat.shiftLeft_eq]; omega) b.toNat]
  rw [← Nat.shiftLeft_add_eq_or_of_lt (i := 24) (by simp only [Nat.shiftLeft_eq]; omega) a.toNat]
  simp only [Nat.shiftLeft_eq]
  omega

private theorem at_fill (s : List Byte) (i : Nat) (h : i < 4) : at' (fill 4 (s.take 4)) i = s.getD i 0 := by
  have : i = 0 ∨ i = 1 ∨ i = 2 ∨ i = 3 := by omega
  match s with
  | [] => rcases this with rfl | rfl | rfl | rfl <;> simp [at', fill]
  | [a] => rcases this with rfl | rfl | rfl | rfl <;> simp [at', fill]
  | [a, b] => rcases this with rfl | rfl | rfl | rfl <;> simp [at', fill]
  | [a, b, c] => rcases this with rfl | rfl | rfl | rfl <;> simp [at', fill]
  | a :: b :: c :: d :: t => rcases this with rfl | rfl | rfl | rfl <;> simp [at', fill]

theorem readUint32_count {s : List Byte} (h : s ≠ []) :
    ∃ n : BitVec 32, readUint32 bytesReader s = .ok (n, s.drop 4) ∧ n.toNat = count s := by
  refine ⟨_, by simp [readUint32, readBuf_ne h]; rfl, ?_⟩
  rw [join_toNat, at_fill s 0 (by omega), at_fill s 1 (by omega), at_fill s 2 (by omega),
    at_fill s 3 (by omega)]
  rfl

/-! ## The decoder follows the grammar -/

/-- What the tag tells about the value. -/
def Shape (s : List Byte) (v : Val) : Prop :=
  (s.head? = some 0xce ↔ ∃ b, v = .uint .u32 0 b) ∧ (s.head? = some 0xcf ↔ ∃ b, v = .uint .u64 0 b) ∧
  (hashable v = false ↔ s.head? = some 0xdd ∨ s.head? = some 0xdf)

/-- An outcome that agrees with the grammar. -/
def Agrees (s : List Byte) : Res (Val × List Byte) → Prop
  | .ok (v, t) => (∀ t', Item s t' ↔ t' = t) ∧ ¬ Crash s ∧ Shape s v
  | .err _ => (∀ t, ¬ Item s t) ∧ ¬ Crash s
  | .panic => (∀ t, ¬ Item s t) ∧ Crash s
  | _ => False

def AgreesItems (n : Nat) (s : List Byte) : Res (List Val × List Byte) → Prop
  | .ok (_, t) => (∀ t', Items n s t' ↔ t' = t) ∧ ¬ CrashItems n s
  | .err _ => (∀ t, ¬ Items n s t) ∧ ¬ CrashItems n s
  | .panic => (∀ t, ¬ Items n s t) ∧ CrashItems n s
  | _ => False

def AgreesPairs (n : Nat) (s : List Byte) : Res (List (Val × Val) × List Byte) → Prop
  | .ok (_, t) => (∀ t', Pairs n s t' ↔ t' = t) ∧ ¬ CrashPairs n s
  | .err _ => (∀ t, ¬ Pairs n s t) ∧ ¬ CrashPairs n s
  | .panic => (∀ t, ¬ Pairs n s t) ∧ CrashPairs n s
  | _ => False

/-- A decoder that agrees with the grammar on inputs of less than `m` bytes and consumes what it accepts. -/
def Follows (m : Nat) (dec : List Byte → Res (Val × List Byte)) : Prop :=
  ∀ s, s.length < m → Agrees s (dec s) ∧ ∀ v t, dec s = .ok (v, t) → t.length ≤ s.length

theorem items_follow {m : Nat} {dec : List Byte → Res (Val × List Byte)} (H : Follows m dec) :
    ∀ n s, s.length < m → AgreesItems n s (decodeArray dec n s)
  | 0, s, _ => by
    refine ⟨fun t' => ⟨fun h => by cases h; rfl, fun h => by subst h; exact .none _⟩, fun h => by cases h⟩
  | n + 1, s, hs => by
    obtain ⟨h1, h2⟩ := H s hs
    unfold decodeArray
    cases hd : dec s with
    | ok p =>
      obtain ⟨v, t⟩ := p
      rw [hd] at h1
      obtain ⟨a1, a2, -⟩ := h1
      have ih := items_follow H n t (Nat.lt_of_le_of_lt (h2 v t hd) hs)
      simp only [Res.bind_ok]
      have inv : ∀ u, Items (n + 1) s u ↔ Items n t u := by
        intro u
        constructor
        · intro h
          cases h with
          | more _ _ t' _ hi hr =>
            rw [(a1 t').mp hi] at hr
            exact hr
        · exact fun h => .more n s t u ((a1 t).mpr rfl) h
      have cr : CrashItems (n + 1) s ↔ CrashItems n t := by
        constructor
        · intro h
          cases h with
          | here _ _ hc => exact absurd hc a2
          | later _ _ t' hi hr =>
            rw [(a1 t').mp hi] at hr
            exact hr
        · exact fun h => .later n s t ((a1 t).mpr rfl) h
      cases ha : decodeArray dec n t with
      | ok q =>
        rw [ha] at ih
        exact ⟨fun t' => (inv t').trans (ih.1 t'), fun h => ih.2 (cr.mp h)⟩
      | err e =>
        rw [ha] at ih
        exact ⟨fun t' h => ih.1 t' ((inv t').mp h), fun h => ih.2 (cr.mp h)⟩
      | panic =>
        rw [ha] at ih
        exact ⟨fun t' h => ih.1 t' ((inv t').mp h), cr.mpr ih.2⟩
      | fatal => rw [ha] at ih; exact ih.elim
      | diverge => rw [ha] at ih; exact ih.elim
    | err e =>
      rw [hd] at h1
      refine ⟨fun t h => ?_, fun h => ?_⟩
      · cases h with
        | more _ _ t' _ hi hr => exact h1.1 t' hi
      · cases h with
        | here _ _ hc => exact h1.2 hc
        | later _ _ t' hi hr => exact h1.1 t' hi
    | panic =>
      rw [hd] at h1
      refine ⟨fun t h => ?_, .here n s h1.2⟩
      cases h with
      | more _ _ t' _ hi hr => exact h1.1 t' hi
    | fatal => rw [hd] at h1; exact h1.elim
    | diverge => rw [hd] at h1; exact h1.elim

theorem pairs_follow {m : Nat} {dec : List Byte → Res (Val × List Byte)} (H : Follows m dec) :
    ∀ n d s, s.length < m → AgreesPairs n s (decodeMap dec n d s)
  | 0, d, s, _ => by
    refine ⟨fun t' => ⟨fun h => by cases h; rfl, fun h => by subst h; exact .none _⟩, fun h => by cases h⟩
  | n + 1, d, s, hs => by
    obtain ⟨h1, h2⟩ := H s hs
    unfold decodeMap
    cases hd : dec s with
    | ok p =>
      obtain ⟨k, t⟩ := p
      rw [hd] at h1
      obtain ⟨a1, a2, a3⟩ := h1
      have ht := Nat.lt_of_le_of_lt (h2 k t hd) hs
      obtain ⟨b, hb⟩ := H t ht
      simp only [Res.bind_ok]
      cases hd' : dec t with
      | ok q =>
        obtain ⟨v, u⟩ := q
        rw [hd'] at b
        obtain ⟨b1, b2, -⟩ := b
        simp only [Res.bind_ok]
        by_cases hk : hashable k = true
        · rw [if_pos hk]
          have hn : s.head? ≠ some 0xdd ∧ s.head? ≠ some 0xdf := by
            constructor <;> intro h
            · have := a3.2.2.mpr (Or.inl h); rw [hk] at this; cases this
            · have := a3.2.2.mpr (Or.inr h); rw [hk] at this; cases this
          have ih := pairs_follow H n (assign k v d) u (Nat.lt_of_le_of_lt (hb v u hd') ht)
          have inv : ∀ w, Pairs (n + 1) s w ↔ Pairs n u w := by
            intro w
            constructor
            · intro h
              cases h with
              | more _ _ t' u' _ hi _ _ hj hr =>
                rw [(a1 t').mp hi] at hj
                rw [(b1 u').mp hj] at hr
                exact hr
            · exact fun h => .more n s t u w ((a1 t).mpr rfl) hn.1 hn.2 ((b1 u).mpr rfl) h
          have cr : CrashPairs (n + 1) s ↔ CrashPairs n u := by
            constructor
            · intro h
              cases h with
              | key _ _ hc => exact absurd hc a2
              | value _ _ t' hi hc => rw [(a1 t').mp hi] at hc; exact absurd hc b2
              | unhashable _ _ t' u' hi hj hx => exact absurd hx (fun h => h.elim hn.1 hn.2)
              | later _ _ t' u' hi _ _ hj hr =>
                rw [(a1 t').mp hi] at hj
                rw [(b1 u').mp hj] at hr
                exact hr
            · exact fun h => .later n s t u ((a1 t).mpr rfl) hn.1 hn.2 ((b1 u).mpr rfl) h
          cases ha : decodeMap dec n (assign k v d) u with
          | ok q =>
            rw [ha] at ih
            exact ⟨fun t' => (inv t').trans (ih.1 t'), fun h => ih.2 (cr.mp h)⟩
          | err e =>
            rw [ha] at ih
            exact ⟨fun t' h => ih.1 t' ((inv t').mp h), fun h => ih.2 (cr.mp h)⟩
          | panic =>
            rw [ha] at ih
            exact ⟨fun t' h => ih.1 t' ((inv t').mp h), cr.mpr ih.2⟩
          | fatal => rw [ha] at ih; exact ih.elim
          | diverge => rw [ha] at ih; exact ih.elim
        · rw [if_neg hk]
          have hx := a3.2.2.mp (by simpa using hk)
          refine ⟨fun w h => ?_, .unhashable n s t u ((a1 t).mpr rfl) ((b1 u).mpr rfl) hx⟩
          cases h with
          | more _ _ t' u' _ hi x1 x2 hj hr => exact hx.elim x1 x2
      | err e =>
        rw [hd'] at b
        refine ⟨fun w h => ?_, fun h => ?_⟩
        · cases h with
          | more _ _ t' u' _ hi x1 x2 hj hr => rw [(a1 t').mp hi] at hj; exact b.1 _ hj
        · cases h with
          | key _ _ hc => exact a2 hc
          | value _ _ t' hi hc => rw [(a1 t').mp hi] at hc; exact b.2 hc
          | unhashable _ _ t' u' hi hj hx => rw [(a1 t').mp hi] at hj; exact b.1 _ hj
          | later _ _ t' u' hi _ _ hj hr => rw [(a1 t').mp hi] at hj; exact b.1 _ hj
      | panic =>
        rw [hd'] at b
        refine ⟨fun w h => ?_, .value n s t ((a1 t).mpr rfl) b.2⟩
        cases h with
        | more _ _ t' u' _ hi x1 x2 hj hr => rw [(a1 t').mp hi] at hj; exact b.1 _ hj
      | fatal => rw [hd'] at b; exact b.elim
      | diverge => rw [hd'] at b; exact b.elim
    | err e =>
      rw [hd] at h1
      refine ⟨fun t h => ?_, fun h => ?_⟩
      · cases h with
        | more _ _ t' u' _ hi x1 x2 hj hr => exact h1.1 t' hi
      · cases h with
        | key _ _ hc => exact h1.2 hc
        | value _ _ t' hi hc => exact h1.1 t' hi
        | unhashable _ _ t' u' hi hj hx => exact h1.1 t' hi
        | later _ _ t' u' hi _ _ hj hr => exact h1.1 t' hi
    | panic =>
      rw [hd] at h1
      refine ⟨fun t h => ?_, .key n s h1.2⟩
      cases h with
      | more _ _ t' u' _ hi x1 x2 hj hr => exact h1.1 t' hi
    | fatal => rw [hd] at h1; exact h1.elim
    | diverge => rw [hd] at h1; exact h1.elim

/-! ## Inversion on the tag -/

theorem item_fixed {c : Byte} {n : Nat} (h : payload c = some n) (s t : List Byte) :
    (Item (c :: s) t ↔ (n = 0 ∨ s ≠ []) ∧ t = s.drop n) ∧ ¬ Crash (c :: s) := by
  have hne : c ≠ 0xdb ∧ c ≠ 0xca ∧ c ≠ 0xcb ∧ c ≠ 0xdd ∧ c ≠ 0xdf := by
    refine ⟨?_, ?_, ?_, ?_, ?_⟩ <;> (intro e; subst e; revert h; simp [payload])
  obtain ⟨x1, x2, x3, x4, x5⟩ := hne
  refine ⟨⟨fun hi => ?_, fun ⟨h1, h2⟩ => h2 ▸ .fixed c n s h h1⟩, fun hc => ?_⟩
  · cases hi with
    | fixed _ n' _ h' h1 => rw [h] at h'; cases h'; exact ⟨h1, rfl⟩
    | str => exact absurd rfl x1
    | f32 => exact absurd rfl x2
    | f64 => exact absurd rfl x3
    | arr => exact absurd rfl x4
    | map => exact absurd rfl x5
  · cases hc with
    | wrong32 => exact absurd rfl x2
    | wrong64 => exact absurd rfl x3
    | in32 => exact absurd rfl x2
    | in64 => exact absurd rfl x3
    | arr => exact absurd rfl x4
    | map => exact absurd rfl x5

theorem item_str (s t : List Byte) :
    (Item (0xdb :: s) t ↔ s ≠ [] ∧ (count s = 0 ∨ s.drop 4 ≠ []) ∧ t = (s.drop 4).drop (count s)) ∧
      ¬ Crash (0xdb :: s) := by
  refine ⟨⟨fun hi => ?_, fun ⟨h1, h2, h3⟩ => h3 ▸ .str s h1 h2⟩, fun hc => ?_⟩
  · cases hi with
    | fixed _ n' _ h' h1 => exact absurd h' (by simp [payload])
    | str _ h1 h2 => exact ⟨h1, h2, rfl⟩
  · cases hc

theorem item_f32 (s t : List Byte) :
    (Item (0xca :: s) t ↔ s.head? = some 0xce ∧ Item s t) ∧
      (Crash (0xca :: s) ↔ (∃ t, Item s t ∧ s.head? ≠ some 0xce) ∨ Crash s) := by
  refine ⟨⟨fun hi => ?_, fun ⟨h1, h2⟩ => .f32 s t h1 h2⟩, fun hc => ?_, ?_⟩
  · cases hi with
    | fixed _ n' _ h' h1 => exact absurd h' (by simp [payload])
    | f32 _ _ h1 h2 => exact ⟨h1, h2⟩
  · cases hc with
    | wrong32 _ t h1 h2 => exact Or.inl ⟨t, h1, h2⟩
    | in32 _ h => exact Or.inr h
  · rintro (⟨t, h1, h2⟩ | h)
    · exact .wrong32 s t h1 h2
    · exact .in32 s h

theorem item_f64 (s t : List Byte) :
    (Item (0xcb :: s) t ↔ s.head? = some 0xcf ∧ Item s t) ∧
      (Crash (0xcb :: s) ↔ (∃ t, Item s t ∧ s.head? ≠ some 0xcf) ∨ Crash s) := by
  refine ⟨⟨fun hi => ?_, fun ⟨h1, h2⟩ => .f64 s t h1 h2⟩, fun hc => ?_, ?_⟩
  · cases hi with
    | fixed _ n' _ h' h1 => exact absurd h' (by simp [payload])
    | f64 _ _ h1 h2 => exact ⟨h1, h2⟩
  · cases hc with
    | wrong64 _ t h1 h2 => exact Or.inl ⟨t, h1, h2⟩
    | in64 _ h => exact Or.inr h
  · rintro (⟨t, h1, h2⟩ | h)
    · exact .wrong64 s t h1 h2
    · exact .in64 s h

theorem item_arr (s t : List Byte) :
    (Item (0xdd :: s) t ↔ s ≠ [] ∧ Items (count s) (s.drop 4) t) ∧
      (Crash (0xdd :: s) ↔ s ≠ [] ∧ CrashItems (count s) (s.drop 4)) := by
  refine ⟨⟨fun hi => ?_, fun ⟨h1, h2⟩ => .arr s t h1 h2⟩, fun hc => ?_, fun ⟨h1, h2⟩ => .arr s h1 h2⟩
  · cases hi with
    | fixed _ n' _ h' h1 => exact absurd h' (by simp [payload])
    | arr _ _ h1 h2 => exact ⟨h1, h2⟩
  · cases hc with
    | arr _ h1 h2 => exact ⟨h1, h2⟩

theorem item_map (s t : List Byte) :
    (Item (0xdf :: s) t ↔ s ≠ [] ∧ Pairs (count s) (s.drop 4) t) ∧
      (Crash (0xdf :: s) ↔ s ≠ [] ∧ CrashPairs (count s) (s.drop 4)) := by
  refine ⟨⟨fun hi => ?_, fun ⟨h1, h2⟩ => .map s t h1 h2⟩, fun hc => ?_, fun ⟨h1, h2⟩ => .map s h1 h2⟩
  · cases hi with
    | fixed _ n' _ h' h1 => exact absurd h' (by simp [payload])
    | map _ _ h1 h2 => exact ⟨h1, h2⟩
  · cases hc with
    | map _ h1 h2 => exact ⟨h1, h2⟩

theorem no_item {c : Byte} (h : payload c = none) (hx : c ≠ 0xdb ∧ c ≠ 0xca ∧ c ≠ 0xcb ∧ c ≠ 0xdd ∧ c ≠ 0xdf)
    (s t : List Byte) : ¬ Item (c :: s) t ∧ ¬ Crash (c :: s) := by
  obtain ⟨x1, x2, x3, x4, x5⟩ := hx
  refine ⟨fun hi => ?_, fun hc => ?_⟩
  · cases hi with
    | fixed _ n' _ h' h1 => rw [h] at h'; cases h'
    | str => exact absurd rfl x1
    | f32 => exact absurd rfl x2
    | f64 => exact absurd rfl x3
    | arr => exact absurd rfl x4
    | map => exact absurd rfl x5
  · cases hc with
    | wrong32 => exact absurd rfl x2
    | wrong64 => exact absurd rfl x3
    | in32 => exact absurd rfl x2
    | in64 => exact absurd rfl x3
    | arr => exact absurd rfl x4
    | map => exact absurd rfl x5

theorem no_item_nil : (∀ t, ¬ Item [] t) ∧ ¬ Crash [] := by
  constructor
  · intro t h; cases h
  · intro h; cases h

/-! ## The decoder agrees -/

private theorem agrees_ok {c : Byte} {n : Nat} (h : payload c = some n) {s : List Byte} {v : Val}
    (hs : n = 0 ∨ s ≠ []) (hv : Shape (c :: s) v) : Agrees (c :: s) (.ok (v, s.drop n)) :=
  ⟨fun t' => (item_fixed h s t').1.trans ⟨fun x => x.2, fun x => ⟨hs, x⟩⟩, (item_fixed h s []).2, hv⟩

private theorem agrees_eof {c : Byte} {n : Nat} (h : payload c = some n) (hn : n ≠ 0) :
    Agrees [c] (.err .eof) :=
  ⟨fun t' x => ((item_fixed h [] t').1.mp x).1.elim hn (fun y => y rfl), (item_fixed h [] []).2⟩

private theorem shape_plain {c : Byte} {s : List Byte} {v : Val} (h1 : c ≠ 0xce) (h2 : c ≠ 0xcf) (h3 : c ≠ 0xdd)
    (h4 : c ≠ 0xdf) (hv1 : ∀ b, v ≠ .uint .u32 0 b) (hv2 : ∀ b, v ≠ .uint .u64 0 b) (hv : hashable v = true) :
    Shape (c :: s) v := by
  refine ⟨⟨fun h => absurd (Option.some.inj h) h1, fun ⟨b, h⟩ => absurd h (hv1 b)⟩,
    ⟨fun h => absurd (Option.some.inj h) h2, fun ⟨b, h⟩ => absurd h (hv2 b)⟩,
    fun h => (by rw [hv] at h; cases h), fun h => ?_⟩
  rcases h with h | h
  · exact absurd (Option.some.inj h) h3
  · exact absurd (Option.some.inj h) h4

private theorem asFloat32_panic {p : Val × List Byte} (h : ∀ b, p.1 ≠ .uint .u32 0 b) : asFloat32 p = .panic := by
  unfold asFloat32
  split
  · rename_i e
    exact absurd e (h _)
  · rfl

private theorem asFloat64_panic {p : Val × List Byte} (h : ∀ b, p.1 ≠ .uint .u64 0 b) : asFloat64 p = .panic := by
  unfold asFloat64
  split
  · rename_i e
    exact absurd e (h _)
  · rfl

theorem follows_succ {m : Nat} {dec : List Byte → Res (Val × List Byte)} (H : Follows m dec) (c : Byte)
    (t : List Byte) (ht : t.length < m) : Agrees (c :: t) (decodeTag bytesReader dec c t) := by
  unfold decodeTag
  by_cases hc : c = cNil
  · rw [if_pos hc]
    subst hc
    exact agrees_ok (n := 0) (by decide) (Or.inl rfl) (shape_plain (by decide) (by decide) (by decide) (by decide)
      (fun _ h => (by cases h)) (fun _ h => (by cases h)) rfl)
  have x0 := hc
  rw [if_neg hc]
  by_cases hc : c = cFalse
  · rw [if_pos hc]
    subst hc
    exact agrees_ok (n := 0) (by decide) (Or.inl rfl) (shape_plain (by decide) (by decide) (by decide) (by decide)
      (fun _ h => (by cases h)) (fun _ h => (by cases h)) rfl)
  have x1 := hc
  rw [if_neg hc]
  by_cases hc : c = cTrue
  · rw [if_pos hc]
    subst hc
    exact agrees_ok (n := 0) (by decide) (Or.inl rfl) (shape_plain (by decide) (by decide) (by decide) (by decide)
      (fun _ h => (by cases h)) (fun _ h => (by cases h)) rfl)
  have x2 := hc
  rw [if_neg hc]
  by_cases hc : c = cFloat32
  · rw [if_pos hc]
    subst hc
    obtain ⟨h1, -⟩ := H t ht
    have I := item_f32 t
    cases hd : dec t with
    | ok p =>
      obtain ⟨v, u⟩ := p
      rw [hd] at h1
      obtain ⟨a1, a2, a3⟩ := h1
      by_cases hh : t.head? = some 0xce
      · obtain ⟨b, rfl⟩ := a3.1.mp hh
        refine ⟨fun t' => (I t').1.trans ⟨fun x => (a1 t').mp x.2, fun x => ⟨hh, (a1 t').mpr x⟩⟩, fun hc => ?_,
          shape_plain (by decide) (by decide) (by decide) (by decide) (fun _ h => (by cases h)) (fun _ h => (by cases h)) rfl⟩
        rcases (I []).2.mp hc with ⟨_, _, h⟩ | h
        · exact h hh
        · exact a2 h
      · have e : (Res.ok (v, u) >>= asFloat32 : Res (Val × List Byte)) = .panic := by
          exact asFloat32_panic (fun b hb => hh (a3.1.mpr ⟨b, hb⟩))
        rw [e]
        exact ⟨fun t' x => hh ((I t').1.mp x).1, (I []).2.mpr (Or.inl ⟨u, (a1 u).mpr rfl, hh⟩)⟩
    | err e =>
      rw [hd] at h1
      refine ⟨fun t' x => h1.1 t' ((I t').1.mp x).2, fun hc => ?_⟩
      rcases (I []).2.mp hc with ⟨t', x, _⟩ | h
      · exact h1.1 t' x
      · exact h1.2 h
    | panic =>
      rw [hd] at h1
      exact ⟨fun t' x => h1.1 t' ((I t').1.mp x).2, (I []).2.mpr (Or.inr h1.2)⟩
    | fatal => rw [hd] at h1; exact h1.elim
    | diverge => rw [hd] at h1; exact h1.elim
  have x3 := hc
  rw [if_neg hc]
  by_cases hc : c = cFloat64
  · rw [if_pos hc]
    subst hc
    obtain ⟨h1, -⟩ := H t ht
    have I := item_f64 t
    cases hd : dec t with
    | ok p =>
      obtain ⟨v, u⟩ := p
      rw [hd] at h1
      obtain ⟨a1, a2, a3⟩ := h1
      by_cases hh : t.head? = some 0xcf
      · obtain ⟨b, rfl⟩ := a3.2.1.mp hh
        refine ⟨fun t' => (I t').1.trans ⟨fun x => (a1 t').mp x.2, fun x => ⟨hh, (a1 t').mpr x⟩⟩, fun hc => ?_,
          shape_plain (by decide) (by decide) (by decide) (by decide) (fun _ h => (by cases h)) (fun _ h => (by cases h)) rfl⟩
        rcases (I []).2.mp hc with ⟨_, _, h⟩ | h
        · exact h hh
        · exact a2 h
      · have e : (Res.ok (v, u) >>= asFloat64 : Res (Val × List Byte)) = .panic := by
          exact asFloat64_panic (fun b hb => hh (a3.2.1.mpr ⟨b, hb⟩))
        rw [e]
        exact ⟨fun t' x => hh ((I t').1.mp x).1, (I []).2.mpr (Or.inl ⟨u, (a1 u).mpr rfl, hh⟩)⟩
    | err e =>
      rw [hd] at h1
      refine ⟨fun t' x => h1.1 t' ((I t').1.mp x).2, fun hc => ?_⟩
      rcases (I []).2.mp hc with ⟨t', x, _⟩ | h
      · exact h1.1 t' x
      · exact h1.2 h
    | panic =>
      rw [hd] at h1
      exact ⟨fun t' x => h1.1 t' ((I t').1.mp x).2, (I []).2.mpr (Or.inr h1.2)⟩
    | fatal => rw [hd] at h1; exact h1.elim
    | diverge => rw [hd] at h1; exact h1.elim
  have x4 := hc
  rw [if_neg hc]
  by_cases hc : c = cUint8
  · rw [if_pos hc]
    subst hc
    rcases readByte_or t with ⟨rfl, h⟩ | ⟨d, u, rfl, h⟩
    · rw [h]; exact agrees_eof (n := 1) (by decide) (by decide)
    · rw [h]
      exact agrees_ok (n := 1) (s := d :: u) (by decide) (Or.inr (by simp))
        (shape_plain (by decide) (by decide) (by decide) (by decide) (fun _ h => (by cases h)) (fun _ h => (by cases h)) rfl)
  have x5 := hc
  rw [if_neg hc]
  by_cases hc : c = cUint16
  · rw [if_pos hc]
    subst hc
    rcases readUint16_or t with ⟨rfl, h⟩ | ⟨hne, d, h⟩
    · rw [h]; exact agrees_eof (n := 2) (by decide) (by decide)
    · rw [h]
      exact agrees_ok (n := 2) (by decide) (Or.inr hne)
        (shape_plain (by decide) (by decide) (by decide) (by decide) (fun _ h => (by cases h)) (fun _ h => (by cases h)) rfl)
  have x6 := hc
  rw [if_neg hc]
  by_cases hc : c = cUint32
  · rw [if_pos hc]
    subst hc
    rcases readUint32_or t with ⟨rfl, h⟩ | ⟨hne, d, h⟩
    · rw [h]; exact agrees_eof (n := 4) (by decide) (by decide)
    · rw [h]
      refine agrees_ok (n := 4) (by decide) (Or.inr hne) ⟨⟨fun _ => ⟨d, rfl⟩, fun _ => rfl⟩,
        ⟨fun h => absurd (Option.some.inj h) (by decide), fun ⟨b, h⟩ => (by cases h)⟩, fun h => (by cases h), fun h => ?_⟩
      rcases h with h | h
      · exact absurd (Option.some.inj h) (by decide)
      · exact absurd (Option.some.inj h) (by decide)
  have x7 := hc
  rw [if_neg hc]
  by_cases hc : c = cUint64
  · rw [if_pos hc]
    subst hc
    rcases readUint64_or t with ⟨rfl, h⟩ | ⟨hne, d, h⟩
    · rw [h]; exact agrees_eof (n := 8) (by decide) (by decide)
    · rw [h]
      refine agrees_ok (n := 8) (by decide) (Or.inr hne) ⟨
        ⟨fun h => absurd (Option.some.inj h) (by decide), fun ⟨b, h⟩ => (by cases h)⟩,
        ⟨fun _ => ⟨d, rfl⟩, fun _ => rfl⟩, fun h => (by cases h), fun h => ?_⟩
      rcases h with h | h
      · exact absurd (Option.some.inj h) (by decide)
      · exact absurd (Option.some.inj h) (by decide)
  have x8 := hc
  rw [if_neg hc]
  by_cases hc : c = cInt8
  · rw [if_pos hc]
    subst hc
    rcases readByte_or t with ⟨rfl, h⟩ | ⟨d, u, rfl, h⟩
    · rw [h]; exact agrees_eof (n := 1) (by decide) (by decide)
    · rw [h]
      exact agrees_ok (n := 1) (s := d :: u) (by decide) (Or.inr (by simp))
        (shape_plain (by decide) (by decide) (by decide) (by decide) (fun _ h => (by cases h)) (fun _ h => (by cases h)) rfl)
  have x9 := hc
  rw [if_neg hc]
  by_cases hc : c = cInt16
  · rw [if_pos hc]
    subst hc
    rcases readUint16_or t with ⟨rfl, h⟩ | ⟨hne, d, h⟩
    · rw [h]; exact agrees_eof (n := 2) (by decide) (by decide)
    · rw [h]
      exact agrees_ok (n := 2) (by decide) (Or.inr hne)
        (shape_plain (by decide) (by decide) (by decide) (by decide) (fun _ h => (by cases h)) (fun _ h => (by cases h)) rfl)
  have x10 := hc
  rw [if_neg hc]
  by_cases hc : c = cInt32
  · rw [if_pos hc]
    subst hc
    rcases readUint32_or t with ⟨rfl, h⟩ | ⟨hne, d, h⟩
    · rw [h]; exact agrees_eof (n := 4) (by decide) (by decide)
    · rw [h]
      exact agrees_ok (n := 4) (by decide) (Or.inr hne)
        (shape_plain (by decide) (by decide) (by decide) (by decide) (fun _ h => (by cases h)) (fun _ h => (by cases h)) rfl)
  have x11 := hc
  rw [if_neg hc]
  by_cases hc : c = cInt64
  · rw [if_pos hc]
    subst hc
    rcases readUint64_or t with ⟨rfl, h⟩ | ⟨hne, d, h⟩
    · rw [h]; exact agrees_eof (n := 8) (by decide) (by decide)
    · rw [h]
      exact agrees_ok (n := 8) (by decide) (Or.inr hne)
        (shape_plain (by decide) (by decide) (by decide) (by decide) (fun _ h => (by cases h)) (fun _ h => (by cases h)) rfl)
  have x12 := hc
  rw [if_neg hc]
  by_cases hc : c = cStr32
  · rw [if_pos hc]
    subst hc
    have I := item_str t
    by_cases hne : t = []
    · subst hne
      exact ⟨fun t' x => ((I t').1.mp x).1 rfl, (I []).2⟩
    · obtain ⟨n, h, hn⟩ := readUint32_count hne
      rw [h]
      simp only [Res.bind_ok]
      have sh : ∀ d, Shape (cStr32 :: t) (.str 0 d) := fun d =>
        shape_plain (by decide) (by decide) (by decide) (by decide) (fun _ h => (by cases h)) (fun _ h => (by cases h)) rfl
      split
      · rename_i h0
        refine ⟨fun t' => (I t').1.trans ⟨fun x => ?_, fun x => ⟨hne, Or.inl (hn ▸ h0), ?_⟩⟩, (I []).2, sh _⟩
        · rw [x.2.2, ← hn, h0]; rfl
        · rw [x, ← hn, h0]; rfl
      · rename_i h0
        by_cases h4 : t.drop 4 = []
        · rw [h4, readBuf_nil]
          exact ⟨fun t' x => ((I t').1.mp x).2.1.elim (fun y => h0 (hn.trans y)) (fun y => y h4), (I []).2⟩
        · rw [readBuf_ne h4]
          refine ⟨fun t' => (I t').1.trans ⟨fun x => ?_, fun x => ⟨hne, Or.inr h4, ?_⟩⟩, (I []).2, sh _⟩
          · rw [x.2.2, hn]
          · rw [x, hn]
  have x13 := hc
  rw [if_neg hc]
  by_cases hc : c = cArr32
  · rw [if_pos hc]
    subst hc
    have I := item_arr t
    by_cases hne : t = []
    · subst hne
      exact ⟨fun t' x => ((I t').1.mp x).1 rfl, fun hc => ((I []).2.mp hc).1 rfl⟩
    · obtain ⟨n, h, hn⟩ := readUint32_count hne
      rw [h]
      simp only [Res.bind_ok]
      rw [hn]
      have ih := items_follow H (count t) (t.drop 4) (by simp; omega)
      cases ha : decodeArray dec (count t) (t.drop 4) with
      | ok q =>
        rw [ha] at ih
        refine ⟨fun t' => (I t').1.trans ⟨fun x => (ih.1 t').mp x.2, fun x => ⟨hne, (ih.1 t').mpr x⟩⟩,
          fun hc => ih.2 ((I []).2.mp hc).2,
          ⟨fun h => absurd (Option.some.inj h) (by decide), fun ⟨b, h⟩ => (by cases h)⟩,
          ⟨fun h => absurd (Option.some.inj h) (by decide), fun ⟨b, h⟩ => (by cases h)⟩,
          fun _ => Or.inl rfl, fun _ => rfl⟩
      | err e =>
        rw [ha] at ih
        exact ⟨fun t' x => ih.1 t' ((I t').1.mp x).2, fun hc => ih.2 ((I []).2.mp hc).2⟩
      | panic =>
        rw [ha] at ih
        exact ⟨fun t' x => ih.1 t' ((I t').1.mp x).2, (I []).2.mpr ⟨hne, ih.2⟩⟩
      | fatal => rw [ha] at ih; exact ih.elim
      | diverge => rw [ha] at ih; exact ih.elim
  have x14 := hc
  rw [if_neg hc]
  by_cases hc : c = cMap32
  · rw [if_pos hc]
    subst hc
    have I := item_map t
    by_cases hne : t = []
    · subst hne
      exact ⟨fun t' x => ((I t').1.mp x).1 rfl, fun hc => ((I []).2.mp hc).1 rfl⟩
    · obtain ⟨n, h, hn⟩ := readUint32_count hne
      rw [h]
      simp only [Res.bind_ok]
      rw [hn]
      have ih := pairs_follow H (count t) [] (t.drop 4) (by simp; omega)
      cases ha : decodeMap dec (count t) [] (t.drop 4) with
      | ok q =>
        rw [ha] at ih
        refine ⟨fun t' => (I t').1.trans ⟨fun x => (ih.1 t').mp x.2, fun x => ⟨hne, (ih.1 t').mpr x⟩⟩,
          fun hc => ih.2 ((I []).2.mp hc).2,
          ⟨fun h => absurd (Option.some.inj h) (by decide), fun ⟨b, h⟩ => (by cases h)⟩,
          ⟨fun h => absurd (Option.some.inj h) (by decide), fun ⟨b, h⟩ => (by cases h)⟩,
          fun _ => Or.inr rfl, fun _ => rfl⟩
      | err e =>
        rw [ha] at ih
        exact ⟨fun t' x => ih.1 t' ((I t').1.mp x).2, fun hc => ih.2 ((I []).2.mp hc).2⟩
      | panic =>
        rw [ha] at ih
        exact ⟨fun t' x => ih.1 t' ((I t').1.mp x).2, (I []).2.mpr ⟨hne, ih.2⟩⟩
      | fatal => rw [ha] at ih; exact ih.elim
      | diverge => rw [ha] at ih; exact ih.elim
  · rw [if_neg hc]
    have hp : payload c = none := by
      unfold payload
      rw [if_neg (fun h => h.elim x0 (fun h => h.elim x1 x2)), if_neg (fun h => h.elim x5 x9),
        if_neg (fun h => h.elim x6 x10), if_neg (fun h => h.elim x7 x11), if_neg (fun h => h.elim x8 x12)]
    exact ⟨fun t' => (no_item hp ⟨x13, x3, x4, x14, hc⟩ t t').1, (no_item hp ⟨x13, x3, x4, x14, hc⟩ t []).2⟩

theorem decodeF_follows : ∀ f, Follows f (decodeF bytesReader f)
  | 0 => fun s h => by omega
  | f + 1 => fun s hs => by
    refine ⟨?_, fun v t h => by have := (decodeF_consumes (f + 1) s v t h).2; omega⟩
    rcases readByte_or s with ⟨rfl, h⟩ | ⟨c, t, rfl, h⟩
    · rw [decodeF, h]; exact no_item_nil
    · rw [decodeF, h]
      exact follows_succ (decodeF_follows f) c t (by simp at hs; omega)

theorem decode_agrees (s : List Byte) : Agrees s (decode s) := (decodeF_follows _ s (by omega)).1

end Verif.Codec
