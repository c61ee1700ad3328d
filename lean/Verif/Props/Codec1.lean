import Verif.Codec.Loose

/-! # C01 – C06: round trips, self-delimitation, unambiguity -/

namespace Verif.Props

open Verif Verif.Codec

/-! ## C01 Integer round trip -/

/-- The accessor of the same type as the value (`Int8` for int8, ...). -/
def intAccessor : (k : IKind) → Any → Res (BitVec k.width)
  | .i8, a => a.int8
  | .i16, a => a.int16
  | .i32, a => a.int32
  | .i64, a => a.int64
  | .int, a => a.int

/-- The accessor of the same type; `uintptr` has none and is left out by the hypothesis of the theorem. -/
def uintAccessor : (k : UKind) → Any → Res (BitVec k.width)
  | .u8, a => a.uint8
  | .u16, a => a.uint16
  | .u32, a => a.uint32
  | .u64, a => a.uint64
  | .uint, a => a.uint
  | .uintptr, a => a.uint

private theorem ok_ofInt {w : Nat} (v : BitVec w) : Res.ok (BitVec.ofInt w v.toInt) = Res.ok v := by
  rw [BitVec.ofInt_toInt]

private theorem ok_ofNat {w : Nat} (v : BitVec w) : Res.ok (BitVec.ofNat w v.toNat) = Res.ok v := by
  rw [BitVec.ofNat_toNat]; simp

/-- C01, signed types.  `a` is the object `Decode` is called on, whatever it held before. -/
theorem C01_int_roundtrip (k : IKind) (v : BitVec k.width) (a : Any) (rest : List Byte) :
    (newAny (.int k 0 v)).encode.err = none ∧
    (a.decode ((newAny (.int k 0 v)).encode.bytes ++ rest)).2 = .ok rest ∧
    intAccessor k (a.decode ((newAny (.int k 0 v)).encode.bytes ++ rest)).1 = .ok v := by
  have hs : (newAny (.int k 0 v)).encode = encode (.int k 0 v) := by cases k <;> rfl
  rw [hs]
  obtain ⟨h1, _, _⟩ := rt_top (.int k 0 v) rfl
  have h2 := decode_encode (.int k 0 v) rfl rest
  refine ⟨h1, by rw [Any.decode_ok h2], ?_⟩
  rw [Any.decode_ok h2]
  have hb := int_toInt_bounds v
  have hw : ∀ w : Nat, w = k.width → (Any.normalize ⟨canonInt v.toInt, a.tp⟩).signed w = .ok (BitVec.ofInt w v.toInt) :=
    fun w _ => signed_canonInt v.toInt a.tp w hb.1 hb.2
  cases k with
  | i8 =>
    simp only [canonTop]
    split
    · exact ok_ofInt (w := 8) v
    · exact (hw 8 rfl).trans (ok_ofInt (w := 8) v)
  | i16 =>
    simp only [canonTop]
    split
    · exact ok_ofInt (w := 16) v
    · exact (hw 16 rfl).trans (ok_ofInt (w := 16) v)
  | i32 =>
    simp only [canonTop]
    split
    · exact ok_ofInt (w := 32) v
    · exact (hw 32 rfl).trans (ok_ofInt (w := 32) v)
  | i64 => exact (hw 64 rfl).trans (ok_ofInt (w := 64) v)
  | int => exact (hw 64 rfl).trans (ok_ofInt (w := 64) v)

/-- C01, unsigned types (for `uintptr`, which has no accessor of its own, read back with `Uint`). -/
theorem C01_uint_roundtrip (k : UKind) (v : BitVec k.width) (a : Any) (rest : List Byte) :
    (newAny (.uint k 0 v)).encode.err = none ∧
    (a.decode ((newAny (.uint k 0 v)).encode.bytes ++ rest)).2 = .ok rest ∧
    uintAccessor k (a.decode ((newAny (.uint k 0 v)).encode.bytes ++ rest)).1 = .ok v := by
  have hs : (newAny (.uint k 0 v)).encode = encode (.uint k 0 v) := by cases k <;> rfl
  rw [hs]
  obtain ⟨h1, _, _⟩ := rt_top (.uint k 0 v) rfl
  have h2 := decode_encode (.uint k 0 v) rfl rest
  refine ⟨h1, by rw [Any.decode_ok h2], ?_⟩
  rw [Any.decode_ok h2]
  have hb := uint_toNat_lt v
  have hw : ∀ w : Nat, w = k.width → (Any.normalize ⟨canonNat v.toNat, a.tp⟩).unsigned w = .ok (BitVec.ofNat w v.toNat) :=
    fun w _ => unsigned_canonNat v.toNat a.tp w hb
  cases k with
  | u8 => exact (hw 8 rfl).trans (ok_ofNat (w := 8) v)
  | u16 => exact (hw 16 rfl).trans (ok_ofNat (w := 16) v)
  | u32 => exact (hw 32 rfl).trans (ok_ofNat (w := 32) v)
  | u64 => exact (hw 64 rfl).trans (ok_ofNat (w := 64) v)
  | uint => exact (hw 64 rfl).trans (ok_ofNat (w := 64) v)
  | uintptr => exact (hw 64 rfl).trans (ok_ofNat (w := 64) v)

/-- Concrete case: int32(-70000) into an object that held a string, followed by one more byte. -/
example : (newAny (.int .i32 0 (BitVec.ofInt 32 (-70000)))).encode.bytes = [0xd2, 0xff, 0xfe, 0xee, 0x90] ∧
    intAccessor .i32 ((newAny (.str 0 [1, 2])).decode [0xd2, 0xff, 0xfe, 0xee, 0x90, 7]).1 =
      .ok (BitVec.ofInt 32 (-70000)) := ⟨by decide, by rfl⟩

/-! ## C02 Float round trip -/

/-- C02 fails: `NewAny(float64(0))` encodes to three bytes on which `Decode` panics. -/
theorem C02_float_roundtrip_refuted :
    (encode (.f64 0 0)).err = none ∧ decode (encode (.f64 0 0)).bytes = .panic ∧
    (encode (.f32 0 0)).err = none ∧ decode (encode (.f32 0 0)).bytes = .panic := by
  refine ⟨rfl, rfl, rfl, rfl⟩

/-- C02 for all bit patterns outside the crash zone.  Full statement: the same for *every* `b`. -/
theorem C02_float64_roundtrip_partial (b : BitVec 64) (h : 2^32 ≤ b.toNat) (a : Any) (rest : List Byte) :
    (newAny (.f64 0 b)).encode.err = none ∧
    (a.decode ((newAny (.f64 0 b)).encode.bytes ++ rest)).2 = .ok rest ∧
    (a.decode ((newAny (.f64 0 b)).encode.bytes ++ rest)).1.float64 = .ok b := by
  have h2 := decode_encode (.f64 0 b) (by simpa [topOK, wireOK] using h) rest
  change (encode (.f64 0 b)).err = none ∧ (a.decode ((encode (.f64 0 b)).bytes ++ rest)).2 = .ok rest ∧
    (a.decode ((encode (.f64 0 b)).bytes ++ rest)).1.float64 = .ok b
  rw [Any.decode_ok h2]
  exact ⟨rfl, rfl, rfl⟩

/-- C02 (partial): a float32 survives if its bits are at least 2^16 as a number.  Full statement: the same for *every* `b`.
Below the bound the reader crashes, as the theorem after this one says. -/
theorem C02_float32_roundtrip_partial (b : BitVec 32) (h : 2^16 ≤ b.toNat) (a : Any) (rest : List Byte) :
    (newAny (.f32 0 b)).encode.err = none ∧
    (a.decode ((newAny (.f32 0 b)).encode.bytes ++ rest)).2 = .ok rest ∧
    (a.decode ((newAny (.f32 0 b)).encode.bytes ++ rest)).1.float32 = .ok b := by
  have h2 := decode_encode (.f32 0 b) (by simpa [topOK, wireOK] using h) rest
  change (encode (.f32 0 b)).err = none ∧ (a.decode ((encode (.f32 0 b)).bytes ++ rest)).2 = .ok rest ∧
    (a.decode ((encode (.f32 0 b)).bytes ++ rest)).1.float32 = .ok b
  rw [Any.decode_ok h2]
  exact ⟨rfl, rfl, rfl⟩

/-- The hypothesis of the partial theorems is exact: below the bound the reader always crashes. -/
theorem C02_float_crash_zone (b : BitVec 64) (c : BitVec 32) (rest : List Byte) :
    (decode ((encode (.f64 0 b)).bytes ++ rest) = .panic ↔ b.toNat < 2^32) ∧
    (decode ((encode (.f32 0 c)).bytes ++ rest) = .panic ↔ c.toNat < 2^16) := by
  have e1 : decode ((encode (.f64 0 b)).bytes ++ rest) =
      if 2^32 ≤ b.toNat then .ok (.f64 0 b, rest) else .panic := by
    have := decodeF_encodeFloat64 ((encodeUint64 b).length + rest.length) b rest
    rw [← this]
    exact congrFun (congrArg (decodeF bytesReader) (by simp [encode, encodeFloat64])) _
  have e2 : decode ((encode (.f32 0 c)).bytes ++ rest) =
      if 2^16 ≤ c.toNat then .ok (.f32 0 c, rest) else .panic := by
    have := decodeF_encodeFloat32 ((encodeUint32 c).length + rest.length) c rest
    rw [← this]
    exact congrFun (congrArg (decodeF bytesReader) (by simp [encode, encodeFloat32])) _
  rw [e1, e2]
  constructor <;> (split <;> simp <;> omega)

/-- 1.5 as float64 and as float32. -/
example : 2^32 ≤ (0x3ff8000000000000 : BitVec 64).toNat ∧ 2^16 ≤ (0x3fc00000 : BitVec 32).toNat := by decide

/-! ## C03 String round trip -/

/-- C03: a string shorter than 4 GiB is read back by `String`, and the bytes after it are left. -/
theorem C03_string_roundtrip (s : Str) (h : s.length < 2^32) (a : Any) (rest : List Byte) :
    (newAny (.str 0 s)).encode.err = none ∧
    (a.decode ((newAny (.str 0 s)).encode.bytes ++ rest)).2 = .ok rest ∧
    (a.decode ((newAny (.str 0 s)).encode.bytes ++ rest)).1.string = .ok s := by
  have h2 := decode_encode (.str 0 s) (by simpa [topOK, wireOK] using h) rest
  change (encode (.str 0 s)).err = none ∧ (a.decode ((encode (.str 0 s)).bytes ++ rest)).2 = .ok rest ∧
    (a.decode ((encode (.str 0 s)).bytes ++ rest)).1.string = .ok s
  rw [Any.decode_ok h2]
  exact ⟨rfl, rfl, rfl⟩

/-- NUL and invalid UTF-8 inside. -/
example : ((newAny .nil).decode ((newAny (.str 0 [0, 0xff, 0x41])).encode.bytes ++ [9])).1.string =
    .ok [0, 0xff, 0x41] := by rfl

/-! ## C04 Nested value round trip -/

/-- C04 fails in general: a slice holding a zero float crashes the reader (see also C14 for maps). -/
theorem C04_nested_roundtrip_refuted :
    let v := Val.seq .ifaceSlice [.int .int 0 1, .f64 0 0]
    (newAny v).encode.err = none ∧ decode (newAny v).encode.bytes = .panic := by
  intro v
  exact ⟨rfl, by decide +kernel⟩

/-- C04 for all values with `topOK` (no float payload in the crash zone of C02, map keys that are scalars
and stay distinct on the wire, lengths below 2^32, nothing unsupported); arbitrary nesting.  Full
statement: the same with the weaker hypothesis `fits v ∧ clean v`. -/
theorem C04_nested_roundtrip_partial (v : Val) (h : topOK v = true) (a : Any) (rest : List Byte) :
    (newAny v).encode.err = none ∧
    (a.decode ((newAny v).encode.bytes ++ rest)).2 = .ok rest ∧
    content (a.decode ((newAny v).encode.bytes ++ rest)).1.any = content v := by
  have hs : (newAny v).encode = encode v := by
    unfold newAny Any.normalize Any.encode
    split <;> rfl
  rw [hs]
  have h2 := decode_encode v h rest
  refine ⟨(rt_top v h).1, by rw [Any.decode_ok h2], ?_⟩
  rw [Any.decode_ok h2]
  have : (Any.normalize ⟨canonTop v, a.tp⟩).any = canonTop v := by
    unfold Any.normalize Any.any
    split <;> rfl
  rw [this, content_canonTop]

/-- The types the receiver sees are exactly those of `canonTop`. -/
theorem C04_received_type (v : Val) (h : topOK v = true) (rest : List Byte) :
    decode ((encode v).bytes ++ rest) = .ok (canonTop v, rest) := decode_encode v h rest

/-- A map from strings and integers to nested lists, with a NaN and a negative number inside. -/
example : topOK (.map .ifaceMap [(.str 0 [65], .seq .ifaceSlice [.nil, .int .int 0 (-3), .f64 0 0x7ff8000000000001]),
    (.uint .u8 0 7, .map (.other 3) [(.bool 0 true, .str 0 [])])]) = true := by rfl

/-! ## C05 Values are self-delimiting -/

/-- `n` consecutive calls of `Decode` on one reader, each on a fresh object; the values and what is left. -/
def decodeMany : Nat → List Byte → Res (List Val × List Byte)
  | 0, s => .ok ([], s)
  | n + 1, s => do
    let (v, s) ← decode s
    let (vs, s) ← decodeMany n s
    return (v :: vs, s)

/-- The bytes of the encodings of `vs` back to back. -/
def encodeMany (vs : List Val) : List Byte := vs.flatMap (fun v => (encode v).bytes)

/-- C05 fails for "any" value: a zero float between two values crashes the second `Decode`. -/
theorem C05_self_delimiting_refuted :
    (∀ v ∈ [Val.int .int 0 1, .f64 0 0, .int .int 0 2], (encode v).err = none) ∧
    decodeMany 3 (encodeMany [.int .int 0 1, .f64 0 0, .int .int 0 2]) = .panic :=
  ⟨by decide +kernel, by decide +kernel⟩

/-- C05: if each value, encoded alone, decodes to `w v`, then the values encoded back to back decode in
order to the `w v`, whatever follows.  (`fits`: supported kinds, lengths below 2^32.)  Full statement:
without the hypothesis that each value decodes alone. -/
theorem C05_self_delimiting_partial (vs : List Val) (w : Val → Val)
    (h : ∀ v ∈ vs, fits v = true ∧ ∃ t, decode (encode v).bytes = .ok (w v, t)) (rest : List Byte) :
    decodeMany vs.length (encodeMany vs ++ rest) = .ok (vs.map w, rest) := by
  induction vs with
  | nil => rfl
  | cons v vs ih =>
    obtain ⟨hf, t, ht⟩ := h v (by simp)
    have h1 := (decode_append hf ht (encodeMany vs ++ rest)).2
    have h2 : encodeMany (v :: vs) ++ rest = (encode v).bytes ++ (encodeMany vs ++ rest) := by
      simp [encodeMany]
    rw [h2, List.length_cons, decodeMany, h1]
    simp only [Res.bind_ok]
    rw [ih (fun x hx => h x (List.mem_cons_of_mem _ hx))]
    rfl

/-- In particular, sequences of values that survive alone come back with their contents. -/
theorem C05_sequence_content_partial (vs : List Val) (h : ∀ v ∈ vs, topOK v = true) (rest : List Byte) :
    ∃ ws, decodeMany vs.length (encodeMany vs ++ rest) = .ok (ws, rest) ∧
      ws.map content = vs.map content := by
  refine ⟨vs.map canonTop, ?_, ?_⟩
  · induction vs with
    | nil => rfl
    | cons v vs ih =>
      have h1 := decode_encode v (h v (by simp)) (encodeMany vs ++ rest)
      have h2 : encodeMany (v :: vs) ++ rest = (encode v).bytes ++ (encodeMany vs ++ rest) := by
        simp [encodeMany]
      rw [h2, List.length_cons, decodeMany, h1]
      simp only [Res.bind_ok]
      rw [ih (fun x hx => h x (List.mem_cons_of_mem _ hx))]
      rfl
  · rw [List.map_map]
    apply List.map_congr_left
    intro v _
    exact content_canonTop v

/-- A string, an integer and a list. -/
example : (∀ v ∈ [Val.str 0 [1], .int .i16 0 300, .seq .ifaceSlice [.nil, .bool 0 true]],
      fits v = true ∧ ∃ t, decode (encode v).bytes = .ok (canonTop v, t)) := by
  intro v hv
  simp only [List.mem_cons, List.not_mem_nil, or_false] at hv
  rcases hv with rfl | rfl | rfl
  · exact ⟨rfl, [], rfl⟩
  · exact ⟨rfl, [], rfl⟩
  · exact ⟨rfl, [], rfl⟩

/-! ## C06 Unambiguous, prefix-free encoding -/

/-- No encoding is a proper prefix of another one. -/
theorem C06_prefix_free (v w : Val) (hv : fits v = true) (hw : fits w = true)
    (h : (encode v).bytes <+: (encode w).bytes) : (encode v).bytes = (encode w).bytes := by
  obtain ⟨q, hq⟩ := h
  obtain ⟨v', ⟨_, _, h1⟩, _⟩ := loose_top v hv
  obtain ⟨w', ⟨_, _, h2⟩, _⟩ := loose_top w hw
  have h1 := h1 q ((encode w).bytes.length) (by rw [← hq]; simp)
  have h2 := h2 [] ((encode w).bytes.length) (Nat.le_refl _)
  rw [List.append_nil] at h2
  rw [hq, h2] at h1
  cases h1
  rw [← hq, List.append_nil]

/-- The second half of C06 fails for NaN keys: the value stored under one is not written. -/
theorem C06_unambiguous_refuted :
    let v := Val.map .ifaceMap [(.f64 0 0x7ff8000000000000, .int .int 0 1)]
    let w := Val.map .ifaceMap [(.f64 0 0x7ff8000000000000, .int .int 0 2)]
    fits v = true ∧ fits w = true ∧ (encode v).bytes = (encode w).bytes ∧ content v ≠ content w := by
  intro v w
  refine ⟨rfl, rfl, by decide +kernel, ?_⟩
  intro h
  simp only [v, w, content, contentEntries, Content.map.injEq, List.cons.injEq, Prod.mk.injEq, Content.int.injEq] at h
  exact absurd h.1.2 (by decide)

/-- Two values with the same encoding have the same content (`clean`: Go maps without NaN in keys).  Full
statement: the same without `clean`. -/
theorem C06_unambiguous_partial (v w : Val) (hv : fits v = true) (hw : fits w = true)
    (cv : clean v = true) (cw : clean w = true)
    (h : (encode v).bytes = (encode w).bytes) : content v = content w := by
  obtain ⟨v', ⟨_, _, h1⟩, c1⟩ := loose_top v hv
  obtain ⟨w', ⟨_, _, h2⟩, c2⟩ := loose_top w hw
  have h1 := h1 [] _ (Nat.le_refl _)
  have h2 := h2 [] _ (Nat.le_refl _)
  rw [h] at h1
  rw [h1] at h2
  cases h2
  have l1 := legal_of_clean v cv
  have l2 := legal_of_clean w cw
  rw [← l1.2, ← l2.2, ← c1 l1.1, ← c2 l2.1]

/-- Two values with the same encoding, whatever the keys of their maps: what is seen of them by looking up keys is the
same.  (`legal`: no map has two keys that are equal in Go's sense.) -/
theorem C06_seen (v w : Val) (hv : fits v = true) (hw : fits w = true) (lv : legal v = true) (lw : legal w = true)
    (h : (encode v).bytes = (encode w).bytes) : seen v = seen w := by
  obtain ⟨v', ⟨_, _, h1⟩, c1⟩ := loose_top v hv
  obtain ⟨w', ⟨_, _, h2⟩, c2⟩ := loose_top w hw
  have h1 := h1 [] _ (Nat.le_refl _)
  have h2 := h2 [] _ (Nat.le_refl _)
  rw [h] at h1
  rw [h1] at h2
  cases h2
  rw [← c1 lv, ← c2 lw]

/-- For slices, arrays and maps this is exact. -/
theorem C06_exact (v w : Val) (hv : fits v = true) (hw : fits w = true) (lv : legal v = true) (lw : legal w = true)
    (hc : isScalar v = false) : (encode v).bytes = (encode w).bytes ↔ seen v = seen w := by
  refine ⟨C06_seen v w hv hw lv lw, fun h => ?_⟩
  have key : encode v = encodeValue v ∧ encode w = encodeValue w := by
    cases v <;> simp only [isScalar, reduceCtorEq] at hc
    · cases w <;> simp only [seen, reduceCtorEq] at h
      exact ⟨rfl, rfl⟩
    · cases w <;> simp only [seen, reduceCtorEq] at h
      exact ⟨rfl, rfl⟩
  rw [key.1, key.2, seen_encode v w hv hw lv lw h]

/-- Two maps with a NaN and an ordinary key; the values below the NaN differ. -/
example :
    let v := Val.map .ifaceMap [(.f64 0 0x7ff8000000000000, .int .int 0 1), (.str 0 [97], .int .int 0 5)]
    let w := Val.map .ifaceMap [(.f64 0 0x7ff8000000000000, .int .int 0 2), (.str 0 [97], .int .i8 0 5)]
    fits v = true ∧ fits w = true ∧ legal v = true ∧ legal w = true ∧ isScalar v = false ∧
      (encode v).bytes = (encode w).bytes ∧ seen v = seen w := by
  intro v w
  refine ⟨rfl, rfl, by decide +kernel, by decide +kernel, rfl, by decide +kernel, ?_⟩
  exact C06_seen v w rfl rfl (by decide +kernel) (by decide +kernel) (by decide +kernel)

/-- Two values of different types with the same encoding, one of them in the crash zone of C02. -/
example : let v := Val.seq .ifaceSlice [.int .i64 0 5, .f64 0 0]
    let w := Val.seq (.slice 4) [.int .i8 0 5, .f32 0 0]
    fits v = true ∧ fits w = true ∧ clean v = true ∧ clean w = true ∧
      (encode v).bytes = (encode w).bytes := by
  intro v w
  exact ⟨rfl, rfl, rfl, rfl, rfl⟩

end Verif.Props
