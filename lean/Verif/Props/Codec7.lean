import Verif.Props.Codec6
import Verif.Codec.MsgPack

/-! # C15 MsgPack compatibility -/

namespace Verif.Props

open Verif Verif.Codec Verif.Codec.MsgPack

/-- Begins with a byte other than the two float tags. -/
private def NoFloatHead (bs : List Byte) : Prop := ∃ b t, bs = b :: t ∧ b ≠ 0xca ∧ b ≠ 0xcb

private theorem int_head {z : Int} {bs : List Byte} (h : MPInt z bs) : NoFloatHead bs := by
  cases h with
  | posFix b h => exact ⟨b, [], rfl, by rintro rfl; simp at h, by rintro rfl; simp at h⟩
  | negFix b h => exact ⟨b, [], rfl, by rintro rfl; simp at h, by rintro rfl; simp at h⟩
  | uint tag p h => exact ⟨tag, p, rfl, by rintro rfl; simp at h, by rintro rfl; simp at h⟩
  | int tag p h => exact ⟨tag, p, rfl, by rintro rfl; simp at h, by rintro rfl; simp at h⟩

private theorem header_head {fix fixBits n : Nat} {t8 t16 t32 : Option Byte} {hd : List Byte}
    (h : MPHeader fix fixBits t8 t16 t32 n hd) (rest : List Byte) (hf : fix + 2^fixBits ≤ 0xc0)
    (h8 : t8 ≠ some 0xca ∧ t8 ≠ some 0xcb) (h16 : t16 ≠ some 0xca ∧ t16 ≠ some 0xcb)
    (h32 : t32 ≠ some 0xca ∧ t32 ≠ some 0xcb) : NoFloatHead (hd ++ rest) := by
  cases h with
  | fix n h =>
    refine ⟨_, rest, rfl, ?_, ?_⟩ <;>
    · intro hc
      have := congrArg BitVec.toNat hc
      rw [BitVec.toNat_ofNat, Nat.mod_eq_of_lt (by omega)] at this
      simp at this
      omega
  | len8 tag p ht _ => exact ⟨tag, p ++ rest, rfl, by rintro rfl; exact h8.1 ht, by rintro rfl; exact h8.2 ht⟩
  | len16 tag p ht _ => exact ⟨tag, p ++ rest, rfl, by rintro rfl; exact h16.1 ht, by rintro rfl; exact h16.2 ht⟩
  | len32 tag p ht _ => exact ⟨tag, p ++ rest, rfl, by rintro rfl; exact h32.1 ht, by rintro rfl; exact h32.2 ht⟩

private theorem float_shape {c : Content} {bs : List Byte} (h : MP c bs) :
    (∀ p, bs = 0xca :: p → p.length = 4) ∧ (∀ p, bs = 0xcb :: p → p.length = 8) := by
  have done : NoFloatHead bs → (∀ p, bs = 0xca :: p → p.length = 4) ∧ (∀ p, bs = 0xcb :: p → p.length = 8) := by
    rintro ⟨b, t, rfl, h1, h2⟩
    exact ⟨fun p hp => absurd (List.cons.inj hp).1 h1, fun p hp => absurd (List.cons.inj hp).1 h2⟩
  cases h with
  | nil => exact done ⟨_, _, rfl, by decide, by decide⟩
  | false => exact done ⟨_, _, rfl, by decide, by decide⟩
  | true => exact done ⟨_, _, rfl, by decide, by decide⟩
  | nat n _ hi => exact done (int_head hi)
  | int z _ hi => exact done (int_head hi)
  | float32 q h => exact ⟨fun p hp => by cases hp; exact h, fun p hp => by simp at hp⟩
  | float64 q h => exact ⟨fun p hp => by simp at hp, fun p hp => by cases hp; exact h⟩
  | str s hd h => exact done (header_head h _ (by decide) (by decide) (by decide) (by decide))
  | arr s hd bs h _ => exact done (header_head h _ (by decide) (by decide) (by decide) (by decide))
  | map s hd bs h _ => exact done (header_head h _ (by decide) (by decide) (by decide) (by decide))

/-- C15 fails for every float: the payload is written with an integer tag of its own, so the encoding of a
float is not a MsgPack encoding of anything. -/
theorem C15_msgpack_refuted :
    (∀ (b : BitVec 64) (c : Content), ¬ MP c (encode (.f64 0 b)).bytes) ∧
    (∀ (b : BitVec 32) (c : Content), ¬ MP c (encode (.f32 0 b)).bytes) := by
  constructor
  · intro b c h
    have h1 := (float_shape h).2 (encodeUint64 b) rfl
    have h2 := (C12_uint_size .u64 0 b).1
    change (encodeUint64 b).length = uintSize b.toNat at h2
    rw [h1] at h2
    unfold uintSize at h2
    repeat' split at h2
    all_goals omega
  · intro b c h
    have h1 := (float_shape h).1 (encodeUint32 b) rfl
    have h2 := (C12_uint_size .u32 0 b).1
    change (encodeUint32 b).length = uintSize b.toNat at h2
    rw [h1] at h2
    unfold uintSize at h2
    repeat' split at h2
    all_goals omega

/-! ## Values without floats -/

mutual

/-- No float anywhere. -/
def floatFree : Val → Bool
  | .f32 _ _ => false
  | .f64 _ _ => false
  | .seq _ xs => floatFreeList xs
  | .map _ kvs => floatFreeEntries kvs
  | _ => true

/-- The same for the elements of an array. -/
def floatFreeList : List Val → Bool
  | [] => true
  | x :: xs => floatFree x && floatFreeList xs

/-- The same for the entries of a map. -/
def floatFreeEntries : List (Val × Val) → Bool
  | [] => true
  | (k, v) :: rest => floatFree k && floatFree v && floatFreeEntries rest

end

private theorem toNat_byte {w : Nat} (v : BitVec w) : (byte v).toNat = v.toNat % 256 := by
  simp [byte, BitVec.toNat_setWidth]

private theorem be1 (b : Byte) : be [b] = b.toNat := by simp [be]

private theorem be2 (v : BitVec 16) : be [byte (v >>> 8), byte v] = v.toNat := by
  have := v.isLt
  simp only [be, List.foldl, toNat_byte, BitVec.toNat_ushiftRight, Nat.shiftRight_eq_div_pow]
  omega

private theorem be4 (v : BitVec 32) :
    be [byte (v >>> 24), byte (v >>> 16), byte (v >>> 8), byte v] = v.toNat := by
  have := v.isLt
  simp only [be, List.foldl, toNat_byte, BitVec.toNat_ushiftRight, Nat.shiftRight_eq_div_pow]
  omega

private theorem be8 (v : BitVec 64) :
    be [byte (v >>> 56), byte (v >>> 48), byte (v >>> 40), byte (v >>> 32),
      byte (v >>> 24), byte (v >>> 16), byte (v >>> 8), byte v] = v.toNat := by
  have := v.isLt
  simp only [be, List.foldl, toNat_byte, BitVec.toNat_ushiftRight, Nat.shiftRight_eq_div_pow]
  omega

private theorem beSigned_toInt {w : Nat} (v : BitVec w) (p : List Byte) (hb : be p = v.toNat)
    (hl : 8 * p.length = w) : beSigned p = v.toInt := by
  subst hl
  unfold beSigned
  rw [hb, BitVec.toInt_eq_toNat_cond, Nat.pow_mul]
  simp

private theorem mp_u8 (v : BitVec 8) : MPInt v.toNat (encodeUint8 v) := by
  rw [← be1 v]; exact .uint 0xcc [v] (by simp)

private theorem mp_u16 (v : BitVec 16) : MPInt v.toNat (encodeUint16 v) := by
  unfold encodeUint16
  split
  · rename_i h
    rw [show cUint8Max = 2^8 from rfl] at h
    have := mp_u8 (v.setWidth 8)
    rwa [BitVec.toNat_setWidth, Nat.mod_eq_of_lt h] at this
  · rw [← be2 v]; exact .uint 0xcd _ (by simp)

private theorem mp_u32 (v : BitVec 32) : MPInt v.toNat (encodeUint32 v) := by
  unfold encodeUint32
  split
  · rename_i h
    rw [show cUint16Max = 2^16 from rfl] at h
    have := mp_u16 (v.setWidth 16)
    rwa [BitVec.toNat_setWidth, Nat.mod_eq_of_lt h] at this
  · rw [← be4 v]; exact .uint 0xce _ (by simp)

private theorem mp_u64 (v : BitVec 64) : MPInt v.toNat (encodeUint64 v) := by
  unfold encodeUint64
  split
  · rename_i h
    rw [show cUint32Max = 2^32 from rfl] at h
    have := mp_u32 (v.setWidth 32)
    rwa [BitVec.toNat_setWidth, Nat.mod_eq_of_lt h] at this
  · rw [← be8 v]; exact .uint 0xcf _ (by simp)

private theorem mp_i8 (v : BitVec 8) : MPInt v.toInt (encodeInt8 v) := by
  rw [← beSigned_toInt v [v] (be1 v) rfl]; exact .int 0xd0 [v] (by simp)

private theorem mp_i16 (v : BitVec 16) : MPInt v.toInt (encodeInt16 v) := by
  unfold encodeInt16
  split
  · rename_i h
    rw [show cInt8Max = 2^7 from rfl, show cInt8Min = -2^7 from rfl] at h
    have := mp_i8 (v.setWidth 8)
    rwa [toInt_setWidth_of_range v 8 (by omega) (by omega) (by omega) (by omega)] at this
  · rw [← beSigned_toInt v _ (be2 v) rfl]; exact .int 0xd1 _ (by simp)

private theorem mp_i32 (v : BitVec 32) : MPInt v.toInt (encodeInt32 v) := by
  unfold encodeInt32
  split
  · rename_i h
    rw [show cInt16Max = 2^15 from rfl, show cInt16Min = -2^15 from rfl] at h
    have := mp_i16 (v.setWidth 16)
    rwa [toInt_setWidth_of_range v 16 (by omega) (by omega) (by omega) (by omega)] at this
  · rw [← beSigned_toInt v _ (be4 v) rfl]; exact .int 0xd2 _ (by simp)

private theorem mp_i64 (v : BitVec 64) : MPInt v.toInt (encodeInt64 v) := by
  unfold encodeInt64
  split
  · rename_i h
    rw [show cInt32Max = 2^31 from rfl, show cInt32Min = -2^31 from rfl] at h
    have := mp_i32 (v.setWidth 32)
    rwa [toInt_setWidth_of_range v 32 (by omega) (by omega) (by omega) (by omega)] at this
  · rw [← beSigned_toInt v _ (be8 v) rfl]; exact .int 0xd3 _ (by simp)

private theorem be_header (n : Nat) (h : n < 2^32) :
    be [byte ((BitVec.ofNat 64 n) >>> 24), byte ((BitVec.ofNat 64 n) >>> 16), byte ((BitVec.ofNat 64 n) >>> 8),
      byte (BitVec.ofNat 64 n)] = n := by
  simp only [be, List.foldl, toNat_byte, BitVec.toNat_ushiftRight, Nat.shiftRight_eq_div_pow, BitVec.toNat_ofNat]
  omega

private theorem mp_header (fix fixBits n : Nat) (t8 t16 : Option Byte) (tag : Byte) (h : n < 2^32) :
    MPHeader fix fixBits t8 t16 (some tag) n (header tag n) := by
  have := MPHeader.len32 (fix := fix) (fixBits := fixBits) (t8 := t8) (t16 := t16) (t32 := some tag) tag
    [byte ((BitVec.ofNat 64 n) >>> 24), byte ((BitVec.ofNat 64 n) >>> 16), byte ((BitVec.ofNat 64 n) >>> 8),
      byte (BitVec.ofNat 64 n)] rfl rfl
  rw [be_header n h] at this
  exact this

private theorem contentList_length (xs : List Val) : (contentList xs).length = xs.length := by
  induction xs with
  | nil => rfl
  | cons x xs ih => simp [contentList, ih]

private theorem contentEntries_length (xs : List (Val × Val)) : (contentEntries xs).length = xs.length := by
  induction xs with
  | nil => rfl
  | cons x xs ih => obtain ⟨k, v⟩ := x; simp [contentEntries, ih]

private theorem mp_mapLoop (kvs todo : List (Val × Val))
    (hk : ∀ kv ∈ todo, MP (content kv.1) (encodeValue kv.1).bytes ∧ MP (content kv.2) (encodeValue kv.2).bytes ∧
      (encodeValue kv.1).err = none ∧ (encodeValue kv.2).err = none)
    (hi : ∀ kv ∈ todo, encodeMapIndex kv.1 (encodeTable kvs) = encodeValue kv.2) :
    MPPairs (contentEntries todo) (encodeMapLoop (encodeTable kvs) (encodeTable todo)).bytes := by
  induction todo with
  | nil => exact .nil
  | cons x xs ih =>
    obtain ⟨k, v⟩ := x
    obtain ⟨h1, h2, h3, h4⟩ := hk (k, v) (by simp)
    simp only at h1 h2 h3 h4
    simp only [encodeTable, encodeMapLoop, contentEntries]
    rw [hi (k, v) (by simp), Enc.seq_bytes (Enc.seq_err h3 h4), Enc.seq_bytes h3]
    exact .cons h1 h2 (ih (fun kv hkv => hk kv (List.mem_cons_of_mem _ hkv))
      (fun kv hkv => hi kv (List.mem_cons_of_mem _ hkv)))

mutual

private theorem mp_value (v : Val) (hf : fits v = true) (hc : clean v = true) (hn : floatFree v = true) :
    MP (content v) (encodeValue v).bytes := by
  match v with
  | .nil => exact .nil
  | .bool _ true => exact .true
  | .bool _ false => exact .false
  | .uint k t x =>
    have := mp_u64 (x.setWidth 64)
    rw [BitVec.toNat_setWidth, Nat.mod_eq_of_lt (uint_toNat_lt x)] at this
    exact .nat _ _ this
  | .int k t x =>
    have := mp_i64 (x.signExtend 64)
    rw [BitVec.toInt_signExtend_of_le (by cases k <;> decide)] at this
    exact .int _ _ this
  | .f32 _ _ => cases hn
  | .f64 _ _ => cases hn
  | .str _ s =>
    simp only [fits, decide_eq_true_eq] at hf
    exact .str s _ (mp_header _ _ _ _ _ _ hf)
  | .seq ty xs =>
    simp only [fits, Bool.and_eq_true, decide_eq_true_eq] at hf
    simp only [clean] at hc
    simp only [floatFree] at hn
    refine .arr _ _ _ ?_ (mp_list xs hf.2 hc hn)
    rw [contentList_length]
    exact mp_header _ _ _ _ _ _ hf.1
  | .map ty kvs =>
    simp only [fits, Bool.and_eq_true, decide_eq_true_eq] at hf
    simp only [clean, Bool.and_eq_true] at hc
    simp only [floatFree] at hn
    refine .map _ _ _ ?_ (mp_mapLoop kvs kvs (mp_entries kvs hf.2 hc.1 hn) (encodeMapIndex_clean hc.1 hc.2))
    rw [contentEntries_length]
    exact mp_header _ _ _ _ _ _ hf.1
  | .bad _ => cases hf

private theorem mp_list (xs : List Val) (hf : fitsList xs = true) (hc : cleanList xs = true)
    (hn : floatFreeList xs = true) : MPList (contentList xs) (encodeElems xs).bytes := by
  match xs with
  | [] => exact .nil
  | x :: xs =>
    simp only [fitsList, cleanList, floatFreeList, Bool.and_eq_true] at hf hc hn
    simp only [contentList, encodeElems]
    rw [Enc.seq_bytes (uniform_value x hf.1).1]
    exact .cons (mp_value x hf.1 hc.1 hn.1) (mp_list xs hf.2 hc.2 hn.2)

private theorem mp_entries (kvs : List (Val × Val)) (hf : fitsEntries kvs = true) (hc : cleanEntries kvs = true)
    (hn : floatFreeEntries kvs = true) :
    ∀ kv ∈ kvs, MP (content kv.1) (encodeValue kv.1).bytes ∧ MP (content kv.2) (encodeValue kv.2).bytes ∧
      (encodeValue kv.1).err = none ∧ (encodeValue kv.2).err = none := by
  match kvs with
  | [] => simp
  | (k, v) :: rest =>
    simp only [fitsEntries, cleanEntries, floatFreeEntries, Bool.and_eq_true] at hf hc hn
    intro kv hkv
    rcases List.mem_cons.mp hkv with hh | hh
    · subst hh
      exact ⟨mp_value k hf.1.1 hc.1.1.1 hn.1.1, mp_value v hf.1.2 hc.1.1.2 hn.1.2,
        (uniform_value k hf.1.1).1, (uniform_value v hf.1.2).1⟩
    · exact mp_entries rest hf.2 hc.2 hn.2 kv hh

end

/-- C15 for values without floats.  (`fits`: supported kinds, lengths below 2^32; `clean`: Go's own map
invariant.)  Full statement: the same with floats. -/
theorem C15_msgpack_partial (v : Val) (hf : fits v = true) (hc : clean v = true) (hn : floatFree v = true) :
    MP (content v) (encode v).bytes := by
  match v with
  | .nil => exact mp_value _ hf hc hn
  | .bool 0 _ => exact mp_value (.bool 0 _) hf hc hn
  | .bool (t+1) _ => exact mp_value (.bool (t+1) _) hf hc hn
  | .str 0 s => exact mp_value (.str 0 s) hf hc hn
  | .str (t+1) s => exact mp_value (.str (t+1) s) hf hc hn
  | .seq ty xs => exact mp_value (.seq ty xs) hf hc hn
  | .map ty kvs => exact mp_value (.map ty kvs) hf hc hn
  | .f32 _ _ => cases hn
  | .f64 _ _ => cases hn
  | .bad _ => cases hf
  | .uint k (t+1) x => cases k <;> exact mp_value (.uint _ (t+1) x) hf hc hn
  | .uint k 0 x =>
    cases k with
    | u8 => exact .nat _ _ (mp_u8 x)
    | u16 => exact .nat _ _ (mp_u16 x)
    | u32 => exact .nat _ _ (mp_u32 x)
    | u64 => exact .nat _ _ (mp_u64 x)
    | uint => exact .nat _ _ (mp_u64 x)
    | uintptr => exact mp_value (.uint .uintptr 0 x) hf hc hn
  | .int k (t+1) x => cases k <;> exact mp_value (.int _ (t+1) x) hf hc hn
  | .int k 0 x =>
    cases k with
    | i8 => exact .int _ _ (mp_i8 x)
    | i16 => exact .int _ _ (mp_i16 x)
    | i32 => exact .int _ _ (mp_i32 x)
    | i64 => exact .int _ _ (mp_i64 x)
    | int => exact .int _ _ (mp_i64 x)

example : let v := Val.map .ifaceMap [(.str 0 [107], .seq (.slice 1) [.int .int 0 (-200), .uint .uint 0 70000]),
      (.nil, .bool 0 true)]
    fits v = true ∧ clean v = true ∧ floatFree v = true := ⟨rfl, rfl, rfl⟩

end Verif.Props
