import Verif.Codec.Lemmas
import Verif.Codec.FloatLemmas

/-! # Round trip through the wire format, by mutual induction over the value -/

namespace Verif.Codec

open Verif

/-! ## Small facts about `Enc` -/

@[simp] theorem Enc.ok_bytes (bs : List Byte) : (Enc.ok bs).bytes = bs := rfl
@[simp] theorem Enc.ok_err (bs : List Byte) : (Enc.ok bs).err = none := rfl

theorem Enc.seq_err {a b : Enc} (ha : a.err = none) (hb : b.err = none) : (a.seq b).err = none := by
  simp [Enc.seq, ha, hb]

theorem Enc.seq_bytes {a b : Enc} (ha : a.err = none) : (a.seq b).bytes = a.bytes ++ b.bytes := by
  simp [Enc.seq, ha]

/-! ## Keys: equality before encoding implies equality after -/

theorem eq64_nonzero {a b : BitVec 64} (ha : 2^32 ≤ a.toNat) (hb : 2^32 ≤ b.toNat)
    (h : eq64 a b = true) : a = b ∧ isNaN64 a = false := by
  simp only [eq64, Bool.and_eq_true, Bool.or_eq_true, Bool.not_eq_true', beq_iff_eq] at h
  refine ⟨?_, h.1.1⟩
  rcases h.2 with h | h
  · exact h
  · have h1 := a.isLt
    have h2 := b.isLt
    apply BitVec.eq_of_toNat_eq
    omega

theorem eq32_nonzero {a b : BitVec 32} (ha : a ≠ 0) (hb : b ≠ 0)
    (h : eq32 a b = true) : a = b ∧ isNaN32 a = false := by
  simp only [eq32, Bool.and_eq_true, Bool.or_eq_true, Bool.not_eq_true', beq_iff_eq] at h
  refine ⟨?_, h.1.1⟩
  have ha' : a.toNat ≠ 0 := by
    intro hc; apply ha; apply BitVec.eq_of_toNat_eq; simpa using hc
  have hb' : b.toNat ≠ 0 := by
    intro hc; apply hb; apply BitVec.eq_of_toNat_eq; simpa using hc
  rcases h.2 with h | h
  · exact h
  · have h1 := a.isLt
    have h2 := b.isLt
    apply BitVec.eq_of_toNat_eq
    omega

theorem eq64_refl {a : BitVec 64} (h : isNaN64 a = false) : eq64 a a = true := by
  simp [eq64, h]

theorem goEq_canonNat (n : Nat) : goEq (canonNat n) (canonNat n) = true := by
  unfold canonNat
  split <;> (try split) <;> (try split) <;> simp [goEq]

theorem goEq_canonInt (z : Int) : goEq (canonInt z) (canonInt z) = true := by
  unfold canonInt
  split <;> (try split) <;> (try split) <;> simp [goEq]

theorem goEq_canon {k k' : Val} (hk : wireOK k = true) (hk' : wireOK k' = true) (hs : isScalar k = true)
    (h : goEq k k' = true) : goEq (canon k) (canon k') = true := by
  cases k <;> first | (simp [isScalar] at hs; done) | skip
  all_goals cases k' <;> simp [goEq] at h
  · simp [canon, goEq]
  · simp [canon, goEq, h.2]
  · simp [canon, h.2, goEq_canonNat]
  · simp [canon, h.2, goEq_canonInt]
  · simp [wireOK] at hk hk'
    obtain ⟨rfl, hn⟩ := eq32_nonzero hk hk' h.2
    simp [canon, goEq, eq64_refl, isNaN64_widen, hn]
  · simp [wireOK] at hk hk'
    obtain ⟨rfl, hn⟩ := eq64_nonzero hk hk' h.2
    simp [canon, goEq, eq64_refl, hn]
  · simp [canon, goEq, h.2]

theorem hashable_canonNat (n : Nat) : hashable (canonNat n) = true := by
  unfold canonNat
  by_cases h1 : n < 2^8 <;> by_cases h2 : n < 2^16 <;> by_cases h3 : n < 2^32 <;> simp only [h1, h2, h3, if_false] <;> rfl

theorem hashable_canonInt (z : Int) : hashable (canonInt z) = true := by
  unfold canonInt
  by_cases h1 : -2^7 < z ∧ z < 2^7 <;> by_cases h2 : -2^15 < z ∧ z < 2^15 <;>
    by_cases h3 : -2^31 < z ∧ z < 2^31 <;> simp only [h1, h2, h3, if_false] <;> rfl

theorem hashable_canon {k : Val} (hs : isScalar k = true) (hk : wireOK k = true) :
    hashable (canon k) = true := by
  cases k <;> simp [isScalar, wireOK] at hs hk <;> simp [canon, hashable]
  · exact hashable_canonNat _
  · exact hashable_canonInt _

/-! ## Main induction -/

/-- `e` is an error-free, non-empty encoding that decodes to `w`, whatever follows. -/
def GoodEnc (e : Enc) (w : Val) : Prop :=
  e.err = none ∧ 1 ≤ e.bytes.length ∧
    ∀ (rest : List Byte) (fuel : Nat), e.bytes.length ≤ fuel →
      decodeF bytesReader fuel (e.bytes ++ rest) = .ok (w, rest)

theorem goodEnc_of {bs : List Byte} {w : Val} (h1 : 1 ≤ bs.length)
    (h : ∀ rest f, decodeF bytesReader (f + 1) (bs ++ rest) = .ok (w, rest)) :
    GoodEnc (.ok bs) w := by
  refine ⟨rfl, h1, ?_⟩
  intro rest fuel hf
  simp only [Enc.ok_bytes] at hf ⊢
  obtain ⟨f, rfl⟩ : ∃ f, fuel = f + 1 := ⟨fuel - 1, by omega⟩
  exact h rest f

theorem encodeUint64_length (v : BitVec 64) : 2 ≤ (encodeUint64 v).length := by
  unfold encodeUint64 encodeUint32 encodeUint16 encodeUint8
  split <;> (try split) <;> (try split) <;> simp

theorem encodeUint32_length (v : BitVec 32) : 2 ≤ (encodeUint32 v).length := by
  unfold encodeUint32 encodeUint16 encodeUint8
  split <;> (try split) <;> simp

theorem encodeInt64_length (v : BitVec 64) : 2 ≤ (encodeInt64 v).length := by
  unfold encodeInt64 encodeInt32 encodeInt16 encodeInt8
  split <;> (try split) <;> (try split) <;> simp

theorem goodEnc_f64 {b : BitVec 64} (h : 2^32 ≤ b.toNat) : GoodEnc (.ok (encodeFloat64 b)) (.f64 0 b) := by
  have hl := encodeUint64_length b
  refine ⟨rfl, by simp [encodeFloat64], ?_⟩
  intro rest fuel hf
  simp only [Enc.ok_bytes, encodeFloat64, List.singleton_append, List.length_cons] at hf
  obtain ⟨f, rfl⟩ : ∃ f, fuel = f + 2 := ⟨fuel - 2, by omega⟩
  rw [Enc.ok_bytes, decodeF_encodeFloat64, if_pos h]

theorem header_length (t : Byte) (n : Nat) : (header t n).length = 5 := rfl

theorem encodeMapIndex_own {table : List (Val × Enc × Enc)} {k : Val} {ek ev : Enc}
    (hmem : (k, ek, ev) ∈ table)
    (hrefl : goEq k k = true)
    (hdist : ∀ x ∈ table, goEq x.1 k = true → x = (k, ek, ev)) :
    encodeMapIndex k table = ev := by
  induction table with
  | nil => simp at hmem
  | cons x xs ih =>
    obtain ⟨k', ek', ev'⟩ := x
    rw [encodeMapIndex]
    by_cases hx : goEq k' k = true
    · have := hdist (k', ek', ev') (by simp) hx
      simp only [Prod.mk.injEq] at this
      rw [if_pos hx, this.2.2]
    · rw [if_neg hx]
      apply ih
      · rcases List.mem_cons.mp hmem with h | h
        · simp only [Prod.mk.injEq] at h
          exact absurd (h.1 ▸ hrefl) hx
        · exact h
      · intro y hy
        exact hdist y (List.mem_cons_of_mem _ hy)

theorem encodeTable_eq (kvs : List (Val × Val)) :
    encodeTable kvs = kvs.map (fun kv => (kv.1, encodeValue kv.1, encodeValue kv.2)) := by
  induction kvs with
  | nil => simp [encodeTable]
  | cons x xs ih => obtain ⟨k, v⟩ := x; simp [encodeTable, ih]

theorem canonEntries_eq (kvs : List (Val × Val)) :
    canonEntries kvs = kvs.map (fun kv => (canon kv.1, canon kv.2)) := by
  induction kvs with
  | nil => simp [canonEntries]
  | cons x xs ih => obtain ⟨k, v⟩ := x; simp [canonEntries, ih]

theorem canonList_eq (xs : List Val) : canonList xs = xs.map canon := by
  induction xs with
  | nil => simp [canonList]
  | cons x xs ih => simp [canonList, ih]

theorem wireOKList_iff (xs : List Val) : wireOKList xs = true ↔ ∀ x ∈ xs, wireOK x = true := by
  induction xs with
  | nil => simp [wireOKList]
  | cons x xs ih => simp [wireOKList, ih]

theorem isNil_iff (v : Val) : isNil v = true ↔ v = .nil := by cases v <;> simp [isNil]

theorem wireOKEntries_iff (kvs : List (Val × Val)) :
    wireOKEntries kvs = true ↔ ∀ kv ∈ kvs, wireOK kv.1 = true ∧ isScalar kv.1 = true ∧
      (reflexive kv.1 = true ∨ kv.2 = .nil) ∧ wireOK kv.2 = true := by
  induction kvs with
  | nil => simp [wireOKEntries]
  | cons x xs ih => obtain ⟨k, v⟩ := x; simp [wireOKEntries, ih, and_assoc, isNil_iff]

theorem distinctKeys_iff (ks : List Val) :
    distinctKeys ks = true ↔ ks.Pairwise (fun k k' => goEq k k' = false) := by
  induction ks with
  | nil => simp [distinctKeys]
  | cons x xs ih => simp [distinctKeys, ih]

theorem eq32_comm (a b : BitVec 32) : eq32 a b = eq32 b a := by
  unfold eq32
  rw [show (a == b) = (b == a) from BEq.comm]
  cases isNaN32 a <;> cases isNaN32 b <;> simp [Bool.and_comm]

theorem eq64_comm (a b : BitVec 64) : eq64 a b = eq64 b a := by
  unfold eq64
  rw [show (a == b) = (b == a) from BEq.comm]
  cases isNaN64 a <;> cases isNaN64 b <;> simp [Bool.and_comm]

theorem goEq_comm_scalar {k k' : Val} (hs : isScalar k = true) : goEq k k' = goEq k' k := by
  cases k <;> first | (simp [isScalar] at hs; done) | skip
  all_goals cases k' with
    | seq ty xs => cases ty <;> rfl
    | _ => first | rfl | (simp only [goEq]; grind [eq32_comm, eq64_comm])

/-- The decoding loop of maps: entries with pairwise different keys are appended in order. -/
theorem assign_fresh {k v : Val} {dict : List (Val × Val)}
    (h : ∀ kv ∈ dict, goEq kv.1 k = false) : assign k v dict = dict ++ [(k, v)] := by
  induction dict with
  | nil => rfl
  | cons x xs ih =>
    obtain ⟨k', v'⟩ := x
    rw [assign, if_neg (by simp [h (k', v') (by simp)]), ih (fun kv hkv => h kv (List.mem_cons_of_mem _ hkv))]
    rfl

/-- Loop of `encodeMap` against loop of `decodeMap`. -/
theorem rt_mapLoop (table : List (Val × Enc × Enc)) (todo : List (Val × Val))
    (hgood : ∀ kv ∈ todo, GoodEnc (encodeValue kv.1) (canon kv.1) ∧ GoodEnc (encodeValue kv.2) (canon kv.2))
    (hidx : ∀ kv ∈ todo, encodeMapIndex kv.1 table = encodeValue kv.2)
    (hhash : ∀ kv ∈ todo, hashable (canon kv.1) = true)
    (hdist : (todo.map (fun kv => canon kv.1)).Pairwise (fun k k' => goEq k k' = false)) :
    (encodeMapLoop table (encodeTable todo)).err = none ∧
    ∀ (rest : List Byte) (fuel : Nat) (dict : List (Val × Val)),
      (encodeMapLoop table (encodeTable todo)).bytes.length ≤ fuel →
      (∀ kv ∈ todo, ∀ d ∈ dict, goEq d.1 (canon kv.1) = false) →
      decodeMap (decodeF bytesReader fuel) todo.length dict
          ((encodeMapLoop table (encodeTable todo)).bytes ++ rest) =
        .ok (dict ++ canonEntries todo, rest) := by
  induction todo with
  | nil =>
    refine ⟨rfl, ?_⟩
    intro rest fuel dict _ _
    simp [encodeTable, encodeMapLoop, decodeMap, canonEntries]
  | cons kv todo ih =>
    obtain ⟨k, v⟩ := kv
    obtain ⟨⟨hk1, hk2, hk3⟩, ⟨hv1, hv2, hv3⟩⟩ := hgood (k, v) (by simp)
    simp only [List.map_cons, List.pairwise_cons] at hdist
    obtain ⟨ih1, ih2⟩ := ih (fun x hx => hgood x (List.mem_cons_of_mem _ hx))
      (fun x hx => hidx x (List.mem_cons_of_mem _ hx)) (fun x hx => hhash x (List.mem_cons_of_mem _ hx))
      hdist.2
    have hi := hidx (k, v) (by simp)
    simp only at hi hk1 hk2 hk3 hv1 hv2 hv3
    have hkv : ((encodeValue k).seq (encodeMapIndex k table)).err = none := by
      rw [hi]; exact Enc.seq_err hk1 hv1
    simp only [encodeTable, encodeMapLoop]
    refine ⟨Enc.seq_err hkv ih1, ?_⟩
    intro rest fuel dict hf hd
    rw [Enc.seq_bytes hkv, Enc.seq_bytes hk1, hi] at hf ⊢
    simp only [List.length_append] at hf
    simp only [List.length_cons, decodeMap, List.append_assoc]
    rw [hk3 _ fuel (by omega)]
    simp only [Res.bind_ok]
    rw [hv3 _ fuel (by omega)]
    simp only [Res.bind_ok]
    have hh := hhash (k, v) (by simp)
    simp only at hh
    rw [if_pos hh, assign_fresh (hd (k, v) (by simp)), ih2 rest fuel _ (by omega)]
    · simp [canonEntries]
    · intro x hx d hdm
      rcases List.mem_append.mp hdm with h | h
      · exact hd x (List.mem_cons_of_mem _ hx) d h
      · simp only [List.mem_singleton] at h
        subst h
        exact hdist.1 (canon x.1) (List.mem_map.mpr ⟨x, hx, rfl⟩)

/-- Whatever is equal to a scalar, the scalar is equal to itself. -/
theorem goEq_right {a b : Val} (hs : isScalar b = true) (h : goEq a b = true) : goEq b b = true := by
  cases b <;> first | (simp [isScalar] at hs; done) | skip
  all_goals cases a with
    | seq ty xs => cases ty <;> simp [goEq] at h
    | _ => first | (simp [goEq] at h; done) | (simp [goEq] at h ⊢; try simp_all [eq32, eq64])

/-- What `encodeMapIndex` finds for an entry of the map: its value, or nothing for a NaN. -/
theorem index_own (before after : List (Val × Val)) (k v : Val) (hs : isScalar k = true)
    (hb : ∀ kv ∈ before, goEq kv.1 k = false) :
    encodeMapIndex k (encodeTable (before ++ (k, v) :: after)) = if goEq k k then encodeValue v else .ok encodeNil := by
  induction before with
  | nil =>
    simp only [List.nil_append, encodeTable, encodeMapIndex]
    split
    · rfl
    · rename_i hn
      have : ∀ l : List (Val × Val), encodeMapIndex k (encodeTable l) = .ok encodeNil := by
        intro l
        induction l with
        | nil => rfl
        | cons x l ih =>
          obtain ⟨k', v'⟩ := x
          simp only [encodeTable, encodeMapIndex]
          rw [if_neg (fun h => hn (goEq_right hs h)), ih]
      exact this after
  | cons x before ih =>
    obtain ⟨k', v'⟩ := x
    simp only [List.cons_append, encodeTable, encodeMapIndex]
    rw [if_neg (by simp [hb (k', v') (by simp)])]
    exact ih fun kv h => hb kv (List.mem_cons_of_mem _ h)

/-- Keys that are different on the wire were different before. -/
theorem before_ne {before : List (Val × Val)} {k : Val} (hk : wireOK k = true) (hs : isScalar k = true)
    (hb : ∀ kv ∈ before, wireOK kv.1 = true ∧ isScalar kv.1 = true ∧ goEq (canon kv.1) (canon k) = false) :
    ∀ kv ∈ before, goEq kv.1 k = false := by
  intro kv h
  obtain ⟨h1, h2, h3⟩ := hb kv h
  cases e : goEq kv.1 k with
  | false => rfl
  | true =>
    rw [goEq_canon h1 hk h2 e] at h3
    cases h3

theorem index_all (kvs : List (Val × Val)) (hok : ∀ kv ∈ kvs, wireOK kv.1 = true ∧ isScalar kv.1 = true ∧
      (reflexive kv.1 = true ∨ kv.2 = .nil) ∧ wireOK kv.2 = true)
    (hdist : (kvs.map (fun kv => canon kv.1)).Pairwise (fun k k' => goEq k k' = false)) :
    ∀ kv ∈ kvs, encodeMapIndex kv.1 (encodeTable kvs) = encodeValue kv.2 := by
  intro kv hkv
  obtain ⟨before, after, rfl⟩ := List.append_of_mem hkv
  obtain ⟨h1, h2, h4, h3⟩ := hok kv hkv
  rw [List.map_append, List.map_cons, List.pairwise_append] at hdist
  have := index_own before after kv.1 kv.2 h2 (before_ne h1 h2 fun x hx => by
    obtain ⟨x1, x2, -⟩ := hok x (List.mem_append_left _ hx)
    exact ⟨x1, x2, hdist.2.2 _ (List.mem_map.mpr ⟨x, hx, rfl⟩) _ (by simp)⟩)
  rw [show (kv.1, kv.2) = kv from rfl] at this
  rw [this]
  split
  · rfl
  · rename_i hn
    rcases h4 with h4 | h4
    · exact absurd h4 hn
    · rw [h4]; rfl

theorem rt_map (ty : MapTy) (kvs : List (Val × Val)) (hlen : kvs.length < 2^32)
    (hgood : ∀ kv ∈ kvs, GoodEnc (encodeValue kv.1) (canon kv.1) ∧ GoodEnc (encodeValue kv.2) (canon kv.2))
    (hok : ∀ kv ∈ kvs, wireOK kv.1 = true ∧ isScalar kv.1 = true ∧ (reflexive kv.1 = true ∨ kv.2 = .nil) ∧
      wireOK kv.2 = true)
    (hdist : (kvs.map (fun kv => canon kv.1)).Pairwise (fun k k' => goEq k k' = false)) :
    GoodEnc (encodeValue (.map ty kvs)) (canon (.map ty kvs)) := by
  obtain ⟨h1, h2⟩ := rt_mapLoop (encodeTable kvs) kvs hgood (index_all kvs hok hdist)
    (fun kv hkv => hashable_canon (hok kv hkv).2.1 (hok kv hkv).1) hdist
  simp only [encodeValue, canon]
  refine ⟨Enc.seq_err rfl h1, ?_, ?_⟩
  · rw [Enc.seq_bytes rfl]; simp [header_length]; omega
  · intro rest fuel hf
    rw [Enc.seq_bytes rfl] at hf ⊢
    simp only [Enc.ok_bytes, List.length_append, header_length] at hf ⊢
    obtain ⟨f, rfl⟩ : ∃ f, fuel = f + 1 := ⟨fuel - 1, by omega⟩
    rw [List.append_assoc, decodeF_map f _ _ hlen, h2 rest f [] (by omega) (by simp)]
    simp

theorem rt_seq (ty : SeqTy) (xs : List Val) (hlen : xs.length < 2^32)
    (h1 : (encodeElems xs).err = none)
    (h2 : ∀ rest fuel, (encodeElems xs).bytes.length ≤ fuel →
      decodeArray (decodeF bytesReader fuel) xs.length ((encodeElems xs).bytes ++ rest) =
        .ok (canonList xs, rest)) :
    GoodEnc (encodeValue (.seq ty xs)) (canon (.seq ty xs)) := by
  simp only [encodeValue, canon]
  refine ⟨Enc.seq_err rfl h1, ?_, ?_⟩
  · rw [Enc.seq_bytes rfl]; simp [header_length]; omega
  · intro rest fuel hf
    rw [Enc.seq_bytes rfl] at hf ⊢
    simp only [Enc.ok_bytes, List.length_append, header_length] at hf ⊢
    obtain ⟨f, rfl⟩ : ∃ f, fuel = f + 1 := ⟨fuel - 1, by omega⟩
    rw [List.append_assoc, decodeF_arr f _ _ hlen, h2 rest f (by omega)]
    simp

mutual

theorem rt_value (v : Val) (h : wireOK v = true) : GoodEnc (encodeValue v) (canon v) := by
  match v with
  | .nil =>
    exact goodEnc_of (by simp [encodeNil]) (fun rest f => by
      simp [encodeNil, decodeF, decodeTag, cNil, canon])
  | .bool _ b =>
    refine goodEnc_of (by cases b <;> simp [encodeBool]) (fun rest f => ?_)
    cases b <;> simp [encodeBool, decodeF, decodeTag, cNil, cFalse, cTrue, canon]
  | .uint k _ x =>
    refine goodEnc_of (by have := encodeUint64_length (x.setWidth 64); omega) (fun rest f => ?_)
    rw [decodeF_encodeUint64, canon]
    congr 3
    have := x.isLt
    simp only [BitVec.toNat_setWidth]
    apply Nat.mod_eq_of_lt
    exact Nat.lt_of_lt_of_le this (Nat.pow_le_pow_right (by omega) (by cases k <;> simp [UKind.width]))
  | .int k _ x =>
    refine goodEnc_of (by have := encodeInt64_length (x.signExtend 64); omega) (fun rest f => ?_)
    rw [decodeF_encodeInt64, canon]
    congr 3
    exact BitVec.toInt_signExtend_of_le (by cases k <;> simp [IKind.width])
  | .f32 _ b =>
    simp [wireOK] at h
    exact goodEnc_f64 (widen_large b h)
  | .f64 _ b =>
    simp [wireOK] at h
    exact goodEnc_f64 h
  | .str _ s =>
    simp [wireOK] at h
    exact goodEnc_of (by simp [encodeString, header]) (fun rest f => decodeF_encodeString f s rest h)
  | .seq ty xs =>
    simp only [wireOK, Bool.and_eq_true, decide_eq_true_eq] at h
    obtain ⟨h1, h2⟩ := rt_list xs h.2
    exact rt_seq ty xs h.1 h1 h2
  | .map ty kvs =>
    simp only [wireOK, Bool.and_eq_true, decide_eq_true_eq] at h
    refine rt_map ty kvs h.1.1 (rt_entries kvs h.1.2) ((wireOKEntries_iff kvs).mp h.1.2) ?_
    have := (distinctKeys_iff _).mp h.2
    rw [canonEntries_eq, List.map_map] at this
    exact this
  | .bad _ => simp [wireOK] at h

theorem rt_list (xs : List Val) (h : wireOKList xs = true) :
    (encodeElems xs).err = none ∧
    ∀ rest fuel, (encodeElems xs).bytes.length ≤ fuel →
      decodeArray (decodeF bytesReader fuel) xs.length ((encodeElems xs).bytes ++ rest) =
        .ok (canonList xs, rest) := by
  match xs with
  | [] => exact ⟨rfl, fun rest fuel _ => by simp [encodeElems, decodeArray, canonList]⟩
  | x :: xs =>
    simp only [wireOKList, Bool.and_eq_true] at h
    obtain ⟨hx1, hx2, hx3⟩ := rt_value x h.1
    obtain ⟨ih1, ih2⟩ := rt_list xs h.2
    simp only [encodeElems]
    refine ⟨Enc.seq_err hx1 ih1, ?_⟩
    intro rest fuel hf
    rw [Enc.seq_bytes hx1] at hf ⊢
    simp only [List.length_append] at hf
    simp only [List.length_cons, decodeArray, List.append_assoc]
    rw [hx3 _ fuel (by omega)]
    simp only [Res.bind_ok]
    rw [ih2 rest fuel (by omega)]
    simp [canonList]

theorem rt_entries (kvs : List (Val × Val)) (h : wireOKEntries kvs = true) :
    ∀ kv ∈ kvs, GoodEnc (encodeValue kv.1) (canon kv.1) ∧ GoodEnc (encodeValue kv.2) (canon kv.2) := by
  match kvs with
  | [] => simp
  | (k, v) :: rest =>
    simp only [wireOKEntries, Bool.and_eq_true] at h
    intro kv hkv
    rcases List.mem_cons.mp hkv with hh | hh
    · subst hh
      exact ⟨rt_value k h.1.1.1.1, rt_value v h.1.2⟩
    · exact rt_entries rest h.2 kv hh

end

theorem goodEnc_f32 {b : BitVec 32} (h : 2^16 ≤ b.toNat) : GoodEnc (.ok (encodeFloat32 b)) (.f32 0 b) := by
  have hl := encodeUint32_length b
  refine ⟨rfl, by simp [encodeFloat32], ?_⟩
  intro rest fuel hf
  simp only [Enc.ok_bytes, encodeFloat32, List.singleton_append, List.length_cons] at hf
  obtain ⟨f, rfl⟩ : ∃ f, fuel = f + 2 := ⟨fuel - 2, by omega⟩
  rw [Enc.ok_bytes, decodeF_encodeFloat32, if_pos h]

theorem encodeUint16_length (v : BitVec 16) : 2 ≤ (encodeUint16 v).length := by
  unfold encodeUint16 encodeUint8
  split <;> simp

theorem encodeInt16_length (v : BitVec 16) : 2 ≤ (encodeInt16 v).length := by
  unfold encodeInt16 encodeInt8
  split <;> simp

theorem encodeInt32_length (v : BitVec 32) : 2 ≤ (encodeInt32 v).length := by
  unfold encodeInt32 encodeInt16 encodeInt8
  split <;> (try split) <;> simp

theorem canonInt_i8 (v : BitVec 8) (h : v.toInt ≠ -2^7) : canonInt v.toInt = .int .i8 0 v := by
  have h1 := BitVec.le_toInt v
  have h2 := BitVec.toInt_lt (x := v)
  unfold canonInt
  rw [if_pos (by omega)]
  simp

/-- Round trip at top level: `Encode` followed by `Decode`. -/
theorem rt_top (v : Val) (h : topOK v = true) : GoodEnc (encode v) (canonTop v) := by
  match v with
  | .f32 0 b =>
    simp [topOK] at h
    exact goodEnc_f32 h
  | .f32 (t+1) b => exact rt_value _ h
  | .nil => exact rt_value _ h
  | .bool 0 b => exact rt_value (.bool 0 b) h
  | .bool (t+1) b => exact rt_value _ h
  | .f64 0 b => exact rt_value (.f64 0 b) h
  | .f64 (t+1) b => exact rt_value _ h
  | .str 0 b => exact rt_value (.str 0 b) h
  | .str (t+1) b => exact rt_value _ h
  | .seq ty xs => exact rt_value _ h
  | .map ty xs => exact rt_value _ h
  | .bad k => exact rt_value _ h
  | .uint k (t+1) x => cases k <;> exact rt_value _ h
  | .uint .u8 0 x => exact goodEnc_of (by simp [encodeUint8]) (fun rest f => decodeF_encodeUint8 f x rest)
  | .uint .u16 0 x =>
    exact goodEnc_of (by have := encodeUint16_length x; omega) (fun rest f => decodeF_encodeUint16 f x rest)
  | .uint .u32 0 x =>
    exact goodEnc_of (by have := encodeUint32_length x; omega) (fun rest f => decodeF_encodeUint32 f x rest)
  | .uint .u64 0 x =>
    exact goodEnc_of (by have := encodeUint64_length x; omega) (fun rest f => decodeF_encodeUint64 f x rest)
  | .uint .uint 0 x =>
    exact goodEnc_of (by have := encodeUint64_length x; omega) (fun rest f => decodeF_encodeUint64 f x rest)
  | .uint .uintptr 0 x => exact rt_value _ h
  | .int k (t+1) x => cases k <;> exact rt_value _ h
  | .int .i8 0 x =>
    refine goodEnc_of (by simp [encodeInt8]) (fun rest f => ?_)
    refine (decodeF_encodeInt8 f x rest).trans ?_
    rw [canonTop]
    split
    · rfl
    · rename_i h; exact congrArg (fun w => Res.ok (w, rest)) (canonInt_i8 x h).symm
  | .int .i16 0 x =>
    exact goodEnc_of (by have := encodeInt16_length x; omega) (fun rest f => decodeF_encodeInt16 f x rest)
  | .int .i32 0 x =>
    exact goodEnc_of (by have := encodeInt32_length x; omega) (fun rest f => decodeF_encodeInt32 f x rest)
  | .int .i64 0 x =>
    exact goodEnc_of (by have := encodeInt64_length x; omega) (fun rest f => decodeF_encodeInt64 f x rest)
  | .int .int 0 x =>
    exact goodEnc_of (by have := encodeInt64_length x; omega) (fun rest f => decodeF_encodeInt64 f x rest)

/-- The same phrased with `decode`. -/
theorem decode_encode (v : Val) (h : topOK v = true) (rest : List Byte) :
    decode ((encode v).bytes ++ rest) = .ok (canonTop v, rest) := by
  obtain ⟨_, _, h3⟩ := rt_top v h
  exact h3 rest _ (by simp; omega)

/-! ## The canonical value has the same content -/

theorem content_canonNat (n : Nat) (h : n < 2^64) : content (canonNat n) = .nat n := by
  unfold canonNat
  split
  · simp only [content]; congr 1; simp [UKind.width]; omega
  · split
    · simp only [content]; congr 1; simp [UKind.width]; omega
    · split
      · simp only [content]; congr 1; simp [UKind.width]; omega
      · simp only [content]; congr 1; simp [UKind.width]; omega

theorem content_canonInt (z : Int) (h1 : -2^63 ≤ z) (h2 : z < 2^63) : content (canonInt z) = .int z := by
  unfold canonInt
  have key : ∀ w : Nat, 0 < w → -2^(w-1) ≤ z → z < 2^(w-1) → (BitVec.ofInt w z).toInt = z := by
    intro w hw h1 h2
    exact BitVec.toInt_ofInt_eq_self hw h1 h2
  split
  · simp only [content]; congr 1; exact key 8 (by omega) (by omega) (by omega)
  · split
    · simp only [content]; congr 1; exact key 16 (by omega) (by omega) (by omega)
    · split
      · simp only [content]; congr 1; exact key 32 (by omega) (by omega) (by omega)
      · simp only [content]; congr 1; exact key 64 (by omega) (by omega) (by omega)

theorem uint_toNat_lt {k : UKind} (x : BitVec k.width) : x.toNat < 2^64 :=
  Nat.lt_of_lt_of_le x.isLt (Nat.pow_le_pow_right (by omega) (by cases k <;> simp [UKind.width]))

theorem int_toInt_bounds {k : IKind} (x : BitVec k.width) : -2^63 ≤ x.toInt ∧ x.toInt < 2^63 := by
  have h1 := BitVec.le_toInt x
  have h2 := BitVec.toInt_lt (x := x)
  have h3 : (2:Int)^(k.width - 1) ≤ 2^63 := by cases k <;> decide
  constructor <;> omega

mutual

theorem content_canon (v : Val) : content (canon v) = content v := by
  match v with
  | .nil => rfl
  | .bool _ _ => rfl
  | .uint k t x => simp only [canon]; rw [content_canonNat _ (uint_toNat_lt x)]; rfl
  | .int k t x =>
    simp only [canon]; rw [content_canonInt _ (int_toInt_bounds x).1 (int_toInt_bounds x).2]; rfl
  | .f32 _ _ => rfl
  | .f64 _ _ => rfl
  | .str _ _ => rfl
  | .seq _ xs => simp only [canon, content, content_canonList xs]
  | .map _ kvs => simp only [canon, content, content_canonEntries kvs]
  | .bad _ => rfl

theorem content_canonList (xs : List Val) : contentList (canonList xs) = contentList xs := by
  match xs with
  | [] => rfl
  | x :: xs => simp only [canonList, contentList, content_canon x, content_canonList xs]

theorem content_canonEntries (kvs : List (Val × Val)) :
    contentEntries (canonEntries kvs) = contentEntries kvs := by
  match kvs with
  | [] => rfl
  | (k, v) :: rest =>
    simp only [canonEntries, contentEntries, content_canon k, content_canon v, content_canonEntries rest]

end

theorem content_canonTop (v : Val) : content (canonTop v) = content v := by
  unfold canonTop
  split
  · rfl
  · split
    · rfl
    · rename_i x _; exact content_canon (.int .i8 0 x)
  · split
    · rfl
    · rename_i x _; exact content_canon (.int .i16 0 x)
  · split
    · rfl
    · rename_i x _; exact content_canon (.int .i32 0 x)
  · exact content_canon v

end Verif.Codec
