import Verif.Codec.Exact
import Verif.Codec.Uniform

/-!
# What is decoded from an encoded value can be encoded again

A value that was decoded from the bytes of `encode` (/repo/codec/encoder.go:25-64) is one of the values that survive the next
transmission (`wireOK`, `topOK`), whatever the value was that was encoded: what does not survive fails at the first decoding
(/repo/codec/decoder.go:19-67) or is left out there.
-/

namespace Verif.Codec

private theorem bind_inv {α β : Type} {x : Res α} {g : α → Res β} {b : β} (h : (x >>= g) = .ok b) : ∃ a, x = .ok a ∧ g a = .ok b := by
  cases x with
  | ok a => exact ⟨a, rfl, h⟩
  | _ => cases h

/-- After a value of `Uniform` encoding the reader stands behind it. -/
theorem Uniform.rest {e : Enc} (h : Uniform e) {f : Nat} {rest r : List Byte} {w : Val}
    (hd : decodeF bytesReader f (e.bytes ++ rest) = .ok (w, r)) : r = rest := by
  obtain ⟨-, -, x, hx⟩ := h
  have h1 := hx rest (max f e.bytes.length) (by omega)
  rw [decodeF_mono (Nat.le_max_left f e.bytes.length) _ (by rw [hd]; simp), hd] at h1
  obtain ⟨a, -, h2⟩ := bind_inv h1.symm
  cases h2
  rfl

/-- A value as `decode` returns it, ready for the next transmission. -/
def Ready (w : Val) : Prop := wireOK w = true ∧ canon w = w

theorem canonNat_ready (n : Nat) : wireOK (canonNat n) = true ∧ isScalar (canonNat n) = true := by
  unfold canonNat
  repeat' split
  all_goals exact ⟨rfl, rfl⟩

theorem canonInt_ready (z : Int) : wireOK (canonInt z) = true ∧ isScalar (canonInt z) = true := by
  unfold canonInt
  repeat' split
  all_goals exact ⟨rfl, rfl⟩

private theorem nat_again (n : Nat) (hn : n < 2^64) : canon (canonNat n) = canonNat n := by
  have e : ∀ w, n < 2^w → (BitVec.ofNat w n).toNat = n := fun w h => by simp [Nat.mod_eq_of_lt h]
  unfold canonNat
  split
  · show canonNat (BitVec.ofNat 8 n).toNat = _; rw [e 8 (by omega), canonNat, if_pos (by omega)]
  split
  · show canonNat (BitVec.ofNat 16 n).toNat = _; rw [e 16 (by omega), canonNat, if_neg (by omega), if_pos (by omega)]
  split
  · show canonNat (BitVec.ofNat 32 n).toNat = _; rw [e 32 (by omega), canonNat, if_neg (by omega), if_neg (by omega), if_pos (by omega)]
  · show canonNat (BitVec.ofNat 64 n).toNat = _
    rw [e 64 (by omega), canonNat, if_neg (by omega), if_neg (by omega), if_neg (by omega)]

private theorem int_again (z : Int) (hz : -2^63 ≤ z ∧ z < 2^63) : canon (canonInt z) = canonInt z := by
  have e : ∀ w, 0 < w → -2^(w-1) ≤ z → z < 2^(w-1) → (BitVec.ofInt w z).toInt = z := fun w hw h1 h2 =>
    BitVec.toInt_ofInt_eq_self hw h1 h2
  unfold canonInt
  split
  · show canonInt (BitVec.ofInt 8 z).toInt = _; rw [e 8 (by omega) (by omega) (by omega), canonInt, if_pos (by omega)]
  split
  · show canonInt (BitVec.ofInt 16 z).toInt = _; rw [e 16 (by omega) (by omega) (by omega), canonInt, if_neg (by omega), if_pos (by omega)]
  split
  · show canonInt (BitVec.ofInt 32 z).toInt = _; rw [e 32 (by omega) (by omega) (by omega), canonInt, if_neg (by omega), if_neg (by omega), if_pos (by omega)]
  · show canonInt (BitVec.ofInt 64 z).toInt = _; rw [e 64 (by omega) (by omega) (by omega), canonInt, if_neg (by omega), if_neg (by omega), if_neg (by omega)]

/-- A scalar that survives a transmission is ready for the next. -/
theorem scalar_ready {v : Val} (hs : isScalar v = true) (h : wireOK v = true) :
    Ready (canon v) ∧ isScalar (canon v) = true ∧ (reflexive v = true → reflexive (canon v) = true) := by
  cases v with
  | nil => exact ⟨⟨rfl, rfl⟩, rfl, fun h => h⟩
  | bool t b => exact ⟨⟨rfl, rfl⟩, rfl, fun _ => by simp [canon, reflexive, goEq]⟩
  | uint k t x =>
    refine ⟨⟨(canonNat_ready _).1, nat_again _ (Nat.lt_of_lt_of_le x.isLt (by cases k <;> decide))⟩, (canonNat_ready _).2,
      fun _ => goEq_canonNat _⟩
  | int k t x =>
    refine ⟨⟨(canonInt_ready _).1, int_again _ ⟨Int.le_trans (by cases k <;> decide) (BitVec.le_toInt x),
      Int.lt_of_lt_of_le (BitVec.toInt_lt (x := x)) (by cases k <;> decide)⟩⟩, (canonInt_ready _).2, fun _ => goEq_canonInt _⟩
  | f32 t b =>
    refine ⟨⟨?_, rfl⟩, rfl, ?_⟩
    · simp only [wireOK, bne_iff_ne, ne_eq] at h
      simp only [canon, wireOK, decide_eq_true_eq]
      exact widen_large b h
    · simp only [reflexive, canon, goEq, eq32, eq64, isNaN64_widen]
      simp
  | f64 t b =>
    refine ⟨⟨h, rfl⟩, rfl, ?_⟩
    simp [reflexive, canon, goEq]
  | str t s => exact ⟨⟨h, rfl⟩, rfl, fun _ => by simp [canon, reflexive, goEq]⟩
  | seq t xs => cases hs
  | map t kvs => cases hs
  | bad k => cases h

/-- A scalar that is decoded has survived. -/
theorem scalar_ok {v : Val} (hs : isScalar v = true) (hf : fits v = true) {f : Nat} {rest r : List Byte} {w : Val}
    (h : decodeF bytesReader f ((encodeValue v).bytes ++ rest) = .ok (w, r)) : wireOK v = true := by
  cases v with
  | nil => rfl
  | bool _ _ => rfl
  | uint _ _ _ => rfl
  | int _ _ _ => rfl
  | f32 _ b =>
    have := decodeF_float_ok h
    simp only [wireOK, bne_iff_ne, ne_eq]
    rintro rfl
    exact absurd this (by decide)
  | f64 _ b =>
    simp only [wireOK, decide_eq_true_eq]
    exact decodeF_float_ok h
  | str _ s => exact hf
  | seq _ _ => cases hs
  | map _ _ => cases hs
  | bad _ => cases hf

/-- What is decoded from a sequence or a map is no key. -/
theorem compound_unhashable {v : Val} (hs : isScalar v = false) {f : Nat} {rest r : List Byte} {w : Val}
    (h : decodeF bytesReader f ((encodeValue v).bytes ++ rest) = .ok (w, r)) : hashable w = false := by
  cases f with
  | zero => cases h
  | succ f =>
    cases v with
    | seq _ xs =>
      rw [encodeValue, Enc.seq_bytes rfl, Enc.ok_bytes, List.append_assoc, decodeF_count_arr] at h
      obtain ⟨⟨ws, s⟩, -, h⟩ := bind_inv h
      cases h
      rfl
    | map _ xs =>
      rw [encodeValue, Enc.seq_bytes rfl, Enc.ok_bytes, List.append_assoc, decodeF_count_map] at h
      obtain ⟨⟨ws, s⟩, -, h⟩ := bind_inv h
      cases h
      rfl
    | _ => cases hs

theorem eq32_trans {a b c : BitVec 32} (h1 : eq32 a b = true) (h2 : eq32 b c = true) : eq32 a c = true := by
  simp only [eq32, Bool.and_eq_true, Bool.or_eq_true, beq_iff_eq] at *
  refine ⟨⟨h1.1.1, h2.1.2⟩, ?_⟩
  rcases h1.2 with rfl | ⟨ha, hb⟩
  · exact h2.2
  · rcases h2.2 with rfl | ⟨-, hc⟩
    · exact Or.inr ⟨ha, hb⟩
    · exact Or.inr ⟨ha, hc⟩

theorem eq64_trans {a b c : BitVec 64} (h1 : eq64 a b = true) (h2 : eq64 b c = true) : eq64 a c = true := by
  simp only [eq64, Bool.and_eq_true, Bool.or_eq_true, beq_iff_eq] at *
  refine ⟨⟨h1.1.1, h2.1.2⟩, ?_⟩
  rcases h1.2 with rfl | ⟨ha, hb⟩
  · exact h2.2
  · rcases h2.2 with rfl | ⟨-, hc⟩
    · exact Or.inr ⟨ha, hb⟩
    · exact Or.inr ⟨ha, hc⟩

theorem goEq_trans_scalar {a b c : Val} (hb : isScalar b = true) (h1 : goEq a b = true) (h2 : goEq b c = true) : goEq a c = true := by
  cases b with
  | seq _ _ => cases hb
  | map _ _ => cases hb
  | f32 t y =>
    cases a with
    | f32 t1 x =>
      cases c with
      | f32 t2 z =>
        simp only [goEq, Bool.and_eq_true, beq_iff_eq] at *
        exact ⟨h1.1.trans h2.1, eq32_trans h1.2 h2.2⟩
      | seq ty _ => cases ty <;> simp [goEq] at h2
      | _ => simp [goEq] at h2
    | seq ty _ => cases ty <;> simp [goEq] at h1
    | _ => simp [goEq] at h1
  | f64 t y =>
    cases a with
    | f64 t1 x =>
      cases c with
      | f64 t2 z =>
        simp only [goEq, Bool.and_eq_true, beq_iff_eq] at *
        exact ⟨h1.1.trans h2.1, eq64_trans h1.2 h2.2⟩
      | seq ty _ => cases ty <;> simp [goEq] at h2
      | _ => simp [goEq] at h2
    | seq ty _ => cases ty <;> simp [goEq] at h1
    | _ => simp [goEq] at h1
  | _ =>
    cases a with
    | seq ty _ => cases ty <;> simp [goEq] at h1
    | _ =>
      cases c with
      | seq ty _ => cases ty <;> simp [goEq] at h2
      | _ => simp_all [goEq]

/-- A map as it is built by the decoder. -/
structure ReadyMap (d : List (Val × Val)) : Prop where
  entry : ∀ kv ∈ d, Ready kv.1 ∧ isScalar kv.1 = true ∧ (reflexive kv.1 = true ∨ kv.2 = .nil) ∧ Ready kv.2
  distinct : (d.map Prod.fst).Pairwise (fun k k' => goEq k k' = false)

theorem mem_assign {k v : Val} {x : Val × Val} : ∀ {d : List (Val × Val)}, x ∈ assign k v d → x = (k, v) ∨ x ∈ d := by
  intro d
  induction d with
  | nil => intro h; exact Or.inl (by simpa [assign] using h)
  | cons y d ih =>
    obtain ⟨k', v'⟩ := y
    intro h
    simp only [assign] at h
    split at h
    · rcases List.mem_cons.mp h with h | h
      · exact Or.inl h
      · exact Or.inr (List.mem_cons_of_mem _ h)
    · rcases List.mem_cons.mp h with h | h
      · exact Or.inr (by rw [h]; exact List.mem_cons_self)
      · rcases ih h with h | h
        · exact Or.inl h
        · exact Or.inr (List.mem_cons_of_mem _ h)

/-- `dict[k] = v` keeps the keys different. -/
theorem assign_distinct {k v : Val} (hk : isScalar k = true) : ∀ {d : List (Val × Val)},
    (∀ kv ∈ d, isScalar kv.1 = true) → (d.map Prod.fst).Pairwise (fun k k' => goEq k k' = false) →
    ((assign k v d).map Prod.fst).Pairwise (fun k k' => goEq k k' = false) := by
  intro d
  induction d with
  | nil => intro _ _; simp [assign]
  | cons y d ih =>
    obtain ⟨k', v'⟩ := y
    intro hs hd
    rw [List.map_cons, List.pairwise_cons] at hd
    simp only [assign]
    split
    · rename_i he
      rw [List.map_cons, List.pairwise_cons]
      refine ⟨fun a ha => ?_, hd.2⟩
      cases hg : goEq k a with
      | false => rfl
      | true =>
        have := hd.1 a ha
        dsimp only at this
        rw [goEq_trans_scalar hk he hg] at this
        cases this
    · rename_i he
      rw [List.map_cons, List.pairwise_cons]
      refine ⟨fun a ha => ?_, ih (fun kv h => hs kv (List.mem_cons_of_mem _ h)) hd.2⟩
      obtain ⟨x, hx, rfl⟩ := List.mem_map.mp ha
      rcases mem_assign hx with rfl | hx
      · simpa using he
      · exact hd.1 _ (List.mem_map.mpr ⟨x, hx, rfl⟩)

theorem ReadyMap.assign {d : List (Val × Val)} (h : ReadyMap d) {k v : Val} (hk : Ready k) (hs : isScalar k = true)
    (hr : reflexive k = true ∨ v = .nil) (hv : Ready v) : ReadyMap (assign k v d) where
  entry kv hkv := by
    rcases mem_assign hkv with rfl | hkv
    · exact ⟨hk, hs, hr, hv⟩
    · exact h.entry kv hkv
  distinct := assign_distinct hs (fun kv h' => (h.entry kv h').2.1) h.distinct

/-- What is written below a key: the value of an equal key, or nil. -/
theorem encodeMapIndex_cases (k : Val) (kvs : List (Val × Val)) :
    (∃ kv ∈ kvs, goEq kv.1 k = true ∧ encodeMapIndex k (encodeTable kvs) = encodeValue kv.2) ∨
      encodeMapIndex k (encodeTable kvs) = .ok encodeNil := by
  induction kvs with
  | nil => exact Or.inr rfl
  | cons x kvs ih =>
    obtain ⟨k', v'⟩ := x
    simp only [encodeTable, encodeMapIndex]
    split
    · rename_i h
      exact Or.inl ⟨(k', v'), List.mem_cons_self, h, rfl⟩
    · rcases ih with ⟨kv, h1, h2⟩ | h
      · exact Or.inl ⟨kv, List.mem_cons_of_mem _ h1, h2⟩
      · exact Or.inr h

/-- If the encoding of `v` is decoded, the result is ready for the next transmission. -/
def Passes (v : Val) : Prop := ∀ (f : Nat) (rest r : List Byte) (w : Val),
  decodeF bytesReader f ((encodeValue v).bytes ++ rest) = .ok (w, r) → Ready w

theorem pass_mapLoop (all : List (Val × Val)) (hfa : fitsEntries all = true) (hp : ∀ kv ∈ all, Passes kv.2) (f : Nat) :
    ∀ (todo : List (Val × Val)) (d : List (Val × Val)) (rest r : List Byte) (d' : List (Val × Val)),
    fitsEntries todo = true → ReadyMap d →
    decodeMap (decodeF bytesReader f) todo.length d
      ((encodeMapLoop (encodeTable all) (encodeTable todo)).bytes ++ rest) = .ok (d', r) → ReadyMap d' := by
  have hut : UniformTable (encodeTable all) := by
    intro x hx
    rw [encodeTable_eq] at hx
    obtain ⟨kv, hkv, rfl⟩ := List.mem_map.mp hx
    exact uniform_entries all hfa kv hkv
  intro todo
  induction todo with
  | nil => intro d rest r d' _ hd h; simp only [List.length_nil, decodeMap] at h; cases h; exact hd
  | cons x todo ih =>
    obtain ⟨k, v⟩ := x
    intro d rest r d' hf hd h
    simp only [fitsEntries, Bool.and_eq_true] at hf
    obtain ⟨⟨hfk, hfv⟩, hft⟩ := hf
    simp only [encodeTable, encodeMapLoop, List.length_cons, decodeMap] at h
    have uk := uniform_value k hfk
    have ui := uniform_index hut k
    rw [Enc.seq_bytes (Enc.seq_err uk.1 ui.1), Enc.seq_bytes uk.1, List.append_assoc, List.append_assoc] at h
    obtain ⟨⟨wk, s1⟩, hk, h⟩ := bind_inv h
    dsimp only at h
    obtain ⟨⟨wv, s2⟩, hv, h⟩ := bind_inv h
    dsimp only at h
    split at h
    case isFalse => cases h
    rename_i hh
    have := uk.rest hk
    subst this
    have := ui.rest hv
    subst this
    have hs : isScalar k = true := by
      cases hc : isScalar k with
      | true => rfl
      | false => rw [compound_unhashable hc hk] at hh; cases hh
    have wk' := scalar_ok hs hfk hk
    obtain ⟨rfl, -⟩ := (rt_value k wk').eq hk
    obtain ⟨r1, r2, r3⟩ := scalar_ready hs wk'
    have hval : Ready wv ∧ (reflexive (canon k) = true ∨ wv = .nil) := by
      rcases encodeMapIndex_cases k all with ⟨kv, hm, hg, he⟩ | he
      · rw [he] at hv
        exact ⟨hp kv hm f _ _ _ hv, Or.inl (r3 (goEq_right hs hg))⟩
      · rw [he] at hv
        have := ((rt_value .nil rfl).eq hv).1
        subst this
        exact ⟨⟨rfl, rfl⟩, Or.inr rfl⟩
    exact ih _ rest r d' hft (hd.assign r1 r2 hval.2 hval.1) h

theorem ready_of_scalar {v : Val} (hs : isScalar v = true) (hf : fits v = true) {f : Nat} {rest r : List Byte} {w : Val}
    (h : decodeF bytesReader f ((encodeValue v).bytes ++ rest) = .ok (w, r)) : Ready w := by
  have hw := scalar_ok hs hf h
  rw [((rt_value v hw).eq h).1]
  exact (scalar_ready hs hw).1

mutual

theorem pass_value (v : Val) (hf : fits v = true) : Passes v := by
  intro f rest r w h
  match v with
  | .seq _ xs =>
    cases f with
    | zero => cases h
    | succ f =>
      simp only [fits, Bool.and_eq_true, decide_eq_true_eq] at hf
      rw [encodeValue, Enc.seq_bytes rfl, Enc.ok_bytes, List.append_assoc, decodeF_count_arr, Nat.mod_eq_of_lt hf.1] at h
      obtain ⟨⟨ws, s⟩, h1, h⟩ := bind_inv h
      cases h
      have hl := decodeArray_length h1
      obtain ⟨i1, i2⟩ := pass_list xs hf.2 f rest r ws h1
      refine ⟨?_, by simp only [canon, i2]⟩
      simp only [wireOK, Bool.and_eq_true, decide_eq_true_eq]
      exact ⟨by omega, i1⟩
  | .map _ kvs =>
    cases f with
    | zero => cases h
    | succ f =>
      simp only [fits, Bool.and_eq_true, decide_eq_true_eq] at hf
      rw [encodeValue, Enc.seq_bytes rfl, Enc.ok_bytes, List.append_assoc, decodeF_count_map, Nat.mod_eq_of_lt hf.1] at h
      obtain ⟨⟨d, s⟩, h1, h⟩ := bind_inv h
      cases h
      have hl := decodeMap_length h1
      have hd := pass_mapLoop kvs hf.2 (pass_entries kvs hf.2) f kvs [] rest r d hf.2 ⟨by simp, by simp⟩ h1
      have hce : canonEntries d = d := by
        rw [canonEntries_eq]
        refine (List.map_congr_left (g := id) fun kv hkv => ?_).trans (List.map_id d)
        have := hd.entry kv hkv
        rw [this.1.2, this.2.2.2.2]
        rfl
      refine ⟨?_, by simp only [canon, hce]⟩
      simp only [wireOK, Bool.and_eq_true, decide_eq_true_eq]
      refine ⟨⟨by simp only [List.length_nil] at hl; omega, ?_⟩, ?_⟩
      · rw [wireOKEntries_iff]
        intro kv hkv
        have := hd.entry kv hkv
        exact ⟨this.1.1, this.2.1, this.2.2.1, this.2.2.2.1⟩
      · rw [hce, distinctKeys_iff]
        exact hd.distinct
  | .nil => exact ready_of_scalar rfl hf h
  | .bool _ _ => exact ready_of_scalar rfl hf h
  | .uint _ _ _ => exact ready_of_scalar rfl hf h
  | .int _ _ _ => exact ready_of_scalar rfl hf h
  | .f32 _ _ => exact ready_of_scalar rfl hf h
  | .f64 _ _ => exact ready_of_scalar rfl hf h
  | .str _ _ => exact ready_of_scalar rfl hf h
  | .bad _ => cases hf

theorem pass_list (xs : List Val) (hf : fitsList xs = true) (f : Nat) (rest r : List Byte) (ws : List Val)
    (h : decodeArray (decodeF bytesReader f) xs.length ((encodeElems xs).bytes ++ rest) = .ok (ws, r)) :
    wireOKList ws = true ∧ canonList ws = ws := by
  match xs with
  | [] => simp only [List.length_nil, decodeArray] at h; cases h; exact ⟨rfl, rfl⟩
  | x :: xs =>
    simp only [fitsList, Bool.and_eq_true] at hf
    simp only [encodeElems, List.length_cons, decodeArray] at h
    have ux := uniform_value x hf.1
    rw [Enc.seq_bytes ux.1, List.append_assoc] at h
    obtain ⟨⟨w, s1⟩, h1, h⟩ := bind_inv h
    dsimp only at h
    obtain ⟨⟨ws', s2⟩, h2, h⟩ := bind_inv h
    cases h
    have := ux.rest h1
    subst this
    have i1 := pass_value x hf.1 f _ _ _ h1
    have i2 := pass_list xs hf.2 f rest s2 ws' h2
    simp only [wireOKList, canonList, i1.1, i1.2, i2.1, i2.2, Bool.and_self, and_self]

theorem pass_entries (kvs : List (Val × Val)) (hf : fitsEntries kvs = true) : ∀ kv ∈ kvs, Passes kv.2 := by
  match kvs with
  | [] => simp
  | (k, v) :: kvs =>
    simp only [fitsEntries, Bool.and_eq_true] at hf
    intro kv hkv
    rcases List.mem_cons.mp hkv with h | h
    · subst h
      exact pass_value v hf.1.2
    · exact pass_entries kvs hf.2 kv h

end

/-- What is ready as an element is ready as a value of its own. -/
theorem Ready.top {w : Val} (h : Ready w) : topOK w = true ∧ canonTop w = w := by
  obtain ⟨h1, h2⟩ := h
  constructor
  · unfold topOK
    split
    · simp [canon] at h2
    · exact h1
  · unfold canonTop
    split
    · rfl
    · split
      · rfl
      · exact h2
    · split
      · rfl
      · exact h2
    · split
      · rfl
      · exact h2
    · exact h2

/-- What is decoded from the encoding of a value can be encoded again, and is then decoded as the same value. -/
theorem pass_top {v : Val} (hf : fits v = true) {rest r : List Byte} {w : Val}
    (h : decode ((encode v).bytes ++ rest) = .ok (w, r)) : topOK w = true ∧ canonTop w = w ∧ r = rest := by
  have hr : r = rest := (uniform_top v hf).rest h
  rw [← and_assoc]
  refine ⟨?_, hr⟩
  match v with
  | .f32 0 b =>
    have hb : 2^16 ≤ b.toNat := by
      have h' : decodeF bytesReader _ (encodeFloat32 b ++ rest) = .ok (w, r) := h
      rw [← decodeF_mono (Nat.le_add_right _ 2) _ (by rw [h']; simp), decodeF_encodeFloat32] at h'
      split at h'
      · assumption
      · cases h'
    have := decode_encode (.f32 0 b) (by simpa [topOK] using hb) rest
    rw [h] at this
    cases this
    exact ⟨by simpa [canonTop, topOK] using hb, rfl⟩
  | .uint k t x =>
    have := decode_encode (.uint k t x) rfl rest
    rw [h] at this
    cases this
    exact (scalar_ready (v := .uint k t x) rfl rfl).1.top
  | .int k t x =>
    have := decode_encode (.int k t x) rfl rest
    rw [h] at this
    cases this
    have hc := (scalar_ready (v := .int k t x) rfl rfl).1.top
    match k, t, x, hc with
    | .i8, 0, x, hc =>
      by_cases hm : x.toInt = -2^7
      · rw [show canonTop (.int .i8 0 x) = .int .i8 0 x from if_pos hm]; exact ⟨rfl, if_pos hm⟩
      · rw [show canonTop (.int .i8 0 x) = canon (.int .i8 0 x) from if_neg hm]; exact hc
    | .i16, 0, x, hc =>
      by_cases hm : x.toInt = -2^15
      · rw [show canonTop (.int .i16 0 x) = .int .i16 0 x from if_pos hm]; exact ⟨rfl, if_pos hm⟩
      · rw [show canonTop (.int .i16 0 x) = canon (.int .i16 0 x) from if_neg hm]; exact hc
    | .i32, 0, x, hc =>
      by_cases hm : x.toInt = -2^31
      · rw [show canonTop (.int .i32 0 x) = .int .i32 0 x from if_pos hm]; exact ⟨rfl, if_pos hm⟩
      · rw [show canonTop (.int .i32 0 x) = canon (.int .i32 0 x) from if_neg hm]; exact hc
    | .i64, 0, x, hc => exact hc
    | .int, 0, x, hc => exact hc
    | .i8, _+1, x, hc => exact hc
    | .i16, _+1, x, hc => exact hc
    | .i32, _+1, x, hc => exact hc
    | .i64, _+1, x, hc => exact hc
    | .int, _+1, x, hc => exact hc
  | .f32 (t+1) b => exact (pass_value _ hf _ _ _ _ h).top
  | .nil => exact (pass_value .nil hf _ _ _ _ h).top
  | .bool 0 b => exact (pass_value (.bool 0 b) hf _ _ _ _ h).top
  | .bool (t+1) b => exact (pass_value _ hf _ _ _ _ h).top
  | .f64 0 b => exact (pass_value (.f64 0 b) hf _ _ _ _ h).top
  | .f64 (t+1) b => exact (pass_value _ hf _ _ _ _ h).top
  | .str 0 b => exact (pass_value (.str 0 b) hf _ _ _ _ h).top
  | .str (t+1) b => exact (pass_value _ hf _ _ _ _ h).top
  | .seq ty xs => exact (pass_value (.seq ty xs) hf _ _ _ _ h).top
  | .map ty xs => exact (pass_value (.map ty xs) hf _ _ _ _ h).top
  | .bad k => cases hf

end Verif.Codec
