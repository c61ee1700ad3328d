import Verif.Codec.DecodeFacts

/-!
# Exactly the values that survive a round trip
-/

namespace Verif.Codec

open Verif

/-! ## What is decoded with the same content survives -/

private theorem bind_ok_inv {α β : Type} {x : Res α} {g : α → Res β} {b : β} (h : (x >>= g) = .ok b) : ∃ a, x = .ok a ∧ g a = .ok b := by
  cases x with
  | ok a => exact ⟨a, rfl, h⟩
  | _ => cases h

private theorem ite_inv {α : Type} {p : Prop} [Decidable p] {a b x : α} (h : (if p then a else b) = x) : a = x ∨ b = x := by
  by_cases hp : p
  · rw [if_pos hp] at h; exact Or.inl h
  · rw [if_neg hp] at h; exact Or.inr h

/-- `decode` never returns a value of an unsupported kind. -/
theorem decodeF_not_bad {f : Nat} {s r : List Byte} {w : Val} (h : decodeF bytesReader f s = .ok (w, r)) :
    content w ≠ .unsupported := by
  cases f with
  | zero => cases h
  | succ f =>
    rw [decodeF] at h
    obtain ⟨⟨c, t⟩, -, h⟩ := bind_ok_inv h
    dsimp only at h
    unfold decodeTag at h
    have pure_ok : ∀ {u : Val} {t r : List Byte}, (pure (u, t) : Res (Val × List Byte)) = .ok (w, r) → u = w := by
      intro u t r h; cases h; rfl
    rcases ite_inv h with h | h
    · cases h; simp [content]
    rcases ite_inv h with h | h
    · cases h; simp [content]
    rcases ite_inv h with h | h
    · cases h; simp [content]
    rcases ite_inv h with h | h
    · obtain ⟨⟨u, t⟩, -, h⟩ := bind_ok_inv h
      unfold asFloat32 at h
      split at h <;> cases h <;> simp [content]
    rcases ite_inv h with h | h
    · obtain ⟨⟨u, t⟩, -, h⟩ := bind_ok_inv h
      unfold asFloat64 at h
      split at h <;> cases h <;> simp [content]
    iterate 8
      rcases ite_inv h with h | h
      · obtain ⟨⟨u, t⟩, -, h⟩ := bind_ok_inv h
        rw [← pure_ok h]; simp [content]
    rcases ite_inv h with h | h
    · obtain ⟨⟨u, t⟩, -, h⟩ := bind_ok_inv h
      dsimp only at h
      rcases ite_inv h with h | h
      · rw [← pure_ok h]; simp [content]
      · obtain ⟨⟨u, t⟩, -, h⟩ := bind_ok_inv h
        rw [← pure_ok h]; simp [content]
    iterate 2
      rcases ite_inv h with h | h
      · obtain ⟨⟨u, t⟩, -, h⟩ := bind_ok_inv h
        obtain ⟨⟨u, t⟩, -, h⟩ := bind_ok_inv h
        rw [← pure_ok h]; simp [content]
    cases h

theorem decodeArray_length {dec : List Byte → Res (Val × List Byte)} : ∀ {n : Nat} {s r : List Byte} {ws : List Val},
    decodeArray dec n s = .ok (ws, r) → ws.length = n := by
  intro n
  induction n with
  | zero => intro s r ws h; simp only [decodeArray] at h; cases h; rfl
  | succ n ih =>
    intro s r ws h
    simp only [decodeArray] at h
    cases h1 : dec s with
    | ok p =>
      rw [h1] at h
      simp only [Res.bind_ok] at h
      cases h2 : decodeArray dec n p.2 with
      | ok q =>
        rw [h2] at h
        simp only [Res.bind_ok] at h
        cases h
        simp [ih h2]
      | _ => rw [h2] at h; cases h
    | _ => rw [h1] at h; cases h

theorem assign_length_le (k v : Val) (d : List (Val × Val)) : (assign k v d).length ≤ d.length + 1 := by
  induction d with
  | nil => simp [assign]
  | cons x d ih =>
    obtain ⟨k', v'⟩ := x
    simp only [assign]
    split
    · simp
    · simpa using ih

theorem assign_length_fresh {k v : Val} {d : List (Val × Val)} (h : d.length + 1 ≤ (assign k v d).length) :
    ∀ kv ∈ d, goEq kv.1 k = false := by
  induction d with
  | nil => simp
  | cons x d ih =>
    obtain ⟨k', v'⟩ := x
    simp only [assign] at h
    split at h
    · simp at h; omega
    · rename_i hn
      intro kv hkv
      rcases List.mem_cons.mp hkv with rfl | hkv
      · simpa using hn
      · exact ih (by simpa using h) kv hkv

theorem decodeMap_length {dec : List Byte → Res (Val × List Byte)} : ∀ {n : Nat} {s r : List Byte} {d d' : List (Val × Val)},
    decodeMap dec n d s = .ok (d', r) → d'.length ≤ d.length + n := by
  intro n
  induction n with
  | zero => intro s r d d' h; simp only [decodeMap] at h; cases h; simp
  | succ n ih =>
    intro s r d d' h
    simp only [decodeMap] at h
    cases h1 : dec s with
    | ok p =>
      rw [h1] at h
      simp only [Res.bind_ok] at h
      cases h2 : dec p.2 with
      | ok q =>
        rw [h2] at h
        simp only [Res.bind_ok] at h
        split at h
        · have := ih h
          have := assign_length_le p.1 q.1 d
          omega
        · cases h
      | _ => rw [h2] at h; cases h
    | _ => rw [h1] at h; cases h

/-- If all keys are different the entries are appended. -/
theorem decodeMap_prefix {dec : List Byte → Res (Val × List Byte)} : ∀ {n : Nat} {s r : List Byte} {d d' : List (Val × Val)},
    decodeMap dec n d s = .ok (d', r) → d'.length = d.length + n → d <+: d' := by
  intro n
  induction n with
  | zero => intro s r d d' h _; simp only [decodeMap] at h; cases h; exact List.prefix_rfl
  | succ n ih =>
    intro s r d d' h hl
    simp only [decodeMap] at h
    cases h1 : dec s with
    | ok p =>
      rw [h1] at h
      simp only [Res.bind_ok] at h
      cases h2 : dec p.2 with
      | ok q =>
        rw [h2] at h
        simp only [Res.bind_ok] at h
        split at h
        · have l1 := decodeMap_length h
          have l2 := assign_length_le p.1 q.1 d
          have fr := assign_length_fresh (k := p.1) (v := q.1) (d := d) (by omega)
          have := ih h (by omega)
          rw [assign_fresh fr] at this
          exact (List.prefix_append _ _).trans this
        · cases h
      | _ => rw [h2] at h; cases h
    | _ => rw [h1] at h; cases h

/-- What a good encoding is decoded to, if it is decoded. -/
theorem GoodEnc.eq {e : Enc} {u w : Val} (h : GoodEnc e u) {f : Nat} {rest r : List Byte}
    (hd : decodeF bytesReader f (e.bytes ++ rest) = .ok (w, r)) : w = u ∧ r = rest := by
  have h1 := h.2.2 rest (max f e.bytes.length) (by omega)
  rw [decodeF_mono (Nat.le_max_left f e.bytes.length) _ (by rw [hd]; simp), hd] at h1
  cases h1
  exact ⟨rfl, rfl⟩

theorem decodeF_count_arr (f n : Nat) (rest : List Byte) :
    decodeF bytesReader (f + 1) (header cArr32 n ++ rest) = (do
      let (vs, s) ← decodeArray (decodeF bytesReader f) (n % 2^32) rest
      return (.seq .ifaceSlice vs, s)) := by
  rw [header_append, decodeF]
  simp only [readByte_cons, Res.bind_ok, decodeTag, readUint32_header, BitVec.toNat_ofNat]
  simp [cNil, cFalse, cTrue, cFloat32, cFloat64, cUint8, cUint16, cUint32, cUint64, cInt8, cInt16, cInt32, cInt64, cStr32, cArr32]

theorem decodeF_count_map (f n : Nat) (rest : List Byte) :
    decodeF bytesReader (f + 1) (header cMap32 n ++ rest) = (do
      let (kvs, s) ← decodeMap (decodeF bytesReader f) (n % 2^32) [] rest
      return (.map .ifaceMap kvs, s)) := by
  rw [header_append, decodeF]
  simp only [readByte_cons, Res.bind_ok, decodeTag, readUint32_header, BitVec.toNat_ofNat]
  simp [cNil, cFalse, cTrue, cFloat32, cFloat64, cUint8, cUint16, cUint32, cUint64, cInt8, cInt16, cInt32, cInt64, cStr32, cArr32, cMap32]

/-- The string read has the length that is announced. -/
theorem decodeF_count_str {f n : Nat} {rest r : List Byte} {w : Val}
    (h : decodeF bytesReader (f + 1) (header cStr32 n ++ rest) = .ok (w, r)) : ∃ s, w = .str 0 s ∧ s.length = n % 2^32 := by
  rw [header_append, decodeF] at h
  simp only [readByte_cons, Res.bind_ok, decodeTag, readUint32_header] at h
  rw [if_neg (by decide), if_neg (by decide), if_neg (by decide), if_neg (by decide), if_neg (by decide), if_neg (by decide),
    if_neg (by decide), if_neg (by decide), if_neg (by decide), if_neg (by decide), if_neg (by decide), if_neg (by decide),
    if_neg (by decide), if_pos trivial] at h
  simp only [BitVec.toNat_ofNat] at h
  split at h
  · rename_i hz
    cases h
    exact ⟨[], rfl, hz.symm⟩
  · by_cases hr : rest = []
    · rw [hr, readBuf_nil] at h; cases h
    · rw [readBuf_ne hr] at h
      simp only [Res.bind_ok] at h
      cases h
      exact ⟨_, rfl, fill_length (by simp; omega)⟩

theorem decodeF_float_ok {f : Nat} {b : BitVec 64} {rest r : List Byte} {w : Val}
    (h : decodeF bytesReader f (encodeFloat64 b ++ rest) = .ok (w, r)) : 2^32 ≤ b.toNat := by
  rw [← decodeF_mono (Nat.le_add_right f 2) _ (by rw [h]; simp), decodeF_encodeFloat64] at h
  split at h
  · assumption
  · cases h

theorem contentEntries_eq (kvs : List (Val × Val)) : contentEntries kvs = kvs.map fun kv => (content kv.1, content kv.2) := by
  induction kvs with
  | nil => rfl
  | cons x xs ih => obtain ⟨k, v⟩ := x; simp [contentEntries, ih]

theorem contentList_eq (xs : List Val) : contentList xs = xs.map content := by
  induction xs with
  | nil => rfl
  | cons x xs ih => simp [contentList, ih]

theorem content_nil {v : Val} (h : content v = .nil) : v = .nil := by
  cases v <;> simp [content] at h
  rfl

theorem scalar_of_hashable {v : Val} (h : hashable (canon v) = true) : isScalar v = true := by
  cases v <;> first | rfl | (simp [canon, hashable] at h)

/-- The bytes of two encodings one after the other; the second is missing if the first fails. -/
theorem Enc.seq_some (a b : Enc) : ∃ t, (a.seq b).bytes = a.bytes ++ t ∧ (a.err = none → t = b.bytes) := by
  unfold Enc.seq
  split
  · exact ⟨b.bytes, rfl, fun _ => rfl⟩
  · rename_i h
    exact ⟨[], by simp, fun h' => by rw [h] at h'; cases h'⟩

/-- If the encoding of `v` is decoded to a value of the same content, `v` is one of the values that survive. -/
def Needs (v : Val) : Prop := ∀ (f : Nat) (rest r : List Byte) (w : Val),
  decodeF bytesReader f ((encodeValue v).bytes ++ rest) = .ok (w, r) → content w = content v → wireOK v = true

theorem need_mapLoop (table : List (Val × Enc × Enc)) (f : Nat) : ∀ (todo done : List (Val × Val)) (rest r : List Byte)
    (d' : List (Val × Val)),
    table = encodeTable (done ++ todo) →
    (∀ kv ∈ todo, Needs kv.1 ∧ Needs kv.2) →
    (∀ kv ∈ done, wireOK kv.1 = true ∧ isScalar kv.1 = true) →
    decodeMap (decodeF bytesReader f) todo.length (canonEntries done)
      ((encodeMapLoop table (encodeTable todo)).bytes ++ rest) = .ok (d', r) →
    contentEntries d' = contentEntries (done ++ todo) →
    wireOKEntries todo = true ∧ (todo.map (fun kv => canon kv.1)).Pairwise (fun k k' => goEq k k' = false) ∧
      ∀ kv ∈ todo, ∀ x ∈ done, goEq (canon x.1) (canon kv.1) = false := by
  intro todo
  induction todo with
  | nil => intro _ _ _ _ _ _ _ _ _; simp [wireOKEntries]
  | cons x todo ih =>
    obtain ⟨k, v⟩ := x
    intro done rest r d' ht hn hd h hc
    simp only [encodeTable, encodeMapLoop, List.length_cons, decodeMap] at h
    obtain ⟨t1, e1, g1⟩ := Enc.seq_some ((encodeValue k).seq (encodeMapIndex k table)) (encodeMapLoop table (encodeTable todo))
    obtain ⟨t2, e2, g2⟩ := Enc.seq_some (encodeValue k) (encodeMapIndex k table)
    rw [e1, e2] at h
    obtain ⟨⟨wk, s1⟩, hk, h⟩ := bind_ok_inv h
    dsimp only at h
    obtain ⟨⟨wv, s2⟩, hv, h⟩ := bind_ok_inv h
    dsimp only at h
    split at h
    case isFalse => cases h
    rename_i hh
    have hlen : d'.length = (canonEntries done).length + (todo.length + 1) := by
      have := congrArg List.length hc
      rw [contentEntries_eq, contentEntries_eq] at this
      rw [canonEntries_eq]
      simpa using this
    have l1 := decodeMap_length h
    have l2 := assign_length_le wk wv (canonEntries done)
    have fr := assign_length_fresh (k := wk) (v := wv) (d := canonEntries done) (by omega)
    obtain ⟨t, hp⟩ := decodeMap_prefix h (by omega)
    rw [assign_fresh fr] at hp h
    -- the contents of this entry
    have hkv : content wk = content k ∧ content wv = content v := by
      rw [← hp, contentEntries_eq, contentEntries_eq, List.map_append, List.map_append, List.map_append, List.append_assoc] at hc
      have := (List.append_inj hc (by rw [canonEntries_eq]; simp)).2
      simp only [List.map_cons, List.map_nil, List.cons_append, List.nil_append, List.cons.injEq, Prod.mk.injEq] at this
      exact this.1
    rw [List.append_assoc, List.append_assoc] at hk
    have sk := (hn (k, v) (by simp)).1 f _ _ _ hk hkv.1
    dsimp only at sk
    have gk := rt_value k sk
    obtain ⟨rfl, rfl⟩ := gk.eq hk
    have sc := scalar_of_hashable hh
    have fr' : ∀ x ∈ done, goEq (canon x.1) (canon k) = false := by
      intro x hx
      refine fr (canon x.1, canon x.2) ?_
      rw [canonEntries_eq]
      exact List.mem_map.mpr ⟨x, hx, rfl⟩
    have hi := index_own done todo k v sc (before_ne sk sc fun x hx => ⟨(hd x hx).1, (hd x hx).2, fr' x hx⟩)
    rw [← ht] at hi
    have t2e := g2 gk.1
    subst t2e
    -- the value
    have hval : wireOK v = true ∧ (reflexive k = true ∨ v = .nil) ∧ encodeMapIndex k table = encodeValue v := by
      rw [hi] at hv ⊢
      by_cases hr : goEq k k = true
      · rw [if_pos hr] at hv ⊢
        exact ⟨(hn (k, v) (by simp)).2 f _ _ _ hv hkv.2, Or.inl hr, rfl⟩
      · rw [if_neg hr] at hv ⊢
        have := ((rt_value .nil rfl).eq hv).1
        have hz : v = .nil := content_nil (by rw [← hkv.2, this]; rfl)
        exact ⟨by rw [hz]; rfl, Or.inr hz, by rw [hz]; rfl⟩
    obtain ⟨sv, hor, hie⟩ := hval
    have gv := rt_value v sv
    rw [hie] at hv
    obtain ⟨rfl, rfl⟩ := gv.eq hv
    have t1e := g1 (by rw [hie]; exact Enc.seq_err gk.1 gv.1)
    subst t1e
    obtain ⟨i1, i2, i3⟩ := ih (done ++ [(k, v)]) rest r d' (by rw [ht]; simp) (fun x hx => hn x (List.mem_cons_of_mem _ hx))
      (fun x hx => by
        rcases List.mem_append.mp hx with hx | hx
        · exact hd x hx
        · simp only [List.mem_singleton] at hx; subst hx; exact ⟨sk, sc⟩)
      (by rw [canonEntries_eq] at h ⊢; simpa using h) (by rw [hc]; simp)
    refine ⟨?_, ?_, ?_⟩
    · rw [wireOKEntries_iff] at i1 ⊢
      intro x hx
      rcases List.mem_cons.mp hx with rfl | hx
      · exact ⟨sk, sc, hor, sv⟩
      · exact i1 x hx
    · rw [List.map_cons, List.pairwise_cons]
      refine ⟨?_, i2⟩
      intro a ha
      obtain ⟨x, hx, rfl⟩ := List.mem_map.mp ha
      exact i3 x hx (k, v) (by simp)
    · intro x hx y hy
      rcases List.mem_cons.mp hx with rfl | hx
      · exact fr' y hy
      · exact i3 x hx y (List.mem_append_left _ hy)

theorem mod_len {n m : Nat} (h : n % 2^32 = n) : n < 2^32 := by
  have := Nat.mod_lt n (show 0 < 2^32 by decide)
  omega

mutual

theorem need_value (v : Val) : Needs v := by
  intro f rest r w h hc
  match v with
  | .nil => rfl
  | .bool _ _ => rfl
  | .uint _ _ _ => rfl
  | .int _ _ _ => rfl
  | .f32 _ b =>
    have := decodeF_float_ok h
    simp only [wireOK, bne_iff_ne, ne_eq]
    rintro rfl
    exact absurd this (by decide)
  | .f64 _ b =>
    simp only [wireOK, decide_eq_true_eq]
    exact decodeF_float_ok h
  | .str _ s =>
    cases f with
    | zero => cases h
    | succ f =>
      simp only [encodeValue, Enc.ok_bytes, encodeString, List.append_assoc] at h
      obtain ⟨s', rfl, hl⟩ := decodeF_count_str h
      simp only [content, Content.str.injEq] at hc
      subst hc
      simp only [wireOK, decide_eq_true_eq]
      exact mod_len (m := 0) hl.symm
  | .seq _ xs =>
    cases f with
    | zero => cases h
    | succ f =>
      rw [encodeValue, Enc.seq_bytes rfl, Enc.ok_bytes, List.append_assoc, decodeF_count_arr] at h
      obtain ⟨⟨ws, s⟩, h1, h⟩ := bind_ok_inv h
      cases h
      have hl := decodeArray_length h1
      simp only [content, Content.list.injEq] at hc
      have hl2 := congrArg List.length hc
      rw [contentList_eq, contentList_eq, List.length_map, List.length_map] at hl2
      have hlt : xs.length < 2^32 := mod_len (m := 0) (by rw [← hl, hl2])
      rw [Nat.mod_eq_of_lt hlt] at h1
      simp only [wireOK, Bool.and_eq_true, decide_eq_true_eq]
      exact ⟨hlt, need_list xs f rest r ws h1 hc⟩
  | .map _ kvs =>
    cases f with
    | zero => cases h
    | succ f =>
      rw [encodeValue, Enc.seq_bytes rfl, Enc.ok_bytes, List.append_assoc, decodeF_count_map] at h
      obtain ⟨⟨d, s⟩, h1, h⟩ := bind_ok_inv h
      cases h
      have hl := decodeMap_length h1
      simp only [content, Content.map.injEq] at hc
      have hl2 := congrArg List.length hc
      rw [contentEntries_eq, contentEntries_eq, List.length_map, List.length_map] at hl2
      have hlt : kvs.length < 2^32 := mod_len (m := 0) (by
        have := Nat.mod_le kvs.length (2^32)
        simp only [List.length_nil] at hl
        omega)
      rw [Nat.mod_eq_of_lt hlt] at h1
      obtain ⟨i1, i2, -⟩ := need_mapLoop (encodeTable kvs) f kvs [] rest r d rfl (need_entries kvs) (by simp) h1 hc
      simp only [wireOK, Bool.and_eq_true, decide_eq_true_eq]
      refine ⟨⟨hlt, i1⟩, ?_⟩
      rw [distinctKeys_iff, canonEntries_eq, List.map_map]
      exact i2
  | .bad _ => exact absurd hc (decodeF_not_bad h)

theorem need_list (xs : List Val) (f : Nat) (rest r : List Byte) (ws : List Val)
    (h : decodeArray (decodeF bytesReader f) xs.length ((encodeElems xs).bytes ++ rest) = .ok (ws, r))
    (hc : contentList ws = contentList xs) : wireOKList xs = true := by
  match xs with
  | [] => rfl
  | x :: xs =>
    simp only [encodeElems, List.length_cons, decodeArray] at h
    obtain ⟨t, e, g⟩ := Enc.seq_some (encodeValue x) (encodeElems xs)
    rw [e, List.append_assoc] at h
    obtain ⟨⟨w, s1⟩, h1, h⟩ := bind_ok_inv h
    dsimp only at h
    obtain ⟨⟨ws', s2⟩, h2, h⟩ := bind_ok_inv h
    cases h
    simp only [contentList, List.cons.injEq] at hc
    have sx := need_value x f _ _ _ h1 hc.1
    have gx := rt_value x sx
    obtain ⟨rfl, rfl⟩ := gx.eq h1
    have te := g gx.1
    subst te
    simp only [wireOKList, Bool.and_eq_true]
    exact ⟨sx, need_list xs f rest s2 ws' h2 hc.2⟩

theorem need_entries (kvs : List (Val × Val)) : ∀ kv ∈ kvs, Needs kv.1 ∧ Needs kv.2 := by
  match kvs with
  | [] => simp
  | (k, v) :: kvs =>
    intro kv hkv
    rcases List.mem_cons.mp hkv with h | h
    · subst h
      exact ⟨need_value k, need_value v⟩
    · exact need_entries kvs kv h

end

end Verif.Codec
