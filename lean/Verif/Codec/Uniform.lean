import Verif.Codec.AnyFacts

/-!
# Every encoding is self-delimiting, even where decoding crashes

`Uniform e`: whatever follows the encoding `e`, the decoder has the same outcome on it and, if it
succeeds, stops exactly at its end.
-/

namespace Verif.Codec

open Verif

mutual

/-- No unsupported kind inside and all lengths below 2^32. -/
def fits : Val → Bool
  | .str _ s => decide (s.length < 2^32)
  | .seq _ xs => decide (xs.length < 2^32) && fitsList xs
  | .map _ kvs => decide (kvs.length < 2^32) && fitsEntries kvs
  | .bad _ => false
  | _ => true

def fitsList : List Val → Bool
  | [] => true
  | x :: xs => fits x && fitsList xs

def fitsEntries : List (Val × Val) → Bool
  | [] => true
  | (k, v) :: rest => fits k && fits v && fitsEntries rest

end

def Uniform (e : Enc) : Prop :=
  e.err = none ∧ 1 ≤ e.bytes.length ∧
    ∃ r : Res Val, ∀ (rest : List Byte) (fuel : Nat), e.bytes.length ≤ fuel →
      decodeF bytesReader fuel (e.bytes ++ rest) = r >>= fun w => .ok (w, rest)

theorem GoodEnc.uniform {e : Enc} {w : Val} (h : GoodEnc e w) : Uniform e :=
  ⟨h.1, h.2.1, .ok w, h.2.2⟩

theorem uniform_f64 (b : BitVec 64) : Uniform (.ok (encodeFloat64 b)) := by
  have hl := encodeUint64_length b
  refine ⟨rfl, by simp [encodeFloat64], if 2^32 ≤ b.toNat then .ok (.f64 0 b) else .panic, ?_⟩
  intro rest fuel hf
  simp only [Enc.ok_bytes, encodeFloat64, List.singleton_append, List.length_cons] at hf
  obtain ⟨f, rfl⟩ : ∃ f, fuel = f + 2 := ⟨fuel - 2, by omega⟩
  rw [Enc.ok_bytes, decodeF_encodeFloat64]
  split <;> rfl

theorem uniform_f32 (b : BitVec 32) : Uniform (.ok (encodeFloat32 b)) := by
  have hl := encodeUint32_length b
  refine ⟨rfl, by simp [encodeFloat32], if 2^16 ≤ b.toNat then .ok (.f32 0 b) else .panic, ?_⟩
  intro rest fuel hf
  simp only [Enc.ok_bytes, encodeFloat32, List.singleton_append, List.length_cons] at hf
  obtain ⟨f, rfl⟩ : ∃ f, fuel = f + 2 := ⟨fuel - 2, by omega⟩
  rw [Enc.ok_bytes, decodeF_encodeFloat32]
  split <;> rfl

/-- Entries of a table whose encodings are all uniform. -/
def UniformTable (table : List (Val × Enc × Enc)) : Prop :=
  ∀ x ∈ table, Uniform x.2.1 ∧ Uniform x.2.2

theorem uniform_index {table : List (Val × Enc × Enc)} (h : UniformTable table) (k : Val) :
    Uniform (encodeMapIndex k table) := by
  induction table with
  | nil => exact (rt_value .nil rfl).uniform
  | cons x xs ih =>
    obtain ⟨k', ek, ev⟩ := x
    rw [encodeMapIndex]
    split
    · exact (h (k', ek, ev) (by simp)).2
    · exact ih (fun y hy => h y (List.mem_cons_of_mem _ hy))

theorem uniform_mapLoop {table : List (Val × Enc × Enc)} (h : UniformTable table) :
    ∀ todo, UniformTable todo →
      (encodeMapLoop table todo).err = none ∧
      ∀ dict, ∃ r : Res (List (Val × Val)), ∀ rest fuel,
        (encodeMapLoop table todo).bytes.length ≤ fuel →
        decodeMap (decodeF bytesReader fuel) todo.length dict ((encodeMapLoop table todo).bytes ++ rest) =
          r >>= fun w => .ok (w, rest) := by
  intro todo
  induction todo with
  | nil => exact fun _ => ⟨rfl, fun dict => ⟨.ok dict, fun rest fuel _ => by simp [encodeMapLoop, decodeMap]⟩⟩
  | cons x xs ih =>
    intro ht
    obtain ⟨k, ek, ev⟩ := x
    obtain ⟨hk1, hk2, rk, hk3⟩ := (ht (k, ek, ev) (by simp)).1
    obtain ⟨hv1, hv2, rv, hv3⟩ := uniform_index h k
    obtain ⟨ih1, ih2⟩ := ih (fun y hy => ht y (List.mem_cons_of_mem _ hy))
    simp only at hk1 hk2 hk3
    have hkv : (ek.seq (encodeMapIndex k table)).err = none := Enc.seq_err hk1 hv1
    simp only [encodeMapLoop]
    refine ⟨Enc.seq_err hkv ih1, ?_⟩
    intro dict
    cases rk with
    | ok wk =>
      cases rv with
      | ok wv =>
        obtain ⟨r, hr⟩ := ih2 (assign wk wv dict)
        refine ⟨if hashable wk then r else .panic, ?_⟩
        intro rest fuel hf
        rw [Enc.seq_bytes hkv, Enc.seq_bytes hk1] at hf ⊢
        simp only [List.length_append] at hf
        simp only [List.length_cons, decodeMap, List.append_assoc]
        rw [hk3 _ fuel (by omega)]
        simp only [Res.bind_ok]
        rw [hv3 _ fuel (by omega)]
        simp only [Res.bind_ok]
        split
        · exact hr rest fuel (by omega)
        · rfl
      | err e =>
        refine ⟨.err e, ?_⟩
        intro rest fuel hf
        rw [Enc.seq_bytes hkv, Enc.seq_bytes hk1] at hf ⊢
        simp only [List.length_append] at hf
        simp only [List.length_cons, decodeMap, List.append_assoc]
        rw [hk3 _ fuel (by omega)]
        simp only [Res.bind_ok]
        rw [hv3 _ fuel (by omega)]
        rfl
      | panic =>
        refine ⟨.panic, ?_⟩
        intro rest fuel hf
        rw [Enc.seq_bytes hkv, Enc.seq_bytes hk1] at hf ⊢
        simp only [List.length_append] at hf
        simp only [List.length_cons, decodeMap, List.append_assoc]
        rw [hk3 _ fuel (by omega)]
        simp only [Res.bind_ok]
        rw [hv3 _ fuel (by omega)]
        rfl
      | fatal =>
        refine ⟨.fatal, ?_⟩
        intro rest fuel hf
        rw [Enc.seq_bytes hkv, Enc.seq_bytes hk1] at hf ⊢
        simp only [List.length_append] at hf
        simp only [List.length_cons, decodeMap, List.append_assoc]
        rw [hk3 _ fuel (by omega)]
        simp only [Res.bind_ok]
        rw [hv3 _ fuel (by omega)]
        rfl
      | diverge =>
        refine ⟨.diverge, ?_⟩
        intro rest fuel hf
        rw [Enc.seq_bytes hkv, Enc.seq_bytes hk1] at hf ⊢
        simp only [List.length_append] at hf
        simp only [List.length_cons, decodeMap, List.append_assoc]
        rw [hk3 _ fuel (by omega)]
        simp only [Res.bind_ok]
        rw [hv3 _ fuel (by omega)]
        rfl
    | err e =>
      refine ⟨.err e, ?_⟩
      intro rest fuel hf
      rw [Enc.seq_bytes hkv, Enc.seq_bytes hk1] at hf ⊢
      simp only [List.length_append] at hf
      simp only [List.length_cons, decodeMap, List.append_assoc]
      rw [hk3 _ fuel (by omega)]
      rfl
    | panic =>
      refine ⟨.panic, ?_⟩
      intro rest fuel hf
      rw [Enc.seq_bytes hkv, Enc.seq_bytes hk1] at hf ⊢
      simp only [List.length_append] at hf
      simp only [List.length_cons, decodeMap, List.append_assoc]
      rw [hk3 _ fuel (by omega)]
      rfl
    | fatal =>
      refine ⟨.fatal, ?_⟩
      intro rest fuel hf
      rw [Enc.seq_bytes hkv, Enc.seq_bytes hk1] at hf ⊢
      simp only [List.length_append] at hf
      simp only [List.length_cons, decodeMap, List.append_assoc]
      rw [hk3 _ fuel (by omega)]
      rfl
    | diverge =>
      refine ⟨.diverge, ?_⟩
      intro rest fuel hf
      rw [Enc.seq_bytes hkv, Enc.seq_bytes hk1] at hf ⊢
      simp only [List.length_append] at hf
      simp only [List.length_cons, decodeMap, List.append_assoc]
      rw [hk3 _ fuel (by omega)]
      rfl

theorem uniform_map (ty : MapTy) (kvs : List (Val × Val)) (hlen : kvs.length < 2^32)
    (h : ∀ kv ∈ kvs, Uniform (encodeValue kv.1) ∧ Uniform (encodeValue kv.2)) :
    Uniform (encodeValue (.map ty kvs)) := by
  have ht : UniformTable (encodeTable kvs) := by
    intro x hx
    rw [encodeTable_eq] at hx
    obtain ⟨kv, hkv, rfl⟩ := List.mem_map.mp hx
    exact h kv hkv
  obtain ⟨h1, h2⟩ := uniform_mapLoop ht _ ht
  obtain ⟨r, hr⟩ := h2 []
  simp only [encodeValue]
  refine ⟨Enc.seq_err rfl h1, ?_, r >>= fun kvs => .ok (.map .ifaceMap kvs), ?_⟩
  · rw [Enc.seq_bytes rfl]; simp [header_length]; omega
  · intro rest fuel hf
    rw [Enc.seq_bytes rfl] at hf ⊢
    simp only [Enc.ok_bytes, List.length_append, header_length] at hf ⊢
    obtain ⟨f, rfl⟩ : ∃ f, fuel = f + 1 := ⟨fuel - 1, by omega⟩
    have hlt : (encodeTable kvs).length = kvs.length := by rw [encodeTable_eq]; simp
    rw [List.append_assoc, decodeF_map f _ _ hlen, ← hlt, hr rest f (by omega)]
    cases r <;> rfl

mutual

theorem uniform_value (v : Val) (h : fits v = true) : Uniform (encodeValue v) := by
  match v with
  | .nil => exact (rt_value .nil rfl).uniform
  | .bool t b => exact (rt_value (.bool t b) rfl).uniform
  | .uint k t x => exact (rt_value (.uint k t x) rfl).uniform
  | .int k t x => exact (rt_value (.int k t x) rfl).uniform
  | .f32 _ b => exact uniform_f64 (widen b)
  | .f64 _ b => exact uniform_f64 b
  | .str t s => exact (rt_value (.str t s) h).uniform
  | .seq ty xs =>
    simp only [fits, Bool.and_eq_true, decide_eq_true_eq] at h
    obtain ⟨h1, r, h2⟩ := uniform_list xs h.2
    simp only [encodeValue]
    refine ⟨Enc.seq_err rfl h1, ?_, r >>= fun xs => .ok (.seq .ifaceSlice xs), ?_⟩
    · rw [Enc.seq_bytes rfl]; simp [header_length]; omega
    · intro rest fuel hf
      rw [Enc.seq_bytes rfl] at hf ⊢
      simp only [Enc.ok_bytes, List.length_append, header_length] at hf ⊢
      obtain ⟨f, rfl⟩ : ∃ f, fuel = f + 1 := ⟨fuel - 1, by omega⟩
      rw [List.append_assoc, decodeF_arr f _ _ h.1, h2 rest f (by omega)]
      cases r <;> rfl
  | .map ty kvs =>
    simp only [fits, Bool.and_eq_true, decide_eq_true_eq] at h
    exact uniform_map ty kvs h.1 (uniform_entries kvs h.2)
  | .bad _ => simp [fits] at h

theorem uniform_list (xs : List Val) (h : fitsList xs = true) :
    (encodeElems xs).err = none ∧ ∃ r : Res (List Val), ∀ rest fuel,
      (encodeElems xs).bytes.length ≤ fuel →
      decodeArray (decodeF bytesReader fuel) xs.length ((encodeElems xs).bytes ++ rest) =
        r >>= fun w => .ok (w, rest) := by
  match xs with
  | [] => exact ⟨rfl, .ok [], fun rest fuel _ => by simp [encodeElems, decodeArray]⟩
  | x :: xs =>
    simp only [fitsList, Bool.and_eq_true] at h
    obtain ⟨hx1, hx2, rx, hx3⟩ := uniform_value x h.1
    obtain ⟨ih1, r, ih2⟩ := uniform_list xs h.2
    simp only [encodeElems]
    refine ⟨Enc.seq_err hx1 ih1, rx >>= fun w => r >>= fun ws => .ok (w :: ws), ?_⟩
    intro rest fuel hf
    rw [Enc.seq_bytes hx1] at hf ⊢
    simp only [List.length_append] at hf
    simp only [List.length_cons, decodeArray, List.append_assoc]
    rw [hx3 _ fuel (by omega)]
    cases rx with
    | ok w =>
      simp only [Res.bind_ok]
      rw [ih2 rest fuel (by omega)]
      cases r <;> rfl
    | _ => rfl

theorem uniform_entries (kvs : List (Val × Val)) (h : fitsEntries kvs = true) :
    ∀ kv ∈ kvs, Uniform (encodeValue kv.1) ∧ Uniform (encodeValue kv.2) := by
  match kvs with
  | [] => simp
  | (k, v) :: rest =>
    simp only [fitsEntries, Bool.and_eq_true] at h
    intro kv hkv
    rcases List.mem_cons.mp hkv with hh | hh
    · subst hh
      exact ⟨uniform_value k h.1.1, uniform_value v h.1.2⟩
    · exact uniform_entries rest h.2 kv hh

end

/-- The fast paths of the top level. -/
theorem encode_cases (v : Val) : encode v = encodeValue v ∨ topOK v = true ∨ ∃ b, v = .f32 0 b := by
  match v with
  | .f32 0 b => exact Or.inr (Or.inr ⟨b, rfl⟩)
  | .f32 (t+1) b => exact Or.inl rfl
  | .nil => exact Or.inl rfl
  | .bool 0 b => exact Or.inl rfl
  | .bool (t+1) b => exact Or.inl rfl
  | .f64 0 b => exact Or.inl rfl
  | .f64 (t+1) b => exact Or.inl rfl
  | .str 0 b => exact Or.inl rfl
  | .str (t+1) b => exact Or.inl rfl
  | .seq ty xs => exact Or.inl rfl
  | .map ty xs => exact Or.inl rfl
  | .bad k => exact Or.inl rfl
  | .uint k t x => exact Or.inr (Or.inl rfl)
  | .int k t x => exact Or.inr (Or.inl rfl)

theorem uniform_top (v : Val) (h : fits v = true) : Uniform (encode v) := by
  rcases encode_cases v with h1 | h1 | ⟨b, rfl⟩
  · rw [h1]; exact uniform_value v h
  · exact (rt_top v h1).uniform
  · exact uniform_f32 b

/-- If the encoding of `v` alone decodes to `w`, it does so in front of anything, and the rest is left. -/
theorem decode_append {v w : Val} {t : List Byte} (h : fits v = true)
    (hd : decode (encode v).bytes = .ok (w, t)) (rest : List Byte) :
    t = [] ∧ decode ((encode v).bytes ++ rest) = .ok (w, rest) := by
  obtain ⟨_, _, r, hr⟩ := uniform_top v h
  have h1 := hr [] ((encode v).bytes.length + 1) (by omega)
  rw [List.append_nil] at h1
  rw [decode, h1] at hd
  cases r with
  | ok w' =>
    cases hd
    exact ⟨rfl, hr rest _ (by simp; omega)⟩
  | _ => cases hd

/-- In front of anything the outcome is the same. -/
theorem decode_append_panic {v : Val} (h : fits v = true)
    (hd : decode (encode v).bytes = .panic) (rest : List Byte) :
    decode ((encode v).bytes ++ rest) = .panic := by
  obtain ⟨_, _, r, hr⟩ := uniform_top v h
  have h1 := hr [] ((encode v).bytes.length + 1) (by omega)
  rw [List.append_nil] at h1
  rw [decode, h1] at hd
  cases r with
  | panic => exact hr rest _ (by simp; omega)
  | _ => cases hd

end Verif.Codec
