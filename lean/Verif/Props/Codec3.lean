import Verif.Props.Codec2

/-! # C11 – C14: errors of Encode, compactness, maps -/

namespace Verif.Props

open Verif Verif.Codec

/-! ## C11 Encode fails exactly on unsupported values -/

/-- A value of an unsupported kind is reached by the encoder: elements of sequences, keys of maps, and
values that `m[k]` finds for a key `k` (which excludes the value behind a NaN key). -/
inductive Reaches : Val → Prop
  | bad (k : BadKind) : Reaches (.bad k)
  | elem {ty : SeqTy} {xs : List Val} {x : Val} : x ∈ xs → Reaches x → Reaches (.seq ty xs)
  | key {ty : MapTy} {kvs : List (Val × Val)} {k v : Val} : (k, v) ∈ kvs → Reaches k → Reaches (.map ty kvs)
  | value {ty : MapTy} {kvs : List (Val × Val)} {k v w : Val} :
      (k, w) ∈ kvs → lookup k kvs = some v → Reaches v → Reaches (.map ty kvs)

/-- The error is decided by `p`. -/
private def ErrIff (e : Enc) (p : Prop) : Prop :=
  (p → e.err = some .unsupportedType) ∧ (¬ p → e.err = none)

private theorem ErrIff.none {e : Enc} (h : e.err = none) {p : Prop} (hp : ¬ p) : ErrIff e p :=
  ⟨fun h' => absurd h' hp, fun _ => h⟩

private theorem ErrIff.seq {a b : Enc} {p q : Prop} (ha : ErrIff a p) (hb : ErrIff b q) :
    ErrIff (a.seq b) (p ∨ q) := by
  by_cases hp : p
  · refine ⟨fun _ => ?_, fun h => absurd (Or.inl hp) h⟩
    simp [Enc.seq, ha.1 hp]
  · by_cases hq : q
    · refine ⟨fun _ => ?_, fun h => absurd (Or.inr hq) h⟩
      simp [Enc.seq, ha.2 hp, hb.1 hq]
    · refine ⟨fun h => absurd h (by simp [hp, hq]), fun _ => ?_⟩
      simp [Enc.seq, ha.2 hp, hb.2 hq]

private theorem ErrIff.congr {a : Enc} {p q : Prop} (ha : ErrIff a p) (h : p ↔ q) : ErrIff a q :=
  ⟨fun hq => ha.1 (h.mpr hq), fun hq => ha.2 (fun hp => hq (h.mp hp))⟩

private theorem err_index (k : Val) (kvs : List (Val × Val))
    (h : ∀ kv ∈ kvs, ErrIff (encodeValue kv.2) (Reaches kv.2)) :
    ErrIff (encodeMapIndex k (encodeTable kvs)) (∃ v, lookup k kvs = some v ∧ Reaches v) := by
  induction kvs with
  | nil => exact .none rfl (by simp [lookup])
  | cons x xs ih =>
    obtain ⟨k', v'⟩ := x
    simp only [encodeTable, encodeMapIndex, lookup]
    by_cases hk : goEq k' k = true
    · simp only [hk, if_true]
      exact (h (k', v') (by simp)).congr (by simp)
    · simp only [hk]
      exact ih (fun kv hkv => h kv (List.mem_cons_of_mem _ hkv))

private theorem err_mapLoop (kvs todo : List (Val × Val))
    (hk : ∀ kv ∈ todo, ErrIff (encodeValue kv.1) (Reaches kv.1))
    (hv : ∀ kv ∈ kvs, ErrIff (encodeValue kv.2) (Reaches kv.2)) :
    ErrIff (encodeMapLoop (encodeTable kvs) (encodeTable todo))
      (∃ kv ∈ todo, Reaches kv.1 ∨ ∃ v, lookup kv.1 kvs = some v ∧ Reaches v) := by
  induction todo with
  | nil => exact .none rfl (by simp)
  | cons x xs ih =>
    obtain ⟨k, v⟩ := x
    simp only [encodeTable, encodeMapLoop]
    refine (((hk (k, v) (by simp)).seq (err_index k kvs hv)).seq
      (ih (fun kv hkv => hk kv (List.mem_cons_of_mem _ hkv)))).congr ?_
    simp

mutual

private theorem err_value (v : Val) : ErrIff (encodeValue v) (Reaches v) := by
  match v with
  | .nil => exact .none rfl (by intro h; cases h)
  | .bool _ _ => exact .none rfl (by intro h; cases h)
  | .uint _ _ _ => exact .none rfl (by intro h; cases h)
  | .int _ _ _ => exact .none rfl (by intro h; cases h)
  | .f32 _ _ => exact .none rfl (by intro h; cases h)
  | .f64 _ _ => exact .none rfl (by intro h; cases h)
  | .str _ _ => exact .none rfl (by intro h; cases h)
  | .seq ty xs =>
    have h0 : ErrIff (Enc.ok (header cArr32 xs.length)) False := .none rfl (by simp)
    refine (h0.seq (err_list xs)).congr ?_
    constructor
    · rintro (h | ⟨x, hx, h⟩)
      · exact h.elim
      · exact .elem hx h
    · intro h
      cases h with
      | elem hx h => exact Or.inr ⟨_, hx, h⟩
  | .map ty kvs =>
    have h0 : ErrIff (Enc.ok (header cMap32 kvs.length)) False := .none rfl (by simp)
    have he := err_entries kvs
    refine (h0.seq (err_mapLoop kvs kvs (fun kv hkv => (he kv hkv).1) (fun kv hkv => (he kv hkv).2))).congr ?_
    constructor
    · rintro (h | ⟨⟨k, v⟩, hkv, h | ⟨w, hl, h⟩⟩)
      · exact h.elim
      · exact .key hkv h
      · exact .value hkv hl h
    · intro h
      cases h with
      | key hkv h => exact Or.inr ⟨_, hkv, Or.inl h⟩
      | value hkv hl h => exact Or.inr ⟨_, hkv, Or.inr ⟨_, hl, h⟩⟩
  | .bad k => exact ⟨fun _ => rfl, fun h => absurd (.bad k) h⟩

private theorem err_list (xs : List Val) : ErrIff (encodeElems xs) (∃ x ∈ xs, Reaches x) := by
  match xs with
  | [] => exact .none rfl (by simp)
  | x :: xs =>
    exact ((err_value x).seq (err_list xs)).congr (by simp)

private theorem err_entries (kvs : List (Val × Val)) :
    ∀ kv ∈ kvs, ErrIff (encodeValue kv.1) (Reaches kv.1) ∧ ErrIff (encodeValue kv.2) (Reaches kv.2) := by
  match kvs with
  | [] => simp
  | (k, v) :: rest =>
    intro kv hkv
    rcases List.mem_cons.mp hkv with hh | hh
    · subst hh; exact ⟨err_value k, err_value v⟩
    · exact err_entries rest kv hh

end

private theorem encode_err (v : Val) : (encode v).err = (encodeValue v).err := by
  unfold encode
  split <;> simp [encodeValue, Enc.ok]

private theorem newAny_encode (v : Val) : (newAny v).encode = encode v := by
  unfold newAny Any.normalize Any.encode
  split <;> rfl

/-- C11: `Encode` returns the error "Unsupported type" exactly if an unsupported value is reached. -/
theorem C11_encode_error_iff (v : Val) :
    (newAny v).encode.err = some .unsupportedType ↔ Reaches v := by
  rw [newAny_encode, encode_err]
  constructor
  · intro h
    by_cases hr : Reaches v
    · exact hr
    · rw [(err_value v).2 hr] at h; cases h
  · exact (err_value v).1

/-- Otherwise it returns nil. -/
theorem C11_encode_no_other_error (v : Val) (h : ¬ Reaches v) : (newAny v).encode.err = none := by
  rw [newAny_encode, encode_err, (err_value v).2 h]

/-- A struct inside a list inside a map is reported; a struct stored under a NaN key is not even looked at. -/
example : Reaches (.map .ifaceMap [(.str 0 [1], .seq .ifaceSlice [.nil, .bad .struct])]) ∧
    (encode (.map .ifaceMap [(.str 0 [1], .seq .ifaceSlice [.nil, .bad .struct])])).err = some .unsupportedType ∧
    (encode (.map .ifaceMap [(.f64 0 0x7ff8000000000000, .bad .struct)])).err = none :=
  ⟨.value (k := .str 0 [1]) (w := .seq .ifaceSlice [.nil, .bad .struct]) (by simp) rfl
    (.elem (x := .bad .struct) (by simp) (.bad _)), by decide +kernel, by decide +kernel⟩

end Verif.Props
