import Verif.Codec.Uniform
import Verif.Codec.Seen

/-!
# A crash-free reader of the wire format

`looseF` is a proof device, not a model of code: it reads the same format as `decode` but tolerates what
makes `decode` panic (small float payloads, unhashable or colliding map keys).  It shows that the
*encoding* is unambiguous even for values the real decoder crashes on.
-/

namespace Verif.Codec

open Verif

def wrap32 (p : Val × List Byte) : Val × List Byte :=
  match p.1 with
  | .uint _ _ v => (.f32 0 (v.setWidth 32), p.2)
  | _ => (.nil, p.2)

def wrap64 (p : Val × List Byte) : Val × List Byte :=
  match p.1 with
  | .uint _ _ v => (.f64 0 (v.setWidth 64), p.2)
  | _ => (.nil, p.2)

def loosePairs (dec : List Byte → Res (Val × List Byte)) :
    Nat → List Byte → Res (List (Val × Val) × List Byte)
  | 0, s => .ok ([], s)
  | n + 1, s => do
    let (k, s) ← dec s
    let (v, s) ← dec s
    let (kvs, s) ← loosePairs dec n s
    return ((k, v) :: kvs, s)

def looseF : Nat → List Byte → Res (Val × List Byte)
  | 0, _ => .diverge
  | f + 1, s => do
    let (c, s) ← readByte bytesReader s
    if c = cFloat32 then return wrap32 (← looseF f s)
    else if c = cFloat64 then return wrap64 (← looseF f s)
    else if c = cMap32 then
      let (n, s) ← readUint32 bytesReader s
      let (kvs, s) ← loosePairs (looseF f) n.toNat s
      return (.map .ifaceMap kvs, s)
    else decodeTag bytesReader (looseF f) c s

theorem decodeTag_irrel {dec dec' : List Byte → Res (Val × List Byte)} {c : Byte} (s : List Byte)
    (h1 : c ≠ cFloat32) (h2 : c ≠ cFloat64) (h3 : c ≠ cArr32) (h4 : c ≠ cMap32) :
    decodeTag bytesReader dec c s = decodeTag bytesReader dec' c s := by
  unfold decodeTag
  rw [if_neg h1, if_neg h2, if_neg h3, if_neg h4, if_neg h1, if_neg h2, if_neg h3, if_neg h4]

theorem looseF_scalar (f g : Nat) {c : Byte} (s : List Byte)
    (h1 : c ≠ cFloat32) (h2 : c ≠ cFloat64) (h3 : c ≠ cArr32) (h4 : c ≠ cMap32) :
    looseF (f + 1) (c :: s) = decodeF bytesReader (g + 1) (c :: s) := by
  rw [looseF, decodeF, readByte_cons]
  simp only [Res.bind_ok]
  rw [if_neg h1, if_neg h2, if_neg h4]
  exact decodeTag_irrel s h1 h2 h3 h4

/-- `e` is an error-free, non-empty encoding that `looseF` reads as `w`. -/
def GoodLoose (e : Enc) (w : Val) : Prop :=
  e.err = none ∧ 1 ≤ e.bytes.length ∧
    ∀ (rest : List Byte) (fuel : Nat), e.bytes.length ≤ fuel →
      looseF fuel (e.bytes ++ rest) = .ok (w, rest)

theorem goodLoose_of {bs : List Byte} {w : Val} {c : Byte} {t : List Byte} (hb : bs = c :: t)
    (h1 : c ≠ cFloat32) (h2 : c ≠ cFloat64) (h3 : c ≠ cArr32) (h4 : c ≠ cMap32)
    (h : GoodEnc (.ok bs) w) : GoodLoose (.ok bs) w := by
  subst hb
  refine ⟨rfl, h.2.1, ?_⟩
  intro rest fuel hf
  have hf' := hf
  simp only [Enc.ok_bytes, List.length_cons] at hf'
  obtain ⟨f, rfl⟩ : ∃ f, fuel = f + 1 := ⟨fuel - 1, by omega⟩
  have := h.2.2 rest _ hf
  simp only [Enc.ok_bytes, List.cons_append] at this ⊢
  rw [looseF_scalar f f _ h1 h2 h3 h4, this]

theorem encodeUint64_head (v : BitVec 64) : ∃ c t, encodeUint64 v = c :: t ∧
    c ≠ cFloat32 ∧ c ≠ cFloat64 ∧ c ≠ cArr32 ∧ c ≠ cMap32 := by
  unfold encodeUint64 encodeUint32 encodeUint16 encodeUint8
  split
  · split
    · split
      · exact ⟨_, _, rfl, by decide, by decide, by decide, by decide⟩
      · exact ⟨_, _, rfl, by decide, by decide, by decide, by decide⟩
    · exact ⟨_, _, rfl, by decide, by decide, by decide, by decide⟩
  · exact ⟨_, _, rfl, by decide, by decide, by decide, by decide⟩

theorem encodeInt64_head (v : BitVec 64) : ∃ c t, encodeInt64 v = c :: t ∧
    c ≠ cFloat32 ∧ c ≠ cFloat64 ∧ c ≠ cArr32 ∧ c ≠ cMap32 := by
  unfold encodeInt64 encodeInt32 encodeInt16 encodeInt8
  split
  · split
    · split
      · exact ⟨_, _, rfl, by decide, by decide, by decide, by decide⟩
      · exact ⟨_, _, rfl, by decide, by decide, by decide, by decide⟩
    · exact ⟨_, _, rfl, by decide, by decide, by decide, by decide⟩
  · exact ⟨_, _, rfl, by decide, by decide, by decide, by decide⟩

theorem goodEnc_u64 (v : BitVec 64) : GoodEnc (.ok (encodeUint64 v)) (canonNat v.toNat) :=
  goodEnc_of (by have := encodeUint64_length v; omega) (fun rest f => decodeF_encodeUint64 f v rest)

theorem goodLoose_u64 (v : BitVec 64) : GoodLoose (.ok (encodeUint64 v)) (canonNat v.toNat) := by
  obtain ⟨c, t, h, h1, h2, h3, h4⟩ := encodeUint64_head v
  exact goodLoose_of h h1 h2 h3 h4 (goodEnc_u64 v)

theorem encodeUint64_32 (v : BitVec 32) : encodeUint64 (v.setWidth 64) = encodeUint32 v := by
  have := v.isLt
  unfold encodeUint64
  rw [if_pos]
  · congr 1
    simp
  · rw [show cUint32Max = 2^32 from rfl, BitVec.toNat_setWidth]
    omega

theorem wrap64_canonNat (v : BitVec 64) (rest : List Byte) :
    wrap64 (canonNat v.toNat, rest) = (.f64 0 v, rest) := by
  have hv := v.isLt
  have key : ∀ m : Nat, v.toNat < 2^m → (BitVec.ofNat m v.toNat).setWidth 64 = v := by
    intro m hm
    apply BitVec.eq_of_toNat_eq
    simp [Nat.mod_eq_of_lt hm]; omega
  unfold canonNat wrap64
  by_cases h8 : v.toNat < 2^8
  · simp only [h8, if_true]; exact congrArg (fun x => (Val.f64 0 x, rest)) (key 8 h8)
  by_cases h16 : v.toNat < 2^16
  · simp only [h8, h16, if_true, if_false]; exact congrArg (fun x => (Val.f64 0 x, rest)) (key 16 h16)
  by_cases h32 : v.toNat < 2^32
  · simp only [h8, h16, h32, if_true, if_false]; exact congrArg (fun x => (Val.f64 0 x, rest)) (key 32 h32)
  · simp only [h8, h16, h32, if_false]; exact congrArg (fun x => (Val.f64 0 x, rest)) (key 64 hv)

theorem wrap32_canonNat (v : BitVec 32) (rest : List Byte) :
    wrap32 (canonNat v.toNat, rest) = (.f32 0 v, rest) := by
  have hv := v.isLt
  have key : ∀ m : Nat, v.toNat < 2^m → (BitVec.ofNat m v.toNat).setWidth 32 = v := by
    intro m hm
    apply BitVec.eq_of_toNat_eq
    simp [Nat.mod_eq_of_lt hm]; omega
  unfold canonNat wrap32
  by_cases h8 : v.toNat < 2^8
  · simp only [h8, if_true]; exact congrArg (fun x => (Val.f32 0 x, rest)) (key 8 h8)
  by_cases h16 : v.toNat < 2^16
  · simp only [h8, h16, if_true, if_false]; exact congrArg (fun x => (Val.f32 0 x, rest)) (key 16 h16)
  · simp only [h8, h16, hv, if_true, if_false]; exact congrArg (fun x => (Val.f32 0 x, rest)) (key 32 hv)

theorem goodLoose_f64 (b : BitVec 64) : GoodLoose (.ok (encodeFloat64 b)) (.f64 0 b) := by
  refine ⟨rfl, by simp [encodeFloat64], ?_⟩
  intro rest fuel hf
  simp only [Enc.ok_bytes, encodeFloat64, List.singleton_append, List.length_cons, List.cons_append, List.nil_append] at hf ⊢
  obtain ⟨f, rfl⟩ : ∃ f, fuel = f + 1 := ⟨fuel - 1, by omega⟩
  have := (goodLoose_u64 b).2.2 rest f (by simp; omega)
  rw [Enc.ok_bytes] at this
  rw [looseF, readByte_cons]
  simp only [Res.bind_ok]
  rw [if_neg (by decide), if_pos trivial, this]
  simp [wrap64_canonNat]

theorem goodLoose_f32 (b : BitVec 32) : GoodLoose (.ok (encodeFloat32 b)) (.f32 0 b) := by
  refine ⟨rfl, by simp [encodeFloat32], ?_⟩
  intro rest fuel hf
  simp only [Enc.ok_bytes, encodeFloat32, List.singleton_append, List.length_cons, List.cons_append, List.nil_append] at hf ⊢
  obtain ⟨f, rfl⟩ : ∃ f, fuel = f + 1 := ⟨fuel - 1, by omega⟩
  have := (goodLoose_u64 (b.setWidth 64)).2.2 rest f (by rw [encodeUint64_32]; simp; omega)
  rw [Enc.ok_bytes, encodeUint64_32] at this
  have hb : (b.setWidth 64).toNat = b.toNat := by
    have := b.isLt
    rw [BitVec.toNat_setWidth]; omega
  rw [hb] at this
  rw [looseF, readByte_cons]
  simp only [Res.bind_ok]
  rw [if_pos trivial, this]
  simp [wrap32_canonNat]

/-! ## Go's key equality is symmetric -/

mutual

theorem goEq_comm (a b : Val) : goEq a b = goEq b a := by
  match a, b with
  | .seq (.array t) xs, .seq (.array t') ys =>
    simp only [goEq]
    rw [goEqList_comm xs ys, show (t == t') = (t' == t) from BEq.comm]
  | .seq (.array t) xs, .seq .ifaceSlice ys => rfl
  | .seq (.array t) xs, .seq (.slice _) ys => rfl
  | .seq .ifaceSlice xs, .seq .ifaceSlice ys => rfl
  | .seq .ifaceSlice xs, .seq (.slice _) ys => rfl
  | .seq .ifaceSlice xs, .seq (.array _) ys => rfl
  | .seq (.slice _) xs, .seq .ifaceSlice ys => rfl
  | .seq (.slice _) xs, .seq (.slice _) ys => rfl
  | .seq (.slice _) xs, .seq (.array _) ys => rfl
  | .seq (.array t) xs, .map _ _ => rfl
  | .seq .ifaceSlice xs, .map _ _ => rfl
  | .seq (.slice _) xs, .map _ _ => rfl
  | .seq (.array t) xs, .bad _ => rfl
  | .seq .ifaceSlice xs, .bad _ => rfl
  | .seq (.slice _) xs, .bad _ => rfl
  | .map _ _, .seq (.array t) xs => rfl
  | .map _ _, .seq .ifaceSlice xs => rfl
  | .map _ _, .seq (.slice _) xs => rfl
  | .bad _, .seq (.array t) xs => rfl
  | .bad _, .seq .ifaceSlice xs => rfl
  | .bad _, .seq (.slice _) xs => rfl
  | .map _ _, .map _ _ => rfl
  | .map _ _, .bad _ => rfl
  | .bad _, .map _ _ => rfl
  | .bad _, .bad _ => rfl
  | .nil, b => exact goEq_comm_scalar rfl
  | .bool _ _, b => exact goEq_comm_scalar rfl
  | .uint _ _ _, b => exact goEq_comm_scalar rfl
  | .int _ _ _, b => exact goEq_comm_scalar rfl
  | .f32 _ _, b => exact goEq_comm_scalar rfl
  | .f64 _ _, b => exact goEq_comm_scalar rfl
  | .str _ _, b => exact goEq_comm_scalar rfl
  | a, .nil => exact (goEq_comm_scalar rfl).symm
  | a, .bool _ _ => exact (goEq_comm_scalar rfl).symm
  | a, .uint _ _ _ => exact (goEq_comm_scalar rfl).symm
  | a, .int _ _ _ => exact (goEq_comm_scalar rfl).symm
  | a, .f32 _ _ => exact (goEq_comm_scalar rfl).symm
  | a, .f64 _ _ => exact (goEq_comm_scalar rfl).symm
  | a, .str _ _ => exact (goEq_comm_scalar rfl).symm

theorem goEqList_comm (xs ys : List Val) : goEqList xs ys = goEqList ys xs := by
  match xs, ys with
  | [], [] => rfl
  | [], _ :: _ => rfl
  | _ :: _, [] => rfl
  | x :: xs, y :: ys => simp only [goEqList]; rw [goEq_comm x y, goEqList_comm xs ys]

end

mutual

/-- Maps are well formed in Go's own sense (no two equal keys) and have no NaN inside a key. -/
def clean : Val → Bool
  | .seq _ xs => cleanList xs
  | .map _ kvs => cleanEntries kvs && distinctKeys (kvs.map Prod.fst)
  | _ => true

def cleanList : List Val → Bool
  | [] => true
  | x :: xs => clean x && cleanList xs

def cleanEntries : List (Val × Val) → Bool
  | [] => true
  | (k, v) :: rest => clean k && clean v && reflexive k && cleanEntries rest

end

theorem cleanEntries_reflexive {kvs : List (Val × Val)} (h : cleanEntries kvs = true) :
    ∀ kv ∈ kvs, goEq kv.1 kv.1 = true := by
  induction kvs with
  | nil => simp
  | cons x xs ih =>
    obtain ⟨k, v⟩ := x
    simp only [cleanEntries, Bool.and_eq_true] at h
    intro kv hkv
    rcases List.mem_cons.mp hkv with hh | hh
    · subst hh; exact h.1.2
    · exact ih h.2 kv hh

/-- In a clean map `MapIndex` finds each key's own value. -/
theorem encodeMapIndex_clean {kvs : List (Val × Val)} (hc : cleanEntries kvs = true)
    (hd : distinctKeys (kvs.map Prod.fst) = true) :
    ∀ kv ∈ kvs, encodeMapIndex kv.1 (encodeTable kvs) = encodeValue kv.2 := by
  intro kv hkv
  apply encodeMapIndex_own (ek := encodeValue kv.1)
  · rw [encodeTable_eq]
    exact List.mem_map.mpr ⟨kv, hkv, rfl⟩
  · exact cleanEntries_reflexive hc kv hkv
  · intro x hx hg
    rw [encodeTable_eq] at hx
    obtain ⟨kv', hkv', rfl⟩ := List.mem_map.mp hx
    simp only at hg
    have hp := (distinctKeys_iff _).mp hd
    rw [List.pairwise_map] at hp
    obtain ⟨i, hi, rfl⟩ := List.mem_iff_getElem.mp hkv
    obtain ⟨j, hj, rfl⟩ := List.mem_iff_getElem.mp hkv'
    rcases Nat.lt_trichotomy i j with h | h | h
    · have := List.pairwise_iff_getElem.mp hp i j hi hj h
      rw [goEq_comm] at this
      rw [this] at hg; cases hg
    · subst h; rfl
    · have := List.pairwise_iff_getElem.mp hp j i hj hi h
      rw [this] at hg; cases hg

/-- In a legal map `MapIndex` finds the value of each key that is equal to itself, and nothing for the others. -/
theorem encodeMapIndex_legal {kvs : List (Val × Val)} (hd : distinctKeys (kvs.map Prod.fst) = true) :
    ∀ kv ∈ kvs, encodeMapIndex kv.1 (encodeTable kvs) = if reflexive kv.1 then encodeValue kv.2 else .ok encodeNil := by
  intro kv hkv
  split
  · rename_i hr
    apply encodeMapIndex_own (ek := encodeValue kv.1)
    · rw [encodeTable_eq]
      exact List.mem_map.mpr ⟨kv, hkv, rfl⟩
    · exact hr
    · intro x hx hg
      rw [encodeTable_eq] at hx
      obtain ⟨kv', hkv', rfl⟩ := List.mem_map.mp hx
      simp only at hg
      have hp := (distinctKeys_iff _).mp hd
      rw [List.pairwise_map] at hp
      obtain ⟨i, hi, rfl⟩ := List.mem_iff_getElem.mp hkv
      obtain ⟨j, hj, rfl⟩ := List.mem_iff_getElem.mp hkv'
      rcases Nat.lt_trichotomy i j with h | h | h
      · have := List.pairwise_iff_getElem.mp hp i j hi hj h
        rw [goEq_comm] at this
        rw [this] at hg; cases hg
      · subst h; rfl
      · have := List.pairwise_iff_getElem.mp hp j i hj hi h
        rw [this] at hg; cases hg
  · rename_i hr
    have : ∀ l : List (Val × Val), encodeMapIndex kv.1 (encodeTable l) = .ok encodeNil := by
      intro l
      induction l with
      | nil => rfl
      | cons x l ih =>
        obtain ⟨k', v'⟩ := x
        rw [encodeTable, encodeMapIndex, if_neg (fun h => hr (goEq_self h)), ih]
    exact this kvs

mutual

theorem legal_of_clean (v : Val) (h : clean v = true) : legal v = true ∧ seen v = content v := by
  match v with
  | .seq _ xs =>
    simp only [clean, legal, seen, content] at h ⊢
    obtain ⟨h1, h2⟩ := legalList_of_clean xs h
    exact ⟨h1, by rw [h2]⟩
  | .map _ kvs =>
    simp only [clean, legal, seen, content, Bool.and_eq_true] at h ⊢
    obtain ⟨h1, h2⟩ := legalEntries_of_clean kvs h.1
    exact ⟨⟨h1, h.2⟩, by rw [h2]⟩
  | .nil => exact ⟨rfl, rfl⟩
  | .bool _ _ => exact ⟨rfl, rfl⟩
  | .uint _ _ _ => exact ⟨rfl, rfl⟩
  | .int _ _ _ => exact ⟨rfl, rfl⟩
  | .f32 _ _ => exact ⟨rfl, rfl⟩
  | .f64 _ _ => exact ⟨rfl, rfl⟩
  | .str _ _ => exact ⟨rfl, rfl⟩
  | .bad _ => exact ⟨rfl, rfl⟩

theorem legalList_of_clean (xs : List Val) (h : cleanList xs = true) : legalList xs = true ∧ seenList xs = contentList xs := by
  match xs with
  | [] => exact ⟨rfl, rfl⟩
  | x :: xs =>
    simp only [cleanList, legalList, seenList, contentList, Bool.and_eq_true] at h ⊢
    obtain ⟨h1, h2⟩ := legal_of_clean x h.1
    obtain ⟨h3, h4⟩ := legalList_of_clean xs h.2
    exact ⟨⟨h1, h3⟩, by rw [h2, h4]⟩

theorem legalEntries_of_clean (kvs : List (Val × Val)) (h : cleanEntries kvs = true) :
    legalEntries kvs = true ∧ seenEntries kvs = contentEntries kvs := by
  match kvs with
  | [] => exact ⟨rfl, rfl⟩
  | (k, v) :: rest =>
    simp only [cleanEntries, legalEntries, seenEntries, contentEntries, Bool.and_eq_true] at h ⊢
    obtain ⟨h1, h2⟩ := legal_of_clean k h.1.1.1
    obtain ⟨h3, h4⟩ := legal_of_clean v h.1.1.2
    obtain ⟨h5, h6⟩ := legalEntries_of_clean rest h.2
    exact ⟨⟨⟨h1, h3⟩, h5⟩, by rw [h.1.2, h2, h4, h6]; rfl⟩

end

/-! ## Main induction -/

def LooseTable (table : List (Val × Enc × Enc)) : Prop :=
  ∀ x ∈ table, (∃ w, GoodLoose x.2.1 w) ∧ ∃ w, GoodLoose x.2.2 w

theorem goodLoose_nil : GoodLoose (.ok encodeNil) .nil :=
  goodLoose_of rfl (by decide) (by decide) (by decide) (by decide) (rt_value .nil rfl)

theorem loose_index {table : List (Val × Enc × Enc)} (h : LooseTable table) (k : Val) :
    ∃ w, GoodLoose (encodeMapIndex k table) w := by
  induction table with
  | nil => exact ⟨_, goodLoose_nil⟩
  | cons x xs ih =>
    obtain ⟨k', ek, ev⟩ := x
    rw [encodeMapIndex]
    split
    · exact (h (k', ek, ev) (by simp)).2
    · exact ih (fun y hy => h y (List.mem_cons_of_mem _ hy))

/-- `Q k e w`: side condition relating an entry's index encoding to what was read. -/
theorem loose_mapLoop {table : List (Val × Enc × Enc)} (h : LooseTable table) :
    ∀ todo : List (Val × Val),
      (∀ kv ∈ todo, ∃ w, GoodLoose (encodeValue kv.1) w ∧ (legal kv.1 = true → content w = seen kv.1)) →
      (∀ kv ∈ todo, ∃ w, GoodLoose (encodeValue kv.2) w ∧ (legal kv.2 = true → content w = seen kv.2)) →
      ∃ ws : List (Val × Val), (encodeMapLoop table (encodeTable todo)).err = none ∧
        (∀ rest fuel, (encodeMapLoop table (encodeTable todo)).bytes.length ≤ fuel →
          loosePairs (looseF fuel) todo.length ((encodeMapLoop table (encodeTable todo)).bytes ++ rest) =
            .ok (ws, rest)) ∧
        (legalEntries todo = true → (∀ kv ∈ todo, encodeMapIndex kv.1 table =
            if reflexive kv.1 then encodeValue kv.2 else .ok encodeNil) → contentEntries ws = seenEntries todo) := by
  intro todo
  induction todo with
  | nil =>
    intro _ _
    exact ⟨[], rfl, fun rest fuel _ => by simp [encodeTable, encodeMapLoop, loosePairs], fun _ _ => rfl⟩
  | cons x xs ih =>
    intro hk hv
    obtain ⟨k, v⟩ := x
    obtain ⟨wk, ⟨hk1, hk2, hk3⟩, hkc⟩ := hk (k, v) (by simp)
    obtain ⟨wv', hv', hvc⟩ := hv (k, v) (by simp)
    obtain ⟨ws, ih1, ih2, ih3⟩ := ih (fun y hy => hk y (List.mem_cons_of_mem _ hy))
      (fun y hy => hv y (List.mem_cons_of_mem _ hy))
    -- the value found by MapIndex
    obtain ⟨wv, ⟨hv1, hv2, hv3⟩, hvv⟩ : ∃ w, GoodLoose (encodeMapIndex k table) w ∧
        (encodeMapIndex k table = (if reflexive k then encodeValue v else .ok encodeNil) →
          w = if reflexive k then wv' else .nil) := by
      obtain ⟨w, hw⟩ := loose_index h k
      refine ⟨w, hw, ?_⟩
      intro he
      rw [he] at hw
      have h1 := hw.2.2 [] _ (Nat.le_refl _)
      split at h1
      · rename_i hr
        have h2 := hv'.2.2 [] _ (Nat.le_refl _)
        rw [h1] at h2
        cases h2
        rw [if_pos hr]
      · rename_i hr
        have h2 := goodLoose_nil.2.2 [] _ (Nat.le_refl _)
        rw [h1] at h2
        cases h2
        rw [if_neg hr]
    simp only at hk1 hk2 hk3 hkc hvc
    have hkv : ((encodeValue k).seq (encodeMapIndex k table)).err = none := Enc.seq_err hk1 hv1
    refine ⟨(wk, wv) :: ws, ?_, ?_, ?_⟩
    · simp only [encodeTable, encodeMapLoop]
      exact Enc.seq_err hkv ih1
    · intro rest fuel hf
      simp only [encodeTable, encodeMapLoop] at hf ⊢
      rw [Enc.seq_bytes hkv, Enc.seq_bytes hk1] at hf ⊢
      simp only [List.length_append] at hf
      simp only [List.length_cons, loosePairs, List.append_assoc]
      rw [hk3 _ fuel (by omega)]
      simp only [Res.bind_ok]
      rw [hv3 _ fuel (by omega)]
      simp only [Res.bind_ok]
      rw [ih2 rest fuel (by omega)]
      rfl
    · intro hc hi
      simp only [legalEntries, Bool.and_eq_true] at hc
      have hw := hvv (hi (k, v) (by simp))
      subst hw
      simp only [contentEntries, seenEntries]
      rw [hkc hc.1.1, ih3 hc.2 (fun y hy => hi y (List.mem_cons_of_mem _ hy))]
      split
      · rw [hvc hc.1.2]
      · rfl

theorem looseF_arr (f n : Nat) (rest : List Byte) (h : n < 2^32) :
    looseF (f + 1) (header cArr32 n ++ rest) = (do
      let (vs, s) ← decodeArray (looseF f) n rest
      return (.seq .ifaceSlice vs, s)) := by
  rw [header_append, looseF, readByte_cons]
  simp only [Res.bind_ok]
  rw [if_neg (by decide), if_neg (by decide), if_neg (by decide)]
  simp [decodeTag, cStr32, cNil, cFalse, cTrue, cFloat32, cFloat64, cUint8, cUint16, cUint32, cUint64, cInt8,
    cInt16, cInt32, cInt64, cArr32, -readUint32_cons, readUint32_header, toNat_ofNat_lt h, Nat.mod_eq_of_lt h]

theorem looseF_map (f n : Nat) (rest : List Byte) (h : n < 2^32) :
    looseF (f + 1) (header cMap32 n ++ rest) = (do
      let (kvs, s) ← loosePairs (looseF f) n rest
      return (.map .ifaceMap kvs, s)) := by
  rw [header_append, looseF, readByte_cons]
  simp only [Res.bind_ok]
  rw [if_neg (by decide), if_neg (by decide), if_pos trivial, readUint32_header]
  simp only [Res.bind_ok, toNat_ofNat_lt h]

mutual

theorem loose_value (v : Val) (h : fits v = true) :
    ∃ w, GoodLoose (encodeValue v) w ∧ (legal v = true → content w = seen v) := by
  match v with
  | .nil => exact ⟨_, goodLoose_nil, fun _ => rfl⟩
  | .bool t b =>
    refine ⟨_, ?_, fun _ => content_canon (.bool t b)⟩
    cases b
    · exact goodLoose_of rfl (by decide) (by decide) (by decide) (by decide) (rt_value (.bool t false) rfl)
    · exact goodLoose_of rfl (by decide) (by decide) (by decide) (by decide) (rt_value (.bool t true) rfl)
  | .uint k t x =>
    obtain ⟨c, r, hh, h1, h2, h3, h4⟩ := encodeUint64_head (x.setWidth 64)
    exact ⟨_, goodLoose_of hh h1 h2 h3 h4 (rt_value (.uint k t x) rfl), fun _ => content_canon (.uint k t x)⟩
  | .int k t x =>
    obtain ⟨c, r, hh, h1, h2, h3, h4⟩ := encodeInt64_head (x.signExtend 64)
    exact ⟨_, goodLoose_of hh h1 h2 h3 h4 (rt_value (.int k t x) rfl), fun _ => content_canon (.int k t x)⟩
  | .f32 t b => exact ⟨_, goodLoose_f64 (widen b), fun _ => rfl⟩
  | .f64 t b => exact ⟨_, goodLoose_f64 b, fun _ => rfl⟩
  | .str t s =>
    exact ⟨_, goodLoose_of (header_append cStr32 s.length s) (by decide) (by decide) (by decide) (by decide)
      (rt_value (.str t s) h), fun _ => rfl⟩
  | .seq ty xs =>
    simp only [fits, Bool.and_eq_true, decide_eq_true_eq] at h
    obtain ⟨ws, h1, h2, h3⟩ := loose_list xs h.2
    refine ⟨.seq .ifaceSlice ws, ?_, ?_⟩
    · simp only [encodeValue]
      refine ⟨Enc.seq_err rfl h1, ?_, ?_⟩
      · rw [Enc.seq_bytes rfl]; simp [header_length]; omega
      · intro rest fuel hf
        rw [Enc.seq_bytes rfl] at hf ⊢
        simp only [Enc.ok_bytes, List.length_append, header_length] at hf ⊢
        obtain ⟨f, rfl⟩ : ∃ f, fuel = f + 1 := ⟨fuel - 1, by omega⟩
        rw [List.append_assoc, looseF_arr f _ _ h.1, h2 rest f (by omega)]
        rfl
    · intro hc
      simp only [legal] at hc
      simp only [content, seen, h3 hc]
  | .map ty kvs =>
    simp only [fits, Bool.and_eq_true, decide_eq_true_eq] at h
    have he := loose_entries kvs h.2
    have ht : LooseTable (encodeTable kvs) := by
      intro x hx
      rw [encodeTable_eq] at hx
      obtain ⟨kv, hkv, rfl⟩ := List.mem_map.mp hx
      obtain ⟨⟨w1, h1, _⟩, ⟨w2, h2, _⟩⟩ := he kv hkv
      exact ⟨⟨w1, h1⟩, ⟨w2, h2⟩⟩
    obtain ⟨ws, h1, h2, h3⟩ := loose_mapLoop ht kvs (fun kv hkv => (he kv hkv).1) (fun kv hkv => (he kv hkv).2)
    refine ⟨.map .ifaceMap ws, ?_, ?_⟩
    · simp only [encodeValue]
      refine ⟨Enc.seq_err rfl h1, ?_, ?_⟩
      · rw [Enc.seq_bytes rfl]; simp [header_length]; omega
      · intro rest fuel hf
        rw [Enc.seq_bytes rfl] at hf ⊢
        simp only [Enc.ok_bytes, List.length_append, header_length] at hf ⊢
        obtain ⟨f, rfl⟩ : ∃ f, fuel = f + 1 := ⟨fuel - 1, by omega⟩
        rw [List.append_assoc, looseF_map f _ _ h.1, h2 rest f (by omega)]
        rfl
    · intro hc
      simp only [legal, Bool.and_eq_true] at hc
      simp only [content, seen, h3 hc.1 (encodeMapIndex_legal hc.2)]
  | .bad _ => simp [fits] at h

theorem loose_list (xs : List Val) (h : fitsList xs = true) :
    ∃ ws, (encodeElems xs).err = none ∧
      (∀ rest fuel, (encodeElems xs).bytes.length ≤ fuel →
        decodeArray (looseF fuel) xs.length ((encodeElems xs).bytes ++ rest) = .ok (ws, rest)) ∧
      (legalList xs = true → contentList ws = seenList xs) := by
  match xs with
  | [] => exact ⟨[], rfl, fun rest fuel _ => by simp [encodeElems, decodeArray], fun _ => rfl⟩
  | x :: xs =>
    simp only [fitsList, Bool.and_eq_true] at h
    obtain ⟨w, ⟨hx1, hx2, hx3⟩, hxc⟩ := loose_value x h.1
    obtain ⟨ws, ih1, ih2, ih3⟩ := loose_list xs h.2
    refine ⟨w :: ws, ?_, ?_, ?_⟩
    · simp only [encodeElems]; exact Enc.seq_err hx1 ih1
    · intro rest fuel hf
      simp only [encodeElems] at hf ⊢
      rw [Enc.seq_bytes hx1] at hf ⊢
      simp only [List.length_append] at hf
      simp only [List.length_cons, decodeArray, List.append_assoc]
      rw [hx3 _ fuel (by omega)]
      simp only [Res.bind_ok]
      rw [ih2 rest fuel (by omega)]
      rfl
    · intro hc
      simp only [legalList, Bool.and_eq_true] at hc
      simp only [contentList, seenList, hxc hc.1, ih3 hc.2]

theorem loose_entries (kvs : List (Val × Val)) (h : fitsEntries kvs = true) :
    ∀ kv ∈ kvs,
      (∃ w, GoodLoose (encodeValue kv.1) w ∧ (legal kv.1 = true → content w = seen kv.1)) ∧
      (∃ w, GoodLoose (encodeValue kv.2) w ∧ (legal kv.2 = true → content w = seen kv.2)) := by
  match kvs with
  | [] => simp
  | (k, v) :: rest =>
    simp only [fitsEntries, Bool.and_eq_true] at h
    intro kv hkv
    rcases List.mem_cons.mp hkv with hh | hh
    · subst hh
      exact ⟨loose_value k h.1.1, loose_value v h.1.2⟩
    · exact loose_entries rest h.2 kv hh

end

theorem encodeSmall_head : (∀ v : BitVec 8, ∃ c t, encodeUint8 v = c :: t ∧
    c ≠ cFloat32 ∧ c ≠ cFloat64 ∧ c ≠ cArr32 ∧ c ≠ cMap32) ∧
    (∀ v : BitVec 16, ∃ c t, encodeUint16 v = c :: t ∧
    c ≠ cFloat32 ∧ c ≠ cFloat64 ∧ c ≠ cArr32 ∧ c ≠ cMap32) ∧
    (∀ v : BitVec 32, ∃ c t, encodeUint32 v = c :: t ∧
    c ≠ cFloat32 ∧ c ≠ cFloat64 ∧ c ≠ cArr32 ∧ c ≠ cMap32) ∧
    (∀ v : BitVec 8, ∃ c t, encodeInt8 v = c :: t ∧
    c ≠ cFloat32 ∧ c ≠ cFloat64 ∧ c ≠ cArr32 ∧ c ≠ cMap32) ∧
    (∀ v : BitVec 16, ∃ c t, encodeInt16 v = c :: t ∧
    c ≠ cFloat32 ∧ c ≠ cFloat64 ∧ c ≠ cArr32 ∧ c ≠ cMap32) ∧
    (∀ v : BitVec 32, ∃ c t, encodeInt32 v = c :: t ∧
    c ≠ cFloat32 ∧ c ≠ cFloat64 ∧ c ≠ cArr32 ∧ c ≠ cMap32) := by
  refine ⟨?_, ?_, ?_, ?_, ?_, ?_⟩ <;> intro v
  · exact ⟨_, _, rfl, by decide, by decide, by decide, by decide⟩
  · unfold encodeUint16 encodeUint8
    split <;> exact ⟨_, _, rfl, by decide, by decide, by decide, by decide⟩
  · unfold encodeUint32 encodeUint16 encodeUint8
    split
    · split <;> exact ⟨_, _, rfl, by decide, by decide, by decide, by decide⟩
    · exact ⟨_, _, rfl, by decide, by decide, by decide, by decide⟩
  · exact ⟨_, _, rfl, by decide, by decide, by decide, by decide⟩
  · unfold encodeInt16 encodeInt8
    split <;> exact ⟨_, _, rfl, by decide, by decide, by decide, by decide⟩
  · unfold encodeInt32 encodeInt16 encodeInt8
    split
    · split <;> exact ⟨_, _, rfl, by decide, by decide, by decide, by decide⟩
    · exact ⟨_, _, rfl, by decide, by decide, by decide, by decide⟩

theorem loose_uint0 (k : UKind) (x : BitVec k.width) : ∃ w, GoodLoose (encode (.uint k 0 x)) w ∧
    content w = content (.uint k 0 x) := by
  have key : ∀ bs, encode (.uint k 0 x) = .ok bs → (∃ c t, bs = c :: t ∧
      c ≠ cFloat32 ∧ c ≠ cFloat64 ∧ c ≠ cArr32 ∧ c ≠ cMap32) →
      ∃ w, GoodLoose (encode (.uint k 0 x)) w ∧ content w = content (.uint k 0 x) := by
    intro bs h ⟨c, t, hb, h1, h2, h3, h4⟩
    refine ⟨canonTop (.uint k 0 x), ?_, content_canonTop _⟩
    rw [h]
    exact goodLoose_of hb h1 h2 h3 h4 (h ▸ rt_top (.uint k 0 x) rfl)
  obtain ⟨a, b, c, _⟩ := encodeSmall_head
  cases k
  · exact key _ rfl (a x)
  · exact key _ rfl (b x)
  · exact key _ rfl (c x)
  · exact key _ rfl (encodeUint64_head x)
  · exact key _ rfl (encodeUint64_head x)
  · exact key _ rfl (encodeUint64_head _)

theorem loose_int0 (k : IKind) (x : BitVec k.width) : ∃ w, GoodLoose (encode (.int k 0 x)) w ∧
    content w = content (.int k 0 x) := by
  have key : ∀ bs, encode (.int k 0 x) = .ok bs → (∃ c t, bs = c :: t ∧
      c ≠ cFloat32 ∧ c ≠ cFloat64 ∧ c ≠ cArr32 ∧ c ≠ cMap32) →
      ∃ w, GoodLoose (encode (.int k 0 x)) w ∧ content w = content (.int k 0 x) := by
    intro bs h ⟨c, t, hb, h1, h2, h3, h4⟩
    refine ⟨canonTop (.int k 0 x), ?_, content_canonTop _⟩
    rw [h]
    exact goodLoose_of hb h1 h2 h3 h4 (h ▸ rt_top (.int k 0 x) rfl)
  obtain ⟨_, _, _, a, b, c⟩ := encodeSmall_head
  cases k
  · exact key _ rfl (a x)
  · exact key _ rfl (b x)
  · exact key _ rfl (c x)
  · exact key _ rfl (encodeInt64_head x)
  · exact key _ rfl (encodeInt64_head x)

theorem loose_top (v : Val) (h : fits v = true) :
    ∃ w, GoodLoose (encode v) w ∧ (legal v = true → content w = seen v) := by
  match v with
  | .f32 0 b => exact ⟨_, goodLoose_f32 b, fun _ => rfl⟩
  | .f32 (t+1) b => exact loose_value _ h
  | .nil => exact loose_value _ h
  | .bool 0 b => exact loose_value (.bool 0 b) h
  | .bool (t+1) b => exact loose_value _ h
  | .f64 0 b => exact loose_value (.f64 0 b) h
  | .f64 (t+1) b => exact loose_value _ h
  | .str 0 b => exact loose_value (.str 0 b) h
  | .str (t+1) b => exact loose_value _ h
  | .seq ty xs => exact loose_value _ h
  | .map ty xs => exact loose_value _ h
  | .bad k => exact loose_value _ h
  | .uint k (t+1) x => cases k <;> exact loose_value _ h
  | .int k (t+1) x => cases k <;> exact loose_value _ h
  | .uint k 0 x =>
    obtain ⟨w, h1, h2⟩ := loose_uint0 k x
    exact ⟨w, h1, fun _ => h2⟩
  | .int k 0 x =>
    obtain ⟨w, h1, h2⟩ := loose_int0 k x
    exact ⟨w, h1, fun _ => h2⟩

/-! ## What is seen determines the encoding of an element -/

theorem encodeTable_length (kvs : List (Val × Val)) : (encodeTable kvs).length = kvs.length := by
  rw [encodeTable_eq, List.length_map]

mutual

theorem seen_encode (v w : Val) (fv : fits v = true) (fw : fits w = true) (lv : legal v = true) (lw : legal w = true)
    (h : seen v = seen w) : encodeValue v = encodeValue w := by
  match v with
  | .nil => cases w <;> simp_all [seen]
  | .bool _ _ => cases w <;> simp_all [seen, encodeValue]
  | .uint k t x =>
    cases w <;> simp only [seen, Content.nat.injEq, reduceCtorEq] at h
    rename_i k' t' y
    simp only [encodeValue]
    have hx := x.isLt
    have hy := y.isLt
    have : x.setWidth 64 = y.setWidth 64 := by
      apply BitVec.eq_of_toNat_eq
      simp [h]
    rw [this]
  | .int k t x =>
    cases w <;> simp only [seen, Content.int.injEq, reduceCtorEq] at h
    rename_i k' t' y
    simp only [encodeValue]
    have : x.signExtend 64 = y.signExtend 64 := by
      simp only [BitVec.signExtend, h]
    rw [this]
  | .f32 _ _ => cases w <;> simp_all [seen, encodeValue]
  | .f64 _ _ => cases w <;> simp_all [seen, encodeValue]
  | .str _ _ => cases w <;> simp_all [seen, encodeValue]
  | .seq _ xs =>
    cases w <;> simp only [seen, Content.list.injEq, reduceCtorEq] at h
    rename_i ty' ys
    simp only [fits, legal, Bool.and_eq_true] at fv fw lv lw
    obtain ⟨h1, h2⟩ := seen_encodeList xs ys fv.2 fw.2 lv lw h
    simp only [encodeValue, h1, h2]
  | .map _ kvs =>
    cases w <;> simp only [seen, Content.map.injEq, reduceCtorEq] at h
    rename_i ty' kvs'
    simp only [fits, legal, Bool.and_eq_true] at fv fw lv lw
    obtain ⟨h1, h2⟩ := seen_encodeEntries kvs kvs' fv.2 fw.2 lv.1 lw.1 h (encodeTable kvs) (encodeTable kvs')
      (encodeMapIndex_legal lv.2) (encodeMapIndex_legal lw.2)
    simp only [encodeValue, h1, h2]
  | .bad _ => simp [fits] at fv

theorem seen_encodeList (xs ys : List Val) (fv : fitsList xs = true) (fw : fitsList ys = true) (lv : legalList xs = true)
    (lw : legalList ys = true) (h : seenList xs = seenList ys) : encodeElems xs = encodeElems ys ∧ xs.length = ys.length := by
  match xs with
  | [] => cases ys with
    | nil => exact ⟨rfl, rfl⟩
    | cons _ _ => simp [seenList] at h
  | x :: xs =>
    cases ys with
    | nil => simp [seenList] at h
    | cons y ys =>
      simp only [seenList, List.cons.injEq, fitsList, legalList, Bool.and_eq_true] at *
      obtain ⟨h1, h2⟩ := seen_encodeList xs ys fv.2 fw.2 lv.2 lw.2 h.2
      rw [encodeElems, encodeElems, h1, seen_encode x y fv.1 fw.1 lv.1 lw.1 h.1]
      exact ⟨rfl, by simp [h2]⟩

theorem seen_encodeEntries (kvs kvs' : List (Val × Val)) (fv : fitsEntries kvs = true) (fw : fitsEntries kvs' = true)
    (lv : legalEntries kvs = true) (lw : legalEntries kvs' = true) (h : seenEntries kvs = seenEntries kvs')
    (table table' : List (Val × Enc × Enc))
    (ht : ∀ kv ∈ kvs, encodeMapIndex kv.1 table = if reflexive kv.1 then encodeValue kv.2 else .ok encodeNil)
    (ht' : ∀ kv ∈ kvs', encodeMapIndex kv.1 table' = if reflexive kv.1 then encodeValue kv.2 else .ok encodeNil) :
    encodeMapLoop table (encodeTable kvs) = encodeMapLoop table' (encodeTable kvs') ∧ kvs.length = kvs'.length := by
  match kvs with
  | [] => cases kvs' with
    | nil => exact ⟨rfl, rfl⟩
    | cons kv _ => simp [seenEntries] at h
  | (k, v) :: rest =>
    cases kvs' with
    | nil => simp [seenEntries] at h
    | cons kv rest' =>
      obtain ⟨k', v'⟩ := kv
      simp only [seenEntries, List.cons.injEq, Prod.mk.injEq, fitsEntries, legalEntries, Bool.and_eq_true] at h fv fw lv lw
      obtain ⟨h1, h2⟩ := seen_encodeEntries rest rest' fv.2 fw.2 lv.2 lw.2 h.2 table table'
        (fun kv hkv => ht kv (List.mem_cons_of_mem _ hkv)) (fun kv hkv => ht' kv (List.mem_cons_of_mem _ hkv))
      have hk := seen_encode k k' fv.1.1 fw.1.1 lv.1.1 lw.1.1 h.1.1
      have e1 := ht (k, v) List.mem_cons_self
      have e2 := ht' (k', v') List.mem_cons_self
      have nilcase : ∀ u : Val, seen u = .nil → encodeValue u = .ok encodeNil := by
        intro u hu
        cases u <;> simp_all [seen, encodeValue]
      have hv : encodeMapIndex k table = encodeMapIndex k' table' := by
        rw [e1, e2]
        have h12 := h.1.2
        simp only at h12 ⊢
        by_cases r1 : reflexive k = true <;> by_cases r2 : reflexive k' = true
        · simp only [r1, r2, if_true] at h12 ⊢
          exact seen_encode v v' fv.1.2 fw.1.2 lv.1.2 lw.1.2 h12
        · rw [if_pos r1, if_neg r2] at h12 ⊢
          exact nilcase _ h12
        · rw [if_neg r1, if_pos r2] at h12 ⊢
          exact (nilcase _ h12.symm).symm
        · rw [if_neg r1, if_neg r2]
      simp only [encodeTable, encodeMapLoop, h1, hk, hv, List.length_cons, h2, and_self]

end

end Verif.Codec
