import Verif.Proto.Facts

/-! # C24: which frames take the process down -/

namespace Verif.Props

open Verif Verif.Codec Verif.Proto

/-- C24 fails: frames that `Slice` delivers and on which the process dies: an unknown identifier (nil
dereference), a body that is no packet at all (`log.Fatal`), a slot list holding an integer (failed type
assertion), a body cut short (`log.Fatal`), and the frame of an RPC request that an unmodified dock sends for
a call with the argument `float64(0)`. -/
theorem C24_malformed_frame_refuted :
    (slice [2, 0, 0, 0, 0xcc, 9] = 6 ∧ unmarshal [2, 0, 0, 0, 0xcc, 9] = .panic) ∧
    (slice [0, 0, 0, 0] = 4 ∧ unmarshal [0, 0, 0, 0] = .fatal) ∧
    (slice [9, 0, 0, 0, 0xcc, 3, 0xdd, 0, 0, 0, 1, 0xcc, 5] = 13 ∧
      unmarshal [9, 0, 0, 0, 0xcc, 3, 0xdd, 0, 0, 0, 1, 0xcc, 5] = .panic) ∧
    (slice [3, 0, 0, 0, 0xcc, 5, 0xdb] = 7 ∧ unmarshal [3, 0, 0, 0, 0xcc, 5, 0xdb] = .fatal) ∧
    (∃ bytes, marshal ⟨7, .rpcRequest 1 [0x61] [0x62] [.f64 0 0] false⟩ = .ok bytes ∧
      slice bytes = bytes.length ∧ unmarshal bytes = .panic) :=
  ⟨⟨by decide, rfl⟩, ⟨by decide, rfl⟩, ⟨by decide, rfl⟩, ⟨by decide, rfl⟩, ⟨_, rfl, by decide, rfl⟩⟩

/-- The field types of packet bodies. -/
inductive FieldTy where
  | str | strs | int | bool | list

/-- The fields of each packet, in order (/repo/protocol.go, the struct declarations). -/
def signature : Nat → Option (List FieldTy)
  | 0 => some [.str]
  | 1 => some []
  | 2 => some [.strs]
  | 3 => some [.strs]
  | 4 => some [.int]
  | 5 => some [.str]
  | 6 => some [.str]
  | 7 => some [.int, .str, .str, .list, .bool]
  | 8 => some [.int, .str, .str, .list, .str]
  | _ => none

/-- A decoded value has a field type. -/
def HasTy : FieldTy → Val → Prop
  | .str, v => ∃ s, v = .str 0 s
  | .strs, v => ∃ ss : List Str, v = .seq .ifaceSlice (ss.map (Val.str 0))
  | .int, v => ∃ k n, v = .int k 0 n
  | .bool, v => ∃ b, v = .bool 0 b
  | .list, v => ∃ xs, v = .seq .ifaceSlice xs

/-- The values have the field types, one by one. -/
inductive Typed : List FieldTy → List Val → Prop where
  | nil : Typed [] []
  | cons {ty v tys vs} : HasTy ty v → Typed tys vs → Typed (ty :: tys) (v :: vs)

/-- Decoding one value after the other yields `vs`. -/
inductive Decodes : List Byte → List Val → Prop where
  | nil (s) : Decodes s []
  | cons {s v t vs} : decode s = .ok (v, t) → Decodes t vs → Decodes s (v :: vs)

/-! ### Lemmas -/

private theorem get_iff {α : Type} {a : Codec.Any} {s : List Byte} {acc : Codec.Any → Res α} {x : α}
    {a' : Codec.Any} {t : List Byte} :
    get a s acc = .ok (x, a', t) ↔
      ∃ v, decode s = .ok (v, t) ∧ a' = Any.normalize ⟨v, a.tp⟩ ∧ acc a' = .ok x := by
  unfold Verif.Proto.get Any.decode
  cases decode s with
  | ok vt =>
    obtain ⟨v, t'⟩ := vt
    simp only
    cases h : acc (Any.normalize ⟨v, a.tp⟩) with
    | ok y =>
      simp only [Res.bind_ok, Res.pure_eq, Res.ok.injEq, Prod.mk.injEq]
      constructor
      · rintro ⟨rfl, rfl, rfl⟩; exact ⟨v, ⟨rfl, rfl⟩, rfl, h⟩
      · rintro ⟨v', ⟨rfl, rfl⟩, rfl, h'⟩
        rw [h] at h'; cases h'; exact ⟨rfl, rfl, rfl⟩
    | _ =>
      constructor
      · intro e; cases e
      · rintro ⟨v', e, rfl, h'⟩; cases e; rw [h] at h'; cases h'
  | _ => constructor
         · intro e; cases e
         · rintro ⟨_, e, _⟩; cases e

private theorem string_iff {v : Val} {tp : AType} (hp : plain v = true) :
    (∃ x, (Any.normalize ⟨v, tp⟩).string = .ok x) ↔ HasTy .str v := by
  cases v with
  | str t s => simp [plain] at hp; subst hp; simp [Any.normalize, Any.string, assertStr, HasTy]
  | nil => simp [Any.normalize, Any.string, HasTy]
  | bool t b => simp [plain] at hp; subst hp; simp [Any.normalize, Any.string, HasTy]
  | f32 t b => simp [plain] at hp; subst hp; simp [Any.normalize, Any.string, HasTy]
  | f64 t b => simp [plain] at hp; subst hp; simp [Any.normalize, Any.string, HasTy]
  | seq ty xs => simp [Any.normalize, Any.string, HasTy]
  | map ty xs => simp [Any.normalize, Any.string, HasTy]
  | bad k => simp [plain] at hp
  | uint k t x => cases k <;> simp [plain] at hp <;> subst hp <;> simp [Any.normalize, Any.string, HasTy]
  | int k t x => cases k <;> simp [plain] at hp <;> subst hp <;> simp [Any.normalize, Any.string, HasTy]

private theorem bool_iff {v : Val} {tp : AType} (hp : plain v = true) :
    (∃ x, (Any.normalize ⟨v, tp⟩).bool = .ok x) ↔ HasTy .bool v := by
  cases v with
  | str t s => simp [plain] at hp; subst hp; simp [Any.normalize, Any.bool, HasTy]
  | nil => simp [Any.normalize, Any.bool, HasTy]
  | bool t b => simp [plain] at hp; subst hp; simp [Any.normalize, Any.bool, assertBool, HasTy]
  | f32 t b => simp [plain] at hp; subst hp; simp [Any.normalize, Any.bool, HasTy]
  | f64 t b => simp [plain] at hp; subst hp; simp [Any.normalize, Any.bool, HasTy]
  | seq ty xs => simp [Any.normalize, Any.bool, HasTy]
  | map ty xs => simp [Any.normalize, Any.bool, HasTy]
  | bad k => simp [plain] at hp
  | uint k t x => cases k <;> simp [plain] at hp <;> subst hp <;> simp [Any.normalize, Any.bool, HasTy]
  | int k t x => cases k <;> simp [plain] at hp <;> subst hp <;> simp [Any.normalize, Any.bool, HasTy]

private theorem arr_iff {v : Val} {tp : AType} (hp : plain v = true) :
    (∃ x, (Any.normalize ⟨v, tp⟩).arr = .ok x) ↔ HasTy .list v := by
  cases v with
  | str t s => simp [plain] at hp; subst hp; simp [Any.normalize, Any.arr, HasTy]
  | nil => simp [Any.normalize, Any.arr, HasTy]
  | bool t b => simp [plain] at hp; subst hp; simp [Any.normalize, Any.arr, HasTy]
  | f32 t b => simp [plain] at hp; subst hp; simp [Any.normalize, Any.arr, HasTy]
  | f64 t b => simp [plain] at hp; subst hp; simp [Any.normalize, Any.arr, HasTy]
  | seq ty xs => simp [plain] at hp; subst hp; simp [Any.normalize, Any.arr, assertArr, HasTy]
  | map ty xs => simp [Any.normalize, Any.arr, HasTy]
  | bad k => simp [plain] at hp
  | uint k t x => cases k <;> simp [plain] at hp <;> subst hp <;> simp [Any.normalize, Any.arr, HasTy]
  | int k t x => cases k <;> simp [plain] at hp <;> subst hp <;> simp [Any.normalize, Any.arr, HasTy]

private theorem signed_iff {v : Val} {tp : AType} (hp : plain v = true) (w : Nat) :
    (∃ x, (Any.normalize ⟨v, tp⟩).signed w = .ok x) ↔ HasTy .int v := by
  cases v with
  | str t s => simp [plain] at hp; subst hp; simp [Any.normalize, Any.signed, HasTy]
  | nil => simp [Any.normalize, Any.signed, HasTy]
  | bool t b => simp [plain] at hp; subst hp; simp [Any.normalize, Any.signed, HasTy]
  | f32 t b => simp [plain] at hp; subst hp; simp [Any.normalize, Any.signed, HasTy]
  | f64 t b => simp [plain] at hp; subst hp; simp [Any.normalize, Any.signed, HasTy]
  | seq ty xs => simp [Any.normalize, Any.signed, HasTy]
  | map ty xs => simp [Any.normalize, Any.signed, HasTy]
  | bad k => simp [plain] at hp
  | uint k t x => cases k <;> simp [plain] at hp <;> subst hp <;> simp [Any.normalize, Any.signed, HasTy]
  | int k t x =>
    have : HasTy .int (.int k t x) ↔ t = 0 := by
      constructor
      · rintro ⟨k', n', e⟩; cases e; rfl
      · rintro rfl; exact ⟨k, x, rfl⟩
    rw [this]
    cases k <;> simp [plain] at hp <;> subst hp <;> simp [Any.normalize, Any.signed, assertInt]

private theorem assertStrings_iff (xs : List Val) :
    (∃ ss, assertStrings xs = .ok ss) ↔ ∃ ss : List Str, xs = ss.map (Val.str 0) := by
  constructor
  · intro h
    induction xs with
    | nil => exact ⟨[], rfl⟩
    | cons x xs ih =>
      obtain ⟨ss, h⟩ := h
      unfold assertStrings at h
      cases hx : assertStr x with
      | ok s =>
        rw [hx] at h
        simp only [Res.bind_ok] at h
        cases hr : assertStrings xs with
        | ok ss' =>
          obtain ⟨tt, rfl⟩ := ih ⟨ss', hr⟩
          have : x = .str 0 s := by
            unfold assertStr at hx
            split at hx
            · cases hx; rfl
            · cases hx
          exact ⟨s :: tt, by simp [this]⟩
        | _ => rw [hr] at h; cases h
      | _ => rw [hx] at h; cases h
  · rintro ⟨ss, rfl⟩; exact ⟨ss, assertStrings_strs ss⟩

private theorem strings_iff {v : Val} {tp : AType} (hp : plain v = true) :
    (∃ x, Any.strings (Any.normalize ⟨v, tp⟩) = .ok x) ↔ HasTy .strs v := by
  by_cases hl : HasTy .list v
  · obtain ⟨xs, rfl⟩ := hl
    have : Any.strings (Any.normalize ⟨.seq .ifaceSlice xs, tp⟩) = assertStrings xs := rfl
    rw [this, assertStrings_iff]
    simp [HasTy]
  · constructor
    · rintro ⟨x, h⟩
      exfalso
      apply hl
      rw [← arr_iff (tp := tp) hp]
      unfold Any.strings at h
      cases ha : (Any.normalize ⟨v, tp⟩).arr with
      | ok y => exact ⟨y, rfl⟩
      | _ => rw [ha] at h; cases h
    · rintro ⟨ss, rfl⟩; exact absurd ⟨_, rfl⟩ hl

/-- The identifier as a decoded value. -/
private theorem unsigned_iff {v : Val} {tp : AType} (hp : plain v = true) (x : BitVec 8) :
    (Any.normalize ⟨v, tp⟩).uint8 = .ok x ↔ ∃ k n, v = .uint k 0 n ∧ x.toNat = n.toNat % 256 := by
  cases v with
  | str t s => simp [plain] at hp; subst hp; simp [Any.normalize, Any.uint8, Any.unsigned]
  | nil => simp [Any.normalize, Any.uint8, Any.unsigned]
  | bool t b => simp [plain] at hp; subst hp; simp [Any.normalize, Any.uint8, Any.unsigned]
  | f32 t b => simp [plain] at hp; subst hp; simp [Any.normalize, Any.uint8, Any.unsigned]
  | f64 t b => simp [plain] at hp; subst hp; simp [Any.normalize, Any.uint8, Any.unsigned]
  | seq ty xs => simp [Any.normalize, Any.uint8, Any.unsigned]
  | map ty xs => simp [Any.normalize, Any.uint8, Any.unsigned]
  | bad k => simp [plain] at hp
  | int k t x => cases k <;> simp [plain] at hp <;> subst hp <;> simp [Any.normalize, Any.uint8, Any.unsigned]
  | uint k t n =>
    have e : (∃ k' n', Val.uint k t n = .uint k' 0 n' ∧ x.toNat = n'.toNat % 256) ↔
        (t = 0 ∧ x.toNat = n.toNat % 256) := by
      constructor
      · rintro ⟨k', n', e, h⟩; cases e; exact ⟨rfl, h⟩
      · rintro ⟨rfl, h⟩; exact ⟨k, n, rfl, h⟩
    rw [e]
    have key : ∀ {w : Nat} (m : BitVec w), (Res.ok (m.setWidth 8) = Res.ok x) ↔ x.toNat = m.toNat % 256 := by
      intro w m
      constructor
      · intro h; cases h; simp
      · intro h; congr 1; exact BitVec.eq_of_toNat_eq (by simp [h])
    cases k with
    | u8 => simp [plain] at hp; subst hp; exact (key (w := 8) n).trans (by simp; rfl)
    | u16 => simp [plain] at hp; subst hp; exact (key (w := 16) n).trans (by simp; rfl)
    | u32 => simp [plain] at hp; subst hp; exact (key (w := 32) n).trans (by simp; rfl)
    | u64 => simp [plain] at hp; subst hp; exact (key (w := 64) n).trans (by simp; rfl)
    | uint => simp [plain] at hp
    | uintptr => simp [plain] at hp

/-- Reading one field succeeds exactly on values of its type. -/
private theorem get_field {α : Type} {acc : Codec.Any → Res α} {ty : FieldTy}
    (h : ∀ v tp, plain v = true → ((∃ x, acc (Any.normalize ⟨v, tp⟩) = .ok x) ↔ HasTy ty v))
    (a : Codec.Any) (s : List Byte) {P : α × Codec.Any × List Byte → Prop} {Q : List Byte → Prop}
    (hPQ : ∀ r, P r ↔ Q r.2.2) :
    (∃ r, get a s acc = .ok r ∧ P r) ↔ ∃ v t, decode s = .ok (v, t) ∧ HasTy ty v ∧ Q t := by
  constructor
  · rintro ⟨⟨x, a', t⟩, hg, hp⟩
    obtain ⟨v, hd, rfl, hx⟩ := get_iff.mp hg
    exact ⟨v, t, hd, (h v a.tp (decode_plain hd)).mp ⟨x, hx⟩, (hPQ _).mp hp⟩
  · rintro ⟨v, t, hd, hv, hq⟩
    obtain ⟨x, hx⟩ := (h v a.tp (decode_plain hd)).mpr hv
    exact ⟨(x, _, t), get_iff.mpr ⟨v, hd, rfl, hx⟩, (hPQ _).mpr hq⟩

private theorem bind_ok_iff {α β : Type} {r : Res α} {f : α → Res β} {y : β} :
    (r >>= f) = .ok y ↔ ∃ x, r = .ok x ∧ f x = .ok y := by
  cases r with
  | ok x => simp
  | _ => constructor
         · intro h; cases h
         · rintro ⟨_, h, _⟩; cases h

private theorem exists_bind {α β : Type} {r : Res α} {f : α → Res β} :
    (∃ y, (r >>= f) = .ok y) ↔ ∃ x, r = .ok x ∧ ∃ y, f x = .ok y := by
  constructor
  · rintro ⟨y, h⟩; obtain ⟨x, h1, h2⟩ := bind_ok_iff.mp h; exact ⟨x, h1, y, h2⟩
  · rintro ⟨x, h1, y, h2⟩; exact ⟨y, bind_ok_iff.mpr ⟨x, h1, h2⟩⟩

private theorem fields_nil (s : List Byte) : (∃ vs, Decodes s vs ∧ Typed [] vs) ↔ True :=
  ⟨fun _ => trivial, fun _ => ⟨[], .nil s, .nil⟩⟩

private theorem fields_cons (ty : FieldTy) (tys : List FieldTy) (s : List Byte) :
    (∃ vs, Decodes s vs ∧ Typed (ty :: tys) vs) ↔
      ∃ v t, decode s = .ok (v, t) ∧ HasTy ty v ∧ ∃ vs, Decodes t vs ∧ Typed tys vs := by
  constructor
  · rintro ⟨vs, hd, hf⟩
    cases hf with
    | cons h1 h2 =>
      cases hd with
      | cons d1 d2 => exact ⟨_, _, d1, h1, _, d2, h2⟩
  · rintro ⟨v, t, h1, h2, vs, h3, h4⟩
    exact ⟨v :: vs, .cons h1 h3, .cons h2 h4⟩

private theorem unmarshal_iff (p : Proto) (s : List Byte) :
    (∃ q, p.unmarshal s = .ok q) ↔
      ∃ tys, signature p.kind = some tys ∧ ∃ vs, Decodes s vs ∧ Typed tys vs := by
  have hstr := fun (v : Val) (tp : AType) (hp : plain v = true) => string_iff (tp := tp) hp
  have hstrs := fun (v : Val) (tp : AType) (hp : plain v = true) => strings_iff (tp := tp) hp
  have hbool := fun (v : Val) (tp : AType) (hp : plain v = true) => bool_iff (tp := tp) hp
  have harr := fun (v : Val) (tp : AType) (hp : plain v = true) => arr_iff (tp := tp) hp
  have hint := fun (v : Val) (tp : AType) (hp : plain v = true) => signed_iff (tp := tp) hp 64
  have one : ∀ {α : Type} {acc : Codec.Any → Res α} {ty : FieldTy}
      (h : ∀ v tp, plain v = true → ((∃ x, acc (Any.normalize ⟨v, tp⟩) = .ok x) ↔ HasTy ty v))
      (f : α → Proto) (s : List Byte),
      (∃ q, (get (newAny .nil) s acc >>= fun r => (.ok (f r.1) : Res Proto)) = .ok q) ↔
        ∃ vs, Decodes s vs ∧ Typed [ty] vs := by
    intro α acc ty h f s
    rw [exists_bind, fields_cons]
    refine get_field h _ s (P := fun r => ∃ y, (Res.ok (f r.1) : Res Proto) = .ok y) ?_
    intro r
    rw [fields_nil]
    exact ⟨fun _ => trivial, fun _ => ⟨_, rfl⟩⟩
  have fin : ∀ {A : Prop} {p : Proto} {tys : List FieldTy} {B : List FieldTy → Prop},
      signature p.kind = some tys → (A ↔ B tys) → (A ↔ ∃ tys, signature p.kind = some tys ∧ B tys) := by
    intro A p tys B h1 h2
    rw [h1]
    simpa using h2
  cases p with
  | heartbeat =>
    refine ⟨fun _ => ⟨[], rfl, [], .nil s, .nil⟩, fun _ => ⟨_, rfl⟩⟩
  | error e => exact fin rfl <| one hstr Proto.error s
  | ready e => exact fin rfl <| one hstrs Proto.ready s
  | registerRequest e => exact fin rfl <| one hstrs Proto.registerRequest s
  | registerResponse e => exact fin rfl <| one (acc := Codec.Any.int) hint Proto.registerResponse s
  | queryRequest e => exact fin rfl <| one hstr Proto.queryRequest s
  | queryResponse e => exact fin rfl <| one hstr Proto.queryResponse s
  | rpcRequest i sl m ar w =>
    simp only [signature, Proto.Proto.kind, Option.some.injEq, exists_eq_left']
    simp only [Proto.Proto.unmarshal]
    rw [exists_bind, fields_cons]
    refine get_field (acc := Codec.Any.int64) hint _ s ?_
    rintro ⟨index, a, s⟩
    rw [exists_bind, fields_cons]
    refine get_field hstr _ s ?_
    rintro ⟨slot, a, s⟩
    rw [exists_bind, fields_cons]
    refine get_field hstr _ s ?_
    rintro ⟨method, a, s⟩
    rw [exists_bind, fields_cons]
    refine get_field harr _ s ?_
    rintro ⟨args, a, s⟩
    rw [exists_bind, fields_cons]
    refine get_field hbool _ s ?_
    rintro ⟨wr, a, s⟩
    rw [fields_nil]
    exact ⟨fun _ => trivial, fun _ => ⟨_, rfl⟩⟩
  | rpcResponse i sl m ar w =>
    simp only [signature, Proto.Proto.kind, Option.some.injEq, exists_eq_left']
    simp only [Proto.Proto.unmarshal]
    rw [exists_bind, fields_cons]
    refine get_field (acc := Codec.Any.int64) hint _ s ?_
    rintro ⟨index, a, s⟩
    rw [exists_bind, fields_cons]
    refine get_field hstr _ s ?_
    rintro ⟨slot, a, s⟩
    rw [exists_bind, fields_cons]
    refine get_field hstr _ s ?_
    rintro ⟨method, a, s⟩
    rw [exists_bind, fields_cons]
    refine get_field harr _ s ?_
    rintro ⟨args, a, s⟩
    rw [exists_bind, fields_cons]
    refine get_field hstr _ s ?_
    rintro ⟨wr, a, s⟩
    rw [fields_nil]
    exact ⟨fun _ => trivial, fun _ => ⟨_, rfl⟩⟩

private theorem get_ne_diverge {α : Type} (a : Codec.Any) (s : List Byte) (acc : Codec.Any → Res α)
    (h : ∀ a, acc a ≠ .diverge) : get a s acc ≠ .diverge := by
  unfold Verif.Proto.get Any.decode
  have := decode_ne_diverge s
  cases hd : decode s with
  | ok vt =>
    obtain ⟨v, t⟩ := vt
    simp only
    have := h (Any.normalize ⟨v, a.tp⟩)
    cases ha : acc (Any.normalize ⟨v, a.tp⟩) with
    | diverge => exact absurd ha this
    | _ => simp
  | diverge => exact absurd hd this
  | _ => simp

private theorem bind_ne_diverge {α β : Type} {r : Res α} {f : α → Res β} (h1 : r ≠ .diverge)
    (h2 : ∀ x, f x ≠ .diverge) : (r >>= f) ≠ .diverge := by
  cases r with
  | ok x => exact h2 x
  | diverge => exact absurd rfl h1
  | _ => simp

private theorem nd_signed (w : Nat) (a : Codec.Any) : a.signed w ≠ .diverge := by
  have h : ∀ k v, assertInt k v ≠ .diverge := by
    intro k v; unfold assertInt; split
    · split <;> simp
    · simp
  unfold Any.signed
  split
  · exact bind_ne_diverge (h _ _) (by simp)
  · exact bind_ne_diverge (h _ _) (by simp)
  · exact bind_ne_diverge (h _ _) (by simp)
  · exact bind_ne_diverge (h _ _) (by simp)
  · simp

private theorem nd_unsigned (w : Nat) (a : Codec.Any) : a.unsigned w ≠ .diverge := by
  have h : ∀ k v, assertUint k v ≠ .diverge := by
    intro k v; unfold assertUint; split
    · split <;> simp
    · simp
  unfold Any.unsigned
  split
  · exact bind_ne_diverge (h _ _) (by simp)
  · exact bind_ne_diverge (h _ _) (by simp)
  · exact bind_ne_diverge (h _ _) (by simp)
  · exact bind_ne_diverge (h _ _) (by simp)
  · simp

private theorem nd_string (a : Codec.Any) : a.string ≠ .diverge := by
  unfold Any.string assertStr; split
  · split <;> simp
  · simp

private theorem nd_bool (a : Codec.Any) : a.bool ≠ .diverge := by
  unfold Any.bool assertBool; split
  · split <;> simp
  · simp

private theorem nd_arr (a : Codec.Any) : a.arr ≠ .diverge := by
  unfold Any.arr assertArr; split
  · split <;> simp
  · simp

private theorem nd_strings (a : Codec.Any) : Any.strings a ≠ .diverge := by
  have h : ∀ xs, assertStrings xs ≠ .diverge := by
    intro xs
    induction xs with
    | nil => simp [assertStrings]
    | cons x xs ih =>
      unfold assertStrings
      refine bind_ne_diverge ?_ (fun s => bind_ne_diverge ih (by simp))
      unfold assertStr; split <;> simp
  exact bind_ne_diverge (nd_arr a) h

private theorem nd_unmarshal (p : Proto) (s : List Byte) : p.unmarshal s ≠ .diverge := by
  cases p with
  | heartbeat => intro h; cases h
  | error => exact bind_ne_diverge (get_ne_diverge _ _ _ nd_string) (by simp)
  | ready => exact bind_ne_diverge (get_ne_diverge _ _ _ nd_strings) (by simp)
  | registerRequest => exact bind_ne_diverge (get_ne_diverge _ _ _ nd_strings) (by simp)
  | registerResponse => exact bind_ne_diverge (get_ne_diverge _ _ _ (nd_signed 64)) (by simp)
  | queryRequest => exact bind_ne_diverge (get_ne_diverge _ _ _ nd_string) (by simp)
  | queryResponse => exact bind_ne_diverge (get_ne_diverge _ _ _ nd_string) (by simp)
  | rpcRequest =>
    exact bind_ne_diverge (get_ne_diverge _ _ _ (nd_signed 64)) fun _ =>
      bind_ne_diverge (get_ne_diverge _ _ _ nd_string) fun _ =>
      bind_ne_diverge (get_ne_diverge _ _ _ nd_string) fun _ =>
      bind_ne_diverge (get_ne_diverge _ _ _ nd_arr) fun _ =>
      bind_ne_diverge (get_ne_diverge _ _ _ nd_bool) (by simp)
  | rpcResponse =>
    exact bind_ne_diverge (get_ne_diverge _ _ _ (nd_signed 64)) fun _ =>
      bind_ne_diverge (get_ne_diverge _ _ _ nd_string) fun _ =>
      bind_ne_diverge (get_ne_diverge _ _ _ nd_string) fun _ =>
      bind_ne_diverge (get_ne_diverge _ _ _ nd_arr) fun _ =>
      bind_ne_diverge (get_ne_diverge _ _ _ nd_string) (by simp)

private theorem fatal_ne_err {α : Type} (r : Res α) (e : GoErr) : fatalOnErr r ≠ .err e := by
  cases r <;> simp [fatalOnErr]

private theorem fatal_ne_diverge {α : Type} {r : Res α} (h : r ≠ .diverge) : fatalOnErr r ≠ .diverge := by
  cases r <;> simp [fatalOnErr] at h ⊢

private theorem fatal_ok {α : Type} {r : Res α} {x : α} : fatalOnErr r = .ok x ↔ r = .ok x := by
  cases r <;> simp [fatalOnErr]

private theorem body_iff (body : List Byte) :
    (unmarshalBody body).Survives ↔ ∃ q, unmarshalBody body = .ok q := by
  have hne : unmarshalBody body ≠ .diverge := by
    unfold unmarshalBody
    refine bind_ne_diverge (fatal_ne_diverge (get_ne_diverge _ _ _ (nd_unsigned 8))) ?_
    rintro ⟨v, a, t⟩
    simp only
    split
    · simp
    · exact bind_ne_diverge (fatal_ne_diverge (nd_unmarshal _ _)) (by simp)
  have hne' : ∀ e, unmarshalBody body ≠ .err e := by
    intro e
    unfold unmarshalBody
    have h1 := fatal_ne_err (get (newAny .nil) body Codec.Any.uint8)
    cases hg : fatalOnErr (get (newAny .nil) body Codec.Any.uint8) with
    | ok x =>
      obtain ⟨v, a, t⟩ := x
      simp only [Res.bind_ok]
      split
      · simp
      · rename_i p _
        have h2 := fatal_ne_err (p.unmarshal t)
        cases hp : fatalOnErr (p.unmarshal t) with
        | err e => exact absurd hp (h2 e)
        | _ => simp
    | err e => exact absurd hg (h1 e)
    | _ => simp
  cases h : unmarshalBody body with
  | ok x => simp [Res.Survives]
  | err e => exact absurd h (hne' e)
  | diverge => exact absurd h hne
  | panic => simp [Res.Survives]
  | fatal => simp [Res.Survives]

private theorem maker_signature (id : BitVec 8) :
    (∀ p, protoMaker id = some p → p.kind = id.toNat) ∧ (protoMaker id = none → signature id.toNat = none) := by
  constructor
  · intro p hp
    unfold protoMaker at hp
    repeat (split at hp; · rename_i e; cases hp; rw [e]; rfl)
    cases hp
  · intro h
    have h9 : 9 ≤ id.toNat := by
      have : ∀ id : BitVec 8, protoMaker id = none → 9 ≤ id.toNat := by
        intro id
        rcases Nat.lt_or_ge id.toNat 9 with hlt | hge
        · intro h; exfalso; revert h
          have : ∀ n, n < 9 → protoMaker (BitVec.ofNat 8 n) ≠ none := by
            intro n hn
            match n, hn with
            | 0, _ | 1, _ | 2, _ | 3, _ | 4, _ | 5, _ | 6, _ | 7, _ | 8, _ => exact fun h => by cases h
          have e : id = BitVec.ofNat 8 id.toNat := by simp
          rw [e]; exact this _ hlt
        · exact fun _ => hge
      exact this id h
    unfold signature
    split <;> first | rfl | (rename_i e; omega)

/-- C24 made exact: on a frame delivered by `Slice` the process survives if and only if the body is an
unsigned integer (of which only the low byte counts) naming a packet type, followed by values of exactly the
types of its fields.  Full statement of C24: it survives on every such frame. -/
theorem C24_malformed_frame_partial (frame : List Byte) (hf : 0 < slice frame) :
    (unmarshal frame).Survives ↔
      ∃ k n rest tys fields,
        decode ((frame.drop 4).take (slice frame - 4)) = .ok (.uint k 0 n, rest) ∧
        signature (n.toNat % 256) = some tys ∧
        Decodes rest fields ∧ Typed tys fields := by
  have hs : slice frame = 4 + announced frame ∧ ¬ frame.length < 4 ∧ ¬ frame.length < 4 + announced frame := by
    unfold slice at hf ⊢
    split at hf
    · omega
    split at hf
    · omega
    · rename_i h1 h2
      rw [if_neg h1, if_neg h2]
      exact ⟨rfl, h1, h2⟩
  obtain ⟨e, h1, h2⟩ := hs
  unfold unmarshal
  rw [if_neg h1, if_neg h2, e, Nat.add_sub_cancel_left, body_iff]
  generalize (frame.drop 4).take (announced frame) = body
  unfold unmarshalBody
  rw [exists_bind]
  constructor
  · rintro ⟨⟨id, a, t⟩, hg, q, hq⟩
    obtain ⟨v, hd, rfl, hx⟩ := get_iff.mp (fatal_ok.mp hg)
    obtain ⟨k, n, rfl, hn⟩ := (unsigned_iff (decode_plain hd) id).mp hx
    simp only at hq
    cases hm : protoMaker id with
    | none => rw [hm] at hq; cases hq
    | some p =>
      rw [hm] at hq
      simp only at hq
      obtain ⟨p', hp', _⟩ := bind_ok_iff.mp hq
      obtain ⟨tys, ht, fs, hf1, hf2⟩ := (unmarshal_iff p t).mp ⟨p', fatal_ok.mp hp'⟩
      refine ⟨k, n, t, tys, fs, hd, ?_, hf1, hf2⟩
      rw [← hn, ← (maker_signature id).1 p hm]
      exact ht
  · rintro ⟨k, n, rest, tys, fs, hd, hsig, hf1, hf2⟩
    refine ⟨(BitVec.ofNat 8 n.toNat, Any.normalize ⟨.uint k 0 n, (newAny .nil).tp⟩, rest),
      fatal_ok.mpr (get_iff.mpr ⟨_, hd, rfl, ?_⟩), ?_⟩
    · exact (unsigned_iff (decode_plain hd) _).mpr ⟨k, n, rfl, by simp⟩
    · simp only
      have hid : (BitVec.ofNat 8 n.toNat).toNat = n.toNat % 256 := by simp
      cases hm : protoMaker (BitVec.ofNat 8 n.toNat) with
      | none =>
        have := (maker_signature _).2 hm
        rw [hid, hsig] at this
        cases this
      | some p =>
        simp only
        have hk := (maker_signature _).1 p hm
        obtain ⟨p', hp'⟩ := (unmarshal_iff p rest).mpr ⟨tys, by rw [hk, hid]; exact hsig, fs, hf1, hf2⟩
        exact ⟨_, bind_ok_iff.mpr ⟨p', fatal_ok.mpr hp', rfl⟩⟩

/-- A frame with trailing garbage after the fields, and identifier 257 for a heartbeat: both survive. -/
example : (unmarshal [3, 0, 0, 0, 0xcc, 1, 0xff]).Survives ∧ (unmarshal [3, 0, 0, 0, 0xcd, 1, 1]).Survives ∧
    0 < slice [3, 0, 0, 0, 0xcc, 1, 0xff] := ⟨trivial, trivial, by decide⟩

end Verif.Props
