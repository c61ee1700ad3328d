import Verif.Props.Codec5

/-! # C16 – C19: the accessors of `IAny` -/

namespace Verif.Props

open Verif Verif.Codec

/-! ## C16 Accessors never crash and respect the value's class -/

/-- The classes of values the API distinguishes. -/
inductive Class where
  | nil | bool | string | signed | unsigned | float | arr | map | other
  deriving DecidableEq

/-- The class of a value, read off its meaning. -/
def classOf (v : Val) : Class :=
  match content v with
  | .nil => .nil
  | .bool _ => .bool
  | .nat _ => .unsigned
  | .int _ => .signed
  | .float _ => .float
  | .str _ => .string
  | .list _ => .arr
  | .map _ => .map
  | .unsupported => .other

/-- Succeeds if `p`, otherwise returns an error; never panics. -/
def SucceedsIff {α : Type} (r : Res α) (p : Prop) : Prop :=
  (p → ∃ x, r = .ok x) ∧ (¬ p → ∃ e, r = .err e)

private theorem succeeds {α : Type} {r : Res α} {p : Prop} (x : α) (h : r = .ok x) (hp : p) : SucceedsIff r p :=
  ⟨fun _ => ⟨x, h⟩, fun hn => absurd hp hn⟩

private theorem fails {α : Type} {r : Res α} {p : Prop} (h : r = .err .cantConvert) (hp : ¬ p) : SucceedsIff r p :=
  ⟨fun h' => absurd h' hp, fun _ => ⟨_, h⟩⟩

/-- C16: `a` is the object before, with arbitrary content. -/
theorem C16_accessors (a : Any) (s rest : List Byte) (h : (a.decode s).2 = .ok rest) :
    let a' := (a.decode s).1
    SucceedsIff a'.bool (classOf a'.any = .bool) ∧
    SucceedsIff a'.string (classOf a'.any = .string) ∧
    SucceedsIff a'.int (classOf a'.any = .signed) ∧
    SucceedsIff a'.int8 (classOf a'.any = .signed) ∧
    SucceedsIff a'.int16 (classOf a'.any = .signed) ∧
    SucceedsIff a'.int32 (classOf a'.any = .signed) ∧
    SucceedsIff a'.int64 (classOf a'.any = .signed) ∧
    SucceedsIff a'.uint (classOf a'.any = .unsigned) ∧
    SucceedsIff a'.uint8 (classOf a'.any = .unsigned) ∧
    SucceedsIff a'.uint16 (classOf a'.any = .unsigned) ∧
    SucceedsIff a'.uint32 (classOf a'.any = .unsigned) ∧
    SucceedsIff a'.uint64 (classOf a'.any = .unsigned) ∧
    SucceedsIff a'.float32 (classOf a'.any = .float) ∧
    SucceedsIff a'.float64 (classOf a'.any = .float) ∧
    SucceedsIff a'.arr (classOf a'.any = .arr) ∧
    SucceedsIff a'.map (classOf a'.any = .map) := by
  cases hd : decode s with
  | ok p =>
    obtain ⟨v, t⟩ := p
    rw [Any.decode_ok hd]
    have hp := decode_plain hd
    clear h hd
    cases v with
    | nil => refine ⟨?_, ?_, ?_, ?_, ?_, ?_, ?_, ?_, ?_, ?_, ?_, ?_, ?_, ?_, ?_, ?_⟩ <;> exact fails rfl nofun
    | bool t b =>
      simp only [plain, beq_iff_eq] at hp; subst hp
      refine ⟨?_, ?_, ?_, ?_, ?_, ?_, ?_, ?_, ?_, ?_, ?_, ?_, ?_, ?_, ?_, ?_⟩ <;>
        first | exact fails rfl nofun | exact succeeds _ rfl rfl
    | uint k t x =>
      simp only [plain, Bool.and_eq_true, beq_iff_eq] at hp
      obtain ⟨rfl, hk⟩ := hp
      cases k <;> first | (exact absurd hk (by decide)) | skip
      all_goals
        refine ⟨?_, ?_, ?_, ?_, ?_, ?_, ?_, ?_, ?_, ?_, ?_, ?_, ?_, ?_, ?_, ?_⟩ <;>
          first | exact fails rfl nofun | exact succeeds _ rfl rfl
    | int k t x =>
      simp only [plain, Bool.and_eq_true, beq_iff_eq] at hp
      obtain ⟨rfl, hk⟩ := hp
      cases k <;> first | (exact absurd hk (by decide)) | skip
      all_goals
        refine ⟨?_, ?_, ?_, ?_, ?_, ?_, ?_, ?_, ?_, ?_, ?_, ?_, ?_, ?_, ?_, ?_⟩ <;>
          first | exact fails rfl nofun | exact succeeds _ rfl rfl
    | f32 t b =>
      simp only [plain, beq_iff_eq] at hp; subst hp
      refine ⟨?_, ?_, ?_, ?_, ?_, ?_, ?_, ?_, ?_, ?_, ?_, ?_, ?_, ?_, ?_, ?_⟩ <;>
        first | exact fails rfl nofun | exact succeeds _ rfl rfl
    | f64 t b =>
      simp only [plain, beq_iff_eq] at hp; subst hp
      refine ⟨?_, ?_, ?_, ?_, ?_, ?_, ?_, ?_, ?_, ?_, ?_, ?_, ?_, ?_, ?_, ?_⟩ <;>
        first | exact fails rfl nofun | exact succeeds _ rfl rfl
    | str t b =>
      simp only [plain, beq_iff_eq] at hp; subst hp
      refine ⟨?_, ?_, ?_, ?_, ?_, ?_, ?_, ?_, ?_, ?_, ?_, ?_, ?_, ?_, ?_, ?_⟩ <;>
        first | exact fails rfl nofun | exact succeeds _ rfl rfl
    | seq ty xs =>
      simp only [plain, beq_iff_eq] at hp; subst hp
      refine ⟨?_, ?_, ?_, ?_, ?_, ?_, ?_, ?_, ?_, ?_, ?_, ?_, ?_, ?_, ?_, ?_⟩ <;>
        first | exact fails rfl nofun | exact succeeds _ rfl rfl
    | map ty kvs =>
      simp only [plain, beq_iff_eq] at hp; subst hp
      refine ⟨?_, ?_, ?_, ?_, ?_, ?_, ?_, ?_, ?_, ?_, ?_, ?_, ?_, ?_, ?_, ?_⟩ <;>
        first | exact fails rfl nofun | exact succeeds _ rfl rfl
    | bad k => cases hp
  | _ => simp [Any.decode, hd] at h

/-- An object that held a string decodes int16(300): only the signed accessors succeed. -/
example : let a' := (newAny (.str 0 [65])).decode [0xd1, 1, 0x2c, 9]
    a'.2 = .ok [9] ∧ a'.1.int16 = .ok 300 ∧ a'.1.string = .err .cantConvert ∧ classOf a'.1.any = .signed := by
  exact ⟨by decide +kernel, by decide +kernel, by decide +kernel, by decide +kernel⟩

/-! ## C17 Integer accessors are exact -/

/-- C17 fails: `Int8` on the decoded integer 300 returns 44, `Uint8` on 256 returns 0, both without error. -/
theorem C17_integer_accessors_refuted :
    ((newAny .nil).decode [0xd1, 1, 0x2c]).1.int64 = .ok 300 ∧
    ((newAny .nil).decode [0xd1, 1, 0x2c]).1.int8 = .ok 44 ∧
    ((newAny .nil).decode [0xcd, 1, 0]).1.uint64 = .ok 256 ∧
    ((newAny .nil).decode [0xcd, 1, 0]).1.uint8 = .ok 0 := by
  exact ⟨by decide +kernel, by decide +kernel, by decide +kernel, by decide +kernel⟩

private theorem ofInt_toInt {w : Nat} (v : BitVec w) : BitVec.ofInt w v.toInt = v := BitVec.ofInt_toInt

/-- C17, signed: the accessor of width `w` (`Int8` 8, ..., `Int`, `Int64` 64) returns the decoded integer
whenever it lies in its range.  Full statement: in every case, or an error. -/
theorem C17_signed_partial (a : Any) (s rest : List Byte) (h : (a.decode s).2 = .ok rest) (w : Nat) (z : Int)
    (hz : content (a.decode s).1.any = .int z) :
    ∃ x, (a.decode s).1.signed w = .ok x ∧ x = BitVec.ofInt w z ∧
      (0 < w → -2^(w-1) ≤ z → z < 2^(w-1) → x.toInt = z) := by
  cases hd : decode s with
  | ok p =>
    obtain ⟨v, t⟩ := p
    rw [Any.decode_ok hd] at hz ⊢
    have hp := decode_plain hd
    have hv : (Any.normalize ⟨v, a.tp⟩).any = v := by
      simp only [Any.normalize, Any.any]; split <;> rfl
    rw [hv] at hz
    refine ⟨BitVec.ofInt w z, ?_, rfl, fun h0 h1 h2 => BitVec.toInt_ofInt_eq_self h0 h1 h2⟩
    cases v with
    | int k t x =>
      simp only [plain, Bool.and_eq_true, beq_iff_eq] at hp
      obtain ⟨rfl, hk⟩ := hp
      simp only [content, Content.int.injEq] at hz
      subst hz
      cases k <;> first | (exact absurd hk (by decide)) | rfl
    | _ => simp [content] at hz
  | _ => simp [Any.decode, hd] at h

/-- C17, unsigned. -/
theorem C17_unsigned_partial (a : Any) (s rest : List Byte) (h : (a.decode s).2 = .ok rest) (w n : Nat)
    (hn : content (a.decode s).1.any = .nat n) :
    ∃ x, (a.decode s).1.unsigned w = .ok x ∧ x = BitVec.ofNat w n ∧ (n < 2^w → x.toNat = n) := by
  cases hd : decode s with
  | ok p =>
    obtain ⟨v, t⟩ := p
    rw [Any.decode_ok hd] at hn ⊢
    have hp := decode_plain hd
    have hv : (Any.normalize ⟨v, a.tp⟩).any = v := by
      simp only [Any.normalize, Any.any]; split <;> rfl
    rw [hv] at hn
    refine ⟨BitVec.ofNat w n, ?_, rfl, fun h0 => by rw [BitVec.toNat_ofNat, Nat.mod_eq_of_lt h0]⟩
    cases v with
    | uint k t x =>
      simp only [plain, Bool.and_eq_true, beq_iff_eq] at hp
      obtain ⟨rfl, hk⟩ := hp
      simp only [content, Content.nat.injEq] at hn
      subst hn
      rw [BitVec.ofNat_toNat]
      cases k <;> first | (exact absurd hk (by decide)) | rfl
    | _ => simp [content] at hn
  | _ => simp [Any.decode, hd] at h

/-- The 64-bit accessors are always exact. -/
theorem C17_int64_exact (a : Any) (s rest : List Byte) (h : (a.decode s).2 = .ok rest) :
    (∀ z, content (a.decode s).1.any = .int z → ∃ x, (a.decode s).1.int64 = .ok x ∧ x.toInt = z) ∧
    (∀ z, content (a.decode s).1.any = .int z → ∃ x, (a.decode s).1.int = .ok x ∧ x.toInt = z) ∧
    (∀ n, content (a.decode s).1.any = .nat n → ∃ x, (a.decode s).1.uint64 = .ok x ∧ x.toNat = n) ∧
    (∀ n, content (a.decode s).1.any = .nat n → ∃ x, (a.decode s).1.uint = .ok x ∧ x.toNat = n) := by
  have hi : ∀ z, content (a.decode s).1.any = .int z → ∃ x, (a.decode s).1.signed 64 = .ok x ∧ x.toInt = z := by
    intro z hz
    obtain ⟨x, h1, _, h3⟩ := C17_signed_partial a s rest h 64 z hz
    have hb : -2^63 ≤ z ∧ z < 2^63 := by
      generalize (a.decode s).1.any = v at hz
      cases v with
      | int k t x => simp only [content, Content.int.injEq] at hz; subst hz; exact int_toInt_bounds x
      | _ => simp [content] at hz
    exact ⟨x, h1, h3 (by omega) hb.1 hb.2⟩
  have hu : ∀ n, content (a.decode s).1.any = .nat n → ∃ x, (a.decode s).1.unsigned 64 = .ok x ∧ x.toNat = n := by
    intro n hn
    obtain ⟨x, h1, _, h3⟩ := C17_unsigned_partial a s rest h 64 n hn
    have hb : n < 2^64 := by
      generalize (a.decode s).1.any = v at hn
      cases v with
      | uint k t x => simp only [content, Content.nat.injEq] at hn; subst hn; exact uint_toNat_lt x
      | _ => simp [content] at hn
    exact ⟨x, h1, h3 hb⟩
  exact ⟨hi, hi, hu, hu⟩

/-- -5 read back as int8 although it arrived as int64. -/
example : ((newAny .nil).decode ([0xd3] ++ List.replicate 7 0xff ++ [0xfb])).2 = .ok [] ∧
    content ((newAny .nil).decode ([0xd3] ++ List.replicate 7 0xff ++ [0xfb])).1.any = .int (-5) :=
  ⟨by decide +kernel, by
    rw [show ((newAny .nil).decode ([0xd3] ++ List.replicate 7 0xff ++ [0xfb])).1.any = .int .i64 0 (-5) by
      decide +kernel]
    simp only [content, Content.int.injEq]
    decide⟩

/-! ## C18 A freshly wrapped value can be read back -/

/-- C18 fails: `NewAny(5).Int()` and `NewAny(uint(5)).Uint()` are errors, and `Arr`, `Map` panic on slices
and maps of other types than `[]interface{}` and `map[interface{}]interface{}`. -/
theorem C18_fresh_refuted :
    (∀ v : BitVec 64, (newAny (.int .int 0 v)).int = .err .cantConvert) ∧
    (∀ v : BitVec 64, (newAny (.uint .uint 0 v)).uint = .err .cantConvert) ∧
    (∀ t xs, (newAny (.seq (.slice t) xs)).arr = .panic) ∧
    (∀ t kvs, (newAny (.map (.other t) kvs)).map = .panic) :=
  ⟨fun _ => rfl, fun _ => rfl, fun _ _ => rfl, fun _ _ => rfl⟩

/-- C18 for all other types.  Full statement: also for int, uint, typed slices and maps. -/
theorem C18_fresh_partial :
    (∀ b, (newAny (.bool 0 b)).bool = .ok b) ∧ (∀ s, (newAny (.str 0 s)).string = .ok s) ∧
    (∀ v : BitVec 8, (newAny (.int .i8 0 v)).int8 = .ok v) ∧
    (∀ v : BitVec 16, (newAny (.int .i16 0 v)).int16 = .ok v) ∧
    (∀ v : BitVec 32, (newAny (.int .i32 0 v)).int32 = .ok v) ∧
    (∀ v : BitVec 64, (newAny (.int .i64 0 v)).int64 = .ok v) ∧
    (∀ v : BitVec 8, (newAny (.uint .u8 0 v)).uint8 = .ok v) ∧
    (∀ v : BitVec 16, (newAny (.uint .u16 0 v)).uint16 = .ok v) ∧
    (∀ v : BitVec 32, (newAny (.uint .u32 0 v)).uint32 = .ok v) ∧
    (∀ v : BitVec 64, (newAny (.uint .u64 0 v)).uint64 = .ok v) ∧
    (∀ b, (newAny (.f32 0 b)).float32 = .ok b) ∧ (∀ b, (newAny (.f64 0 b)).float64 = .ok b) ∧
    (∀ xs, (newAny (.seq .ifaceSlice xs)).arr = .ok xs) ∧
    (∀ kvs, (newAny (.map .ifaceMap kvs)).map = .ok kvs) :=
  ⟨fun _ => rfl, fun _ => rfl,
   fun v => congrArg Res.ok (BitVec.signExtend_eq v), fun v => congrArg Res.ok (BitVec.signExtend_eq v),
   fun v => congrArg Res.ok (BitVec.signExtend_eq v), fun v => congrArg Res.ok (BitVec.signExtend_eq v),
   fun v => congrArg Res.ok (BitVec.setWidth_eq v), fun v => congrArg Res.ok (BitVec.setWidth_eq v),
   fun v => congrArg Res.ok (BitVec.setWidth_eq v), fun v => congrArg Res.ok (BitVec.setWidth_eq v),
   fun _ => rfl, fun _ => rfl, fun _ => rfl, fun _ => rfl⟩

/-! ## C19 A failed Decode leaves a usable object -/

/-- All fifteen accessors return a value or an error. -/
def AccessorsSurvive (a : Any) : Prop :=
  a.bool.Survives ∧ a.string.Survives ∧ a.int.Survives ∧ a.int8.Survives ∧ a.int16.Survives ∧
  a.int32.Survives ∧ a.int64.Survives ∧ a.uint.Survives ∧ a.uint8.Survives ∧ a.uint16.Survives ∧
  a.uint32.Survives ∧ a.uint64.Survives ∧ a.float32.Survives ∧ a.float64.Survives ∧ a.arr.Survives ∧
  a.map.Survives

/-- C19 fails: decode a string, then hit the end of the input, then ask for the string. -/
theorem C19_failed_decode_refuted :
    let a1 := ((newAny .nil).decode (encode (.str 0 [65])).bytes).1
    let a2 := (a1.decode []).1
    (a1.decode []).2 = .err .eof ∧ a2.string = .panic := by
  intro a1 a2
  exact ⟨by decide +kernel, by decide +kernel⟩

/-- C19 for an object that held no value of an accessor's class before (a new one, or one whose last
`Decode` gave nil).  Full statement: for every object. -/
theorem C19_failed_decode_partial (a : Any) (s : List Byte) (e : GoErr) (h : (a.decode s).2 = .err e)
    (ha : a.tp = .aNil) : AccessorsSurvive (a.decode s).1 := by
  have : (a.decode s).1 = ⟨.nil, .aNil⟩ := by
    cases hd : decode s <;> simp_all [Any.decode]
  rw [this]
  exact ⟨trivial, trivial, trivial, trivial, trivial, trivial, trivial, trivial, trivial, trivial, trivial,
    trivial, trivial, trivial, trivial, trivial⟩

/-- The hypothesis is exact: with any other previous tag some accessor panics after the failure. -/
theorem C19_failed_decode_exact (a : Any) (s : List Byte) (e : GoErr) (h : (a.decode s).2 = .err e)
    (ha : a.tp ≠ .aNil) : ¬ AccessorsSurvive (a.decode s).1 := by
  have : (a.decode s).1 = ⟨.nil, a.tp⟩ := by
    cases hd : decode s <;> simp_all [Any.decode]
  rw [this]
  obtain ⟨v, tp⟩ := a
  rintro ⟨h1, h2, h3, h4, h5, h6, h7, h8, h9, h10, h11, h12, h13, h14, h15, h16⟩
  cases tp <;> first | exact ha rfl | exact h1 | exact h2 | exact h3 | exact h8 | exact h13 | exact h15 | exact h16

example : ((newAny .nil).decode [0xc1]).2 = .err .unsupportedCode ∧ (newAny .nil).tp = .aNil :=
  ⟨by decide +kernel, rfl⟩

end Verif.Props
