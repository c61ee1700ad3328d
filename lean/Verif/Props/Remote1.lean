import Verif.Chan.Meta
import Verif.Proto.Spec
import Verif.Codec.RoundTrip
import Verif.Props.Proto1

/-!
# C65 and C66: remote calls compared with local ones
-/

namespace Verif.Props

open Verif Verif.Codec Verif.Proto Verif.Chan

/-- A basic type: not an interface, slice, map, struct, pointer, ... -/
def PTy.basic : PTy → Bool
  | .iface => false
  | .other _ => false
  | _ => true

theorem canonNat_uint (n : Nat) (h : n < 2^64) : ∃ k v, canonNat n = .uint k 0 v ∧ v.toNat = n := by
  unfold canonNat
  split
  · exact ⟨.u8, _, rfl, by simp [UKind.width]; omega⟩
  · split
    · exact ⟨.u16, _, rfl, by simp [UKind.width]; omega⟩
    · split
      · exact ⟨.u32, _, rfl, by simp [UKind.width]; omega⟩
      · exact ⟨.u64, _, rfl, by simp [UKind.width]; omega⟩

theorem canonInt_int (z : Int) (h1 : -2^63 ≤ z) (h2 : z < 2^63) : ∃ k v, canonInt z = .int k 0 v ∧ v.toInt = z := by
  have key : ∀ w : Nat, 0 < w → -2^(w-1) ≤ z → z < 2^(w-1) → (BitVec.ofInt w z).toInt = z :=
    fun w hw h1 h2 => BitVec.toInt_ofInt_eq_self hw h1 h2
  unfold canonInt
  split
  · exact ⟨.i8, _, rfl, key 8 (by omega) (by omega) (by omega)⟩
  · split
    · exact ⟨.i16, _, rfl, key 16 (by omega) (by omega) (by omega)⟩
    · split
      · exact ⟨.i32, _, rfl, key 32 (by omega) (by omega) (by omega)⟩
      · exact ⟨.i64, _, rfl, key 64 (by omega) (by omega) (by omega)⟩

theorem convert_canon (o : Conv) (p : PTy) (hp : PTy.basic p = true) (v : Val)
    (hv : isScalar v = true) : convert o p (canon v) = convert o p v := by
  cases v with
  | nil => rfl
  | bool t b => cases p <;> first | cases hp; done | rfl
  | uint k t x =>
    obtain ⟨k', x', e, hx⟩ := canonNat_uint x.toNat (uint_toNat_lt x)
    have hc : content (.uint k' 0 x') = content (.uint k t x) := by simp only [content, hx]
    simp only [canon, e]
    cases p with
    | iface => cases hp
    | other _ => cases hp
    | bool _ => rfl
    | uint k2 t2 => simp only [convert, hx]
    | int k2 t2 => simp only [convert, hx]
    | f32 _ => simp only [convert, hx]
    | f64 _ => simp only [convert, hx]
    | str _ => simp only [convert, hx]
  | int k t x =>
    obtain ⟨k', x', e, hx⟩ := canonInt_int x.toInt (int_toInt_bounds x).1 (int_toInt_bounds x).2
    have hc : content (.int k' 0 x') = content (.int k t x) := by simp only [content, hx]
    simp only [canon, e]
    cases p with
    | iface => cases hp
    | other _ => cases hp
    | bool _ => rfl
    | uint k2 t2 => simp only [convert, hx]
    | int k2 t2 => simp only [convert, hx]
    | f32 _ => simp only [convert, hx]
    | f64 _ => simp only [convert, hx]
    | str _ => simp only [convert, hx]
  | f32 t b =>
    have hc : content (.f64 0 (widen b)) = content (.f32 t b) := rfl
    simp only [canon]
    cases p with
    | iface => cases hp
    | other _ => cases hp
    | bool _ => rfl
    | uint k2 t2 => rfl
    | int k2 t2 => rfl
    | f32 _ => rfl
    | f64 _ => rfl
    | str _ => rfl
  | f64 t b =>
    have hc : content (.f64 0 b) = content (.f64 t b) := rfl
    simp only [canon]
    cases p with
    | iface => cases hp
    | other _ => cases hp
    | bool _ => rfl
    | uint k2 t2 => rfl
    | int k2 t2 => rfl
    | f32 _ => rfl
    | f64 _ => rfl
    | str _ => rfl
  | str t s => cases p <;> first | cases hp; done | rfl
  | seq ty xs => cases hv
  | map ty kvs => cases hv
  | bad k => rfl

theorem convertArgs_canon (o : Conv) (ps : List PTy) (hp : ∀ p ∈ ps, PTy.basic p = true)
    (args : List Val) (hv : ∀ v ∈ args, isScalar v = true) :
    convertArgs o ps (canonList args) = convertArgs o ps args := by
  induction ps generalizing args with
  | nil => cases args <;> simp [canonList, convertArgs]
  | cons p ps ih =>
    cases args with
    | nil => simp [canonList, convertArgs]
    | cons v vs =>
      simp only [canonList, convertArgs]
      rw [convert_canon o p (hp p (List.mem_cons_self ..)) v (hv v (List.mem_cons_self ..)),
        ih (fun q hq => hp q (List.mem_cons_of_mem _ hq)) vs (fun w hw => hv w (List.mem_cons_of_mem _ hw))]

/-- C65 (partial): for a method whose parameters have basic types and arguments that are scalars and survive the codec,
a request sent over the network gives the method exactly the parameters that a local call gives it, or fails in the same
way.  Missing: parameters of other types and arguments that do not survive, see the refutations. -/
theorem C65_arguments_partial (o : Conv) (ps : List PTy) (hp : ∀ p ∈ ps, PTy.basic p = true)
    (i : BitVec 64) (slot meth : Str) (args : List Val) (w : Bool) (hv : ∀ v ∈ args, isScalar v = true)
    (hs : ∀ v ∈ args, wireOK v = true)
    (hl : (⟨7, .rpcRequest i slot meth args w⟩ : Packer).body.bytes.length < 2^32) :
    ∃ bytes args', marshal ⟨7, .rpcRequest i slot meth args w⟩ = .ok bytes ∧
      unmarshal bytes = .ok ⟨7, .rpcRequest i slot meth args' w⟩ ∧
      convertArgs o ps args' = convertArgs o ps args := by
  obtain ⟨bytes, h1, h2⟩ := C21_packet_roundtrip_partial ⟨7, .rpcRequest i slot meth args w⟩ rfl
    ((wireOKList_iff args).mpr hs) hl
  exact ⟨bytes, canonList args, h1, h2, convertArgs_canon o ps hp args hv⟩

/-- C65 (partial): results that survive the codec arrive with the same content: the same numbers, strings and elements,
though in other types. -/
theorem C65_result_content_partial (i : BitVec 64) (slot meth : Str) (results : List Val) (e : Str)
    (hs : ∀ v ∈ results, wireOK v = true)
    (hl : (⟨8, .rpcResponse i slot meth results e⟩ : Packer).body.bytes.length < 2^32) :
    ∃ bytes results', marshal ⟨8, .rpcResponse i slot meth results e⟩ = .ok bytes ∧
      unmarshal bytes = .ok ⟨8, .rpcResponse i slot meth results' e⟩ ∧
      results'.map content = results.map content := by
  obtain ⟨bytes, h1, h2⟩ := C21_packet_roundtrip_partial ⟨8, .rpcResponse i slot meth results e⟩ rfl
    ((wireOKList_iff results).mpr hs) hl
  refine ⟨bytes, canonList results, h1, h2, ?_⟩
  rw [canonList_eq, List.map_map]
  exact List.map_congr_left fun v _ => content_canon v

/-- Conversions that accept nothing but what `convert` itself handles, and a slice of type 7. -/
def sliceConv : Conv where
  int64 b := b
  uint64 b := b
  composite p v := match p, v with
    | .other 7, .seq (.slice 7) xs => some (.seq (.slice 7) xs)
    | _, _ => none

/-- A method with parameters of types `int`, `float32` and `string`, called with an int32, a float32 and a string. -/
example : convertArgs sliceConv [.int .int 0, .f32 0, .str 0] [.int .i32 0 300, .f32 0 0x3fc00000, .str 0 [0x61]] =
      .ok [.int .int 0 300, .f32 0 (narrow (widen 0x3fc00000)), .str 0 [0x61]] ∧
    (∀ v ∈ [Val.int .i32 0 300, .f32 0 0x3fc00000, .str 0 [0x61]], wireOK v = true ∧ isScalar v = true) := by
  refine ⟨rfl, by simp [wireOK, isScalar]⟩

/-- C65 (refuted): a parameter of type `interface{}` gets the argument `int(1)` in a local call, and `int8(1)` in a
remote call. -/
theorem C65_interface_refuted : ∃ bytes args',
    marshal ⟨7, .rpcRequest 1 [0x61] [0x62] [.int .int 0 1] true⟩ = .ok bytes ∧
    unmarshal bytes = .ok ⟨7, .rpcRequest 1 [0x61] [0x62] args' true⟩ ∧
    ∀ o, convertArgs o [.iface] [.int .int 0 1] = .ok [.int .int 0 1] ∧
      convertArgs o [.iface] args' = .ok [.int .i8 0 1] :=
  ⟨_, _, rfl, rfl, fun _ => ⟨rfl, rfl⟩⟩

/-- C65 (refuted): a parameter of a slice type accepts the argument in a local call; a remote call gives it a
`[]interface{}`, and the conversion panics. -/
theorem C65_slice_refuted : ∃ bytes args',
    marshal ⟨7, .rpcRequest 1 [0x61] [0x62] [.seq (.slice 7) [.str 0 [0x63]]] true⟩ = .ok bytes ∧
    unmarshal bytes = .ok ⟨7, .rpcRequest 1 [0x61] [0x62] args' true⟩ ∧
    convertArgs sliceConv [.other 7] [.seq (.slice 7) [.str 0 [0x63]]] = .ok [.seq (.slice 7) [.str 0 [0x63]]] ∧
    convertArgs sliceConv [.other 7] args' = .panic :=
  ⟨_, _, rfl, rfl, rfl, rfl⟩

/-- C65 (refuted): the argument `float64(0)` is accepted in a local call; in a remote call the process that receives it
panics. -/
theorem C65_zero_refuted : ∃ bytes, (∀ o, convertArgs o [.f64 0] [.f64 0 0] = .ok [.f64 0 0]) ∧
    marshal ⟨7, .rpcRequest 1 [0x61] [0x62] [.f64 0 0] true⟩ = .ok bytes ∧ unmarshal bytes = .panic :=
  ⟨_, fun _ => rfl, rfl, rfl⟩

/-- C65 (refuted): the result `int(1)` of a method is an `int` for a local caller and an `int8` for a remote one. -/
theorem C65_result_type_refuted : ∃ bytes,
    marshal ⟨8, .rpcResponse 1 [0x61] [0x62] [.int .int 0 1] []⟩ = .ok bytes ∧
    unmarshal bytes = .ok ⟨8, .rpcResponse 1 [0x61] [0x62] [.int .i8 0 1] []⟩ := ⟨_, rfl, rfl⟩

/-! ## C66 -/

/-- The dynamic type of `v` is the basic type `p`. -/
def hasType : PTy → Val → Bool
  | .bool t, .bool t' _ => t == t'
  | .uint k t, .uint k' t' _ => k == k' && t == t'
  | .int k t, .int k' t' _ => k == k' && t == t'
  | .f32 t, .f32 t' _ => t == t'
  | .f64 t, .f64 t' _ => t == t'
  | .str t, .str t' _ => t == t'
  | _, _ => false

/-- `results[k].(T)` of the generated code, for all results: /repo/tool/ferry.gen.go:281. -/
def assertResults : List PTy → List Val → Res (List Val)
  | [], _ => .ok []
  | _ :: _, [] => .panic
  | p :: ps, v :: vs => do
    let w ← if hasType p v then Res.ok v else .panic
    let ws ← assertResults ps vs
    return w :: ws

theorem assertResults_same : ∀ (ps : List PTy) (vs : List Val), ps.length = vs.length →
    (∀ (k : Nat) p v, ps[k]? = some p → vs[k]? = some v → hasType p v = true) → assertResults ps vs = .ok vs := by
  intro ps
  induction ps with
  | nil => intro vs h _; cases vs with
    | nil => rfl
    | cons v vs => cases h
  | cons p ps ih =>
    intro vs h ht
    cases vs with
    | nil => cases h
    | cons v vs =>
      simp only [assertResults]
      rw [if_pos (ht 0 p v rfl rfl), ih vs (by simpa using h) (fun k q w hq hw => ht (k + 1) q w (by simpa using hq)
        (by simpa using hw))]
      rfl

/-- The proxy of a local feature returns what the method returned. -/
theorem C66_local (ps : List PTy) (vs : List Val) (h : ps.length = vs.length)
    (ht : ∀ (k : Nat) p v, ps[k]? = some p → vs[k]? = some v → hasType p v = true) : assertResults ps vs = .ok vs :=
  assertResults_same ps vs h ht

/-- C66 (partial): if all results have the types `bool`, `string` or `float64` and survive the codec, the proxy of a
remote feature returns what the method returned.  Missing: all other types, see `C66_panics_refuted`. -/
theorem C66_returned_partial (ps : List PTy) (vs : List Val) (h : ps.length = vs.length)
    (ht : ∀ (k : Nat) p v, ps[k]? = some p → vs[k]? = some v → hasType p v = true)
    (hp : ∀ p ∈ ps, p = .bool 0 ∨ p = .str 0 ∨ p = .f64 0) (hs : ∀ v ∈ vs, wireOK v = true)
    (i : BitVec 64) (slot meth : Str) (hl : (⟨8, .rpcResponse i slot meth vs []⟩ : Packer).body.bytes.length < 2^32) :
    ∃ bytes vs', marshal ⟨8, .rpcResponse i slot meth vs []⟩ = .ok bytes ∧
      unmarshal bytes = .ok ⟨8, .rpcResponse i slot meth vs' []⟩ ∧ assertResults ps vs' = .ok vs := by
  obtain ⟨bytes, h1, h2⟩ := C21_packet_roundtrip_partial ⟨8, .rpcResponse i slot meth vs []⟩ rfl
    ((wireOKList_iff vs).mpr hs) hl
  refine ⟨bytes, canonList vs, h1, h2, ?_⟩
  have e : canonList vs = vs := by
    rw [canonList_eq]
    refine (List.map_congr_left (g := id) fun v hv => ?_).trans (List.map_id vs)
    obtain ⟨k, hlt, rfl⟩ := List.mem_iff_getElem.mp hv
    have hlt' : k < ps.length := by omega
    have := ht k ps[k] vs[k] (List.getElem?_eq_getElem hlt') (List.getElem?_eq_getElem hlt)
    rcases hp ps[k] (List.getElem_mem hlt') with e | e | e <;> rw [e] at this <;>
      cases hv : vs[k] <;> rw [hv] at this <;> simp [hasType] at this <;> subst this <;> rfl
  rw [e]
  exact assertResults_same ps vs h ht

/-- C66: for which results of basic types the proxy of a remote feature returns the result of the method: exactly for
those which have, after the transfer, the same type as before; for the others it panics. -/
theorem C66_exact (p : PTy) (v : Val) (ht : hasType p v = true) :
    (canon v = v ∧ assertResults [p] (canonList [v]) = .ok [v]) ∨
    (canon v ≠ v ∧ assertResults [p] (canonList [v]) = .panic) := by
  by_cases e : canon v = v
  · refine Or.inl ⟨e, ?_⟩
    simp only [canonList, assertResults, e]
    rw [if_pos ht]
    rfl
  · refine Or.inr ⟨e, ?_⟩
    have hno : hasType p (canon v) = false := by
      cases hb : hasType p (canon v) with
      | false => rfl
      | true =>
        exfalso
        apply e
        have hc := content_canon v
        cases p <;> cases v <;> simp only [hasType, Bool.false_eq_true] at ht
        all_goals
          cases hcv : canon _ <;> rw [hcv] at hb hc <;> simp only [hasType, Bool.false_eq_true] at hb
        all_goals
          simp only [content] at hc
          simp only [beq_iff_eq, Bool.and_eq_true] at ht hb
        · rw [Content.bool.injEq] at hc; rw [← ht, ← hb, hc]
        · obtain ⟨rfl, rfl⟩ := ht
          obtain ⟨rfl, rfl⟩ := hb
          rw [Content.nat.injEq] at hc; rw [BitVec.eq_of_toNat_eq hc]
        · obtain ⟨rfl, rfl⟩ := ht
          obtain ⟨rfl, rfl⟩ := hb
          rw [Content.int.injEq] at hc; rw [BitVec.eq_of_toInt_eq hc]
        · simp [canon] at hcv
        · rw [Content.float.injEq] at hc; rw [← ht, ← hb, hc]
        · rw [Content.str.injEq] at hc; rw [← ht, ← hb, hc]
    simp only [canonList, assertResults]
    rw [hno]
    rfl

/-- C66 (refuted): whatever value a remote method with result type `int`, `uint`, `uintptr` or `float32`, or any named
basic type, returns, the generated proxy panics. -/
theorem C66_panics_refuted (p : PTy) (v : Val) (ht : hasType p v = true)
    (hp : p = .int .int 0 ∨ p = .uint .uint 0 ∨ p = .uint .uintptr 0 ∨ p = .f32 0 ∨
      (∃ t, t ≠ 0 ∧ (p = .bool t ∨ p = .str t ∨ p = .f32 t ∨ p = .f64 t ∨ (∃ k, p = .int k t) ∨ ∃ k, p = .uint k t))) :
    assertResults [p] (canonList [v]) = .panic := by
  refine (C66_exact p v ht).elim (fun he => ?_) (fun he => he.2)
  have e := he.1
  exfalso
  cases v with
  | nil => cases p <;> cases ht
  | bool t b =>
    simp only [canon, Val.bool.injEq] at e
    rw [← e.1] at ht
    rcases hp with rfl | rfl | rfl | rfl | ⟨t, hne, rfl | rfl | rfl | rfl | ⟨k, rfl⟩ | ⟨k, rfl⟩⟩ <;>
      simp [hasType] at ht; exact hne ht
  | uint k t x =>
    obtain ⟨k', x', e', _⟩ := canonNat_uint x.toNat (uint_toNat_lt x)
    have hk : k' ≠ .uint ∧ k' ≠ .uintptr := by
      unfold canonNat at e'
      split at e'
      · cases e'; exact ⟨by decide, by decide⟩
      · split at e'
        · cases e'; exact ⟨by decide, by decide⟩
        · split at e' <;> cases e' <;> exact ⟨by decide, by decide⟩
    rw [canon, e'] at e
    injection e with e1 e2
    subst e1; subst e2
    rcases hp with rfl | rfl | rfl | rfl | ⟨t, hne, rfl | rfl | rfl | rfl | ⟨k, rfl⟩ | ⟨k, rfl⟩⟩ <;>
      simp [hasType] at ht
    · exact hk.1 ht.symm
    · exact hk.2 ht.symm
    · exact hne ht.2
  | int k t x =>
    obtain ⟨k', x', e', _⟩ := canonInt_int x.toInt (int_toInt_bounds x).1 (int_toInt_bounds x).2
    have hk : k' ≠ .int := by
      unfold canonInt at e'
      split at e'
      · cases e'; decide
      · split at e'
        · cases e'; decide
        · split at e' <;> cases e' <;> decide
    rw [canon, e'] at e
    injection e with e1 e2
    subst e1; subst e2
    rcases hp with rfl | rfl | rfl | rfl | ⟨t, hne, rfl | rfl | rfl | rfl | ⟨k, rfl⟩ | ⟨k, rfl⟩⟩ <;>
      simp [hasType] at ht
    · exact hk ht.symm
    · exact hne ht.2
  | f32 t b => simp [canon] at e
  | f64 t b =>
    simp only [canon, Val.f64.injEq] at e
    rw [← e.1] at ht
    rcases hp with rfl | rfl | rfl | rfl | ⟨t, hne, rfl | rfl | rfl | rfl | ⟨k, rfl⟩ | ⟨k, rfl⟩⟩ <;>
      simp [hasType] at ht; exact hne ht
  | str t s =>
    simp only [canon, Val.str.injEq] at e
    rw [← e.1] at ht
    rcases hp with rfl | rfl | rfl | rfl | ⟨t, hne, rfl | rfl | rfl | rfl | ⟨k, rfl⟩ | ⟨k, rfl⟩⟩ <;>
      simp [hasType] at ht; exact hne ht
  | seq ty xs => cases p <;> cases ht
  | map ty kvs => cases p <;> cases ht
  | bad k => cases p <;> cases ht

/-- The method `Add` of /repo/test/math.go returns a float64; the proxy returns it, if it is not 0. -/
example : ∃ bytes vs', marshal ⟨8, .rpcResponse 1 [0x61] [0x62] [.f64 0 0x4008000000000000] []⟩ = .ok bytes ∧
    unmarshal bytes = .ok ⟨8, .rpcResponse 1 [0x61] [0x62] vs' []⟩ ∧
    assertResults [.f64 0] vs' = .ok [.f64 0 0x4008000000000000] := ⟨_, _, rfl, rfl, rfl⟩

/-- C66 (refuted): the same method returns 0: the process of the caller panics while it decodes the response. -/
theorem C66_zero_refuted : ∃ bytes, marshal ⟨8, .rpcResponse 1 [0x61] [0x62] [.f64 0 0] []⟩ = .ok bytes ∧
    unmarshal bytes = .panic := ⟨_, rfl, rfl⟩

end Verif.Props
