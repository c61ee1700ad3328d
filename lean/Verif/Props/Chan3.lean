import Verif.Props.Chan2
import Verif.Chan.Meta
import Verif.Props.Proto1

/-!
# Calls: arguments: C45, C46
-/

namespace Verif.Props

open Verif Verif.Chan Verif.Codec Verif.Proto

/-! ## C45 -/

/-- Rough classes of Go values. -/
inductive ArgClass where
  | bool | integer | float | string | seq | map | other
  deriving DecidableEq

/-- The class of an argument that a Go value has. -/
def argClass : Val → Option ArgClass
  | .nil => none
  | .bool .. => some .bool
  | .uint .. => some .integer
  | .int .. => some .integer
  | .f32 .. => some .float
  | .f64 .. => some .float
  | .str .. => some .string
  | .seq .. => some .seq
  | .map .. => some .map
  | .bad _ => some .other

/-- The class of values a basic parameter type holds. -/
def PTy.class : PTy → Option ArgClass
  | .bool _ => some .bool
  | .uint .. => some .integer
  | .int .. => some .integer
  | .f32 _ => some .float
  | .f64 _ => some .float
  | .str _ => some .string
  | .iface => none
  | .other _ => none

/-- What the language specification allows to be converted to a basic type: numbers to numbers, integers, byte
slices and rune slices to strings, and each class to itself. -/
def ArgClass.mayBecome : ArgClass → ArgClass → Bool
  | .bool, .bool => true
  | .integer, .integer => true
  | .integer, .float => true
  | .integer, .string => true
  | .float, .integer => true
  | .float, .float => true
  | .string, .string => true
  | .seq, .string => true
  | _, _ => false

/-- An argument that cannot be passed: nil, or of a class that cannot be converted to the parameter's. -/
def Unsuitable (p : PTy) (v : Val) : Prop :=
  v = .nil ∨ ∃ c d, PTy.class p = some c ∧ argClass v = some d ∧ ArgClass.mayBecome d c = false

/-- Wrong number of arguments, or an unsuitable one. -/
def WrongArgs (ps : List PTy) (args : List Val) : Prop :=
  args.length ≠ ps.length ∨ ∃ (i : Nat) (p : PTy) (v : Val), ps[i]? = some p ∧ args[i]? = some v ∧ Unsuitable p v

theorem convert_unsuitable (o : Conv) (p : PTy) (v : Val) (h : Unsuitable p v) : convert o p v = .panic := by
  rcases h with rfl | ⟨c, d, h1, h2, h3⟩
  · cases p <;> rfl
  · cases p <;> simp only [PTy.class, Option.some.injEq, reduceCtorEq] at h1 <;> subst h1 <;>
      cases v <;> simp only [argClass, Option.some.injEq, reduceCtorEq] at h2 <;> (try subst h2) <;>
      first | rfl | (exact absurd h3 (by decide))

theorem convertArgs_wrong (o : Conv) : ∀ (ps : List PTy) (args : List Val), WrongArgs ps args →
    convertArgs o ps args = .panic := by
  intro ps
  induction ps with
  | nil =>
    rintro args (h | ⟨i, p, v, h, _⟩)
    · cases args with
      | nil => exact absurd rfl h
      | cons => rfl
    · simp at h
  | cons p ps ih =>
    intro args h
    cases args with
    | nil => rfl
    | cons v args =>
      have conv : convert o p v = .panic ∨ ∃ w, convert o p v = .ok w := by
        unfold convert
        split <;> first | exact .inl rfl | exact .inr ⟨_, rfl⟩ | (split <;> first | exact .inl rfl | exact .inr ⟨_, rfl⟩)
      simp only [convertArgs]
      rcases conv with e | ⟨w, e⟩
      · rw [e]; rfl
      · rw [e]
        have : WrongArgs ps args := by
          rcases h with h | ⟨i, q, x, h1, h2, h3⟩
          · left; simpa using h
          · cases i with
            | zero =>
              simp only [List.getElem?_cons_zero, Option.some.injEq] at h1 h2
              subst h1 h2
              rw [convert_unsuitable o p v h3] at e
              cases e
            | succ i => exact .inr ⟨i, q, x, h1, h2, h3⟩
        rw [ih args this]
        rfl

/-- **C45 refuted, for all methods and arguments.**  When the handler of a feature comes to a call of an existing
method with wrong arguments, the whole process dies: nothing happens any more, and no call is answered. -/
theorem C45_wrong_arguments_kill (o : Conv) (methods : Nat → Str → Option (List PTy)) (acts : List Act)
    (s t : State) (h : run (State.step fun c => targetOf o (methods c)) (State.init fun c => targetOf o (methods c)) acts = some s)
    (c i : Nat) (ps : List PTy) (hq : (s.queue c).head? = some i) (hm : methods c (s.req i).meth = some ps)
    (hw : WrongArgs ps (s.req i).args) (hs : s.step (fun c => targetOf o (methods c)) (.start c) = some t) :
    t.dead = true ∧ (∀ a, t.step (fun c => targetOf o (methods c)) a = none) ∧
      t.done i = false ∧ ∀ k a, t.result k ≠ some (i, a) := by
  have A := (inv_run _ h).1
  have hi : i ∈ s.queue c := List.mem_of_mem_head? hq
  have hd := (A.inQueue c i hi).2.2.2
  have hb : (targetOf o (methods c)).invoke (s.req i).meth (s.req i).args = .panics := by
    simp [Target.invoke, targetOf, hm, convertArgs_wrong o ps _ hw]
  have hr : ∀ k a, s.result k ≠ some (i, a) := by
    intro k a e
    have := (A.result k i a e).1
    rw [hd] at this
    cases this
  unfold State.step at hs
  split at hs
  · cases hs
  simp only at hs
  split at hs
  · rename_i j rest hidle hq'
    rw [hq'] at hq
    cases hq
    rw [hb] at hs
    cases hs
    exact ⟨rfl, fun a => by simp [State.step], hd, hr⟩
  · cases hs

/-- No unmodelled conversions. -/
def plainConv : Conv := ⟨id, id, fun _ _ => none⟩

/-- "a" takes an int8, a string and an `interface{}`. -/
def sigs : Str → Option (List PTy) := fun m => if m = [97] then some [.int .i8 0, .str 0, .iface] else none

/-- **C45 refuted**: one argument too few kills the process, while another call is waiting in the queue. -/
theorem C45_wrong_arguments_refuted :
    ∃ acts s, run (State.step fun _ => targetOf plainConv sigs) (State.init fun _ => targetOf plainConv sigs) acts = some s ∧
      s.dead = true ∧ (s.req 0).args = [.int .int 0 1, .str 0 []] ∧ s.queue 0 = [1] := by
  exact ⟨[.call 0 0 [97] [.int .int 0 1, .str 0 []] none, .push 0, .call 0 1 [97] [.int .int 0 1, .str 0 [], .bool 0 true] none,
    .push 1, .start 0], _, rfl, rfl, rfl, rfl⟩

example : WrongArgs [.int .i8 0, .str 0, .iface] [.int .int 0 1, .str 0 []] ∧
    WrongArgs [.iface] [.nil] ∧ WrongArgs [.int .i8 0] [.str 0 []] := by
  refine ⟨.inl (by decide), .inr ⟨0, .iface, .nil, rfl, rfl, .inl rfl⟩,
    .inr ⟨0, .int .i8 0, .str 0 [], rfl, rfl, .inr ⟨.integer, .string, rfl, rfl, rfl⟩⟩⟩

/-- **C45, the converse.**  Arguments of the right number, not nil and of the classes of the parameters (or for
`interface{}`) are passed: the method is run. -/
theorem C45_right_arguments_accepted (o : Conv) (ps : List PTy) (args : List Val) (hl : args.length = ps.length)
    (h : ∀ (i : Nat) (p : PTy) (v : Val), ps[i]? = some p → args[i]? = some v →
      v ≠ .nil ∧ (p = .iface ∨ ∃ c, PTy.class p = some c ∧ argClass v = some c)) :
    ∃ ws, convertArgs o ps args = .ok ws ∧ ws.length = ps.length := by
  induction ps generalizing args with
  | nil =>
    cases args with
    | nil => exact ⟨[], rfl, rfl⟩
    | cons => simp at hl
  | cons p ps ih =>
    cases args with
    | nil => simp at hl
    | cons v args =>
      obtain ⟨ws, e, el⟩ := ih args (by simpa using hl) (fun i q x h1 h2 => h (i + 1) q x h1 h2)
      obtain ⟨hn, hp⟩ := h 0 p v rfl rfl
      have : ∃ w, convert o p v = .ok w := by
        rcases hp with rfl | ⟨c, h1, h2⟩
        · cases v <;> first | exact absurd rfl hn | exact ⟨_, rfl⟩
        · cases p <;> simp only [PTy.class, Option.some.injEq, reduceCtorEq] at h1 <;> subst h1 <;>
            cases v <;> simp only [argClass, Option.some.injEq, reduceCtorEq] at h2 <;> exact ⟨_, rfl⟩
      obtain ⟨w, hw⟩ := this
      exact ⟨w :: ws, by simp [convertArgs, hw, e], by simp [el]⟩

/-! ## C46 -/

/-- The value of an integer of whatever type. -/
def integerValue : Val → Option Int
  | .int _ _ v => some v.toInt
  | .uint _ _ v => some v.toNat
  | _ => none

/-- The integer type can represent the number. -/
def PTy.holds : PTy → Int → Prop
  | .int k _, z => -2 ^ (k.width - 1) ≤ z ∧ z < 2 ^ (k.width - 1)
  | .uint k _, z => 0 ≤ z ∧ z < 2 ^ k.width
  | _, _ => False

/-- The integer `z` as a value of the integer type `p`. -/
def IsOfType (p : PTy) (z : Int) (w : Val) : Prop :=
  integerValue w = some z ∧ match p, w with
    | .int k t, .int k' t' _ => k' = k ∧ t' = t
    | .uint k t, .uint k' t' _ => k' = k ∧ t' = t
    | _, _ => False

theorem convert_integer (o : Conv) (p : PTy) (v : Val) (z : Int) (hv : integerValue v = some z) (hp : PTy.holds p z) :
    ∃ w, convert o p v = .ok w ∧ IsOfType p z w := by
  have e1 : ∀ (k : IKind) (y : Int), -2 ^ (k.width - 1) ≤ y → y < 2 ^ (k.width - 1) →
      (BitVec.ofInt k.width y).toInt = y := by
    intro k y h1 h2
    rw [BitVec.toInt_ofInt]
    cases k <;> simp only [IKind.width] at h1 h2 ⊢ <;> exact Int.bmod_eq_of_le (by omega) (by omega)
  have e2 : ∀ (k : UKind) (y : Int), 0 ≤ y → y < 2 ^ k.width → ((BitVec.ofInt k.width y).toNat : Int) = y := by
    intro k y h1 h2
    rw [BitVec.toNat_ofInt]
    cases k <;> simp only [UKind.width] at h1 h2 ⊢ <;> omega
  have e3 : ∀ (w n : Nat), BitVec.ofNat w n = BitVec.ofInt w (n : Int) := by
    intro w n; simp
  cases v <;> simp only [integerValue, Option.some.injEq, reduceCtorEq] at hv <;> subst hv <;>
    cases p <;> simp only [PTy.holds] at hp <;> refine ⟨_, rfl, ?_⟩ <;>
    simp only [IsOfType, integerValue, Option.some.injEq, and_true, e3]
  · exact e2 _ _ hp.1 hp.2
  · exact e1 _ _ hp.1 hp.2
  · exact e2 _ _ hp.1 hp.2
  · exact e1 _ _ hp.1 hp.2

theorem isOfType_unique (p : PTy) (z : Int) (w w' : Val) (h : IsOfType p z w) (h' : IsOfType p z w') : w = w' := by
  obtain ⟨h1, h2⟩ := h
  obtain ⟨h1', h2'⟩ := h'
  cases p <;> cases w <;> simp only at h2 <;> cases w' <;> simp only at h2' <;>
    obtain ⟨rfl, rfl⟩ := h2 <;> obtain ⟨rfl, rfl⟩ := h2' <;>
    simp only [integerValue, Option.some.injEq] at h1 h1'
  · congr 1
    apply BitVec.eq_of_toNat_eq
    omega
  · congr 1
    apply BitVec.eq_of_toInt_eq
    omega

theorem integerValue_canon (v : Val) (z : Int) (h : integerValue v = some z) : integerValue (canon v) = some z := by
  have hc := content_canon v
  cases v <;> simp only [integerValue, Option.some.injEq, reduceCtorEq] at h <;> subst h <;>
    simp only [canon, content] at hc ⊢
  · rename_i k t x
    cases e : canonNat x.toNat <;> rw [e] at hc <;> simp_all [content, integerValue]
  · rename_i k t x
    cases e : canonInt x.toInt <;> rw [e] at hc <;> simp_all [content, integerValue]

/-- **C46.**  An integer argument `v` with the value `z`, for a parameter of an integer type that can represent
`z`: locally the method receives `z` in the parameter's type; and when the call crosses the network (marshalled in
a request, at any place among the arguments, and unmarshalled) it receives exactly the same. -/
theorem C46_integer_arguments (o : Conv) (p : PTy) (v : Val) (z : Int) (hv : integerValue v = some z)
    (hp : PTy.holds p z) :
    ∃ w, IsOfType p z w ∧ convert o p v = .ok w ∧
      ∀ (index : BitVec 64) (slot method : Str) (pre post : List Val) (withResult : Bool),
        wireOKList (pre ++ v :: post) = true →
        (⟨7, .rpcRequest index slot method (pre ++ v :: post) withResult⟩ : Packer).body.bytes.length < 2 ^ 32 →
        ∃ bytes args v', marshal ⟨7, .rpcRequest index slot method (pre ++ v :: post) withResult⟩ = .ok bytes ∧
          unmarshal bytes = .ok ⟨7, .rpcRequest index slot method args withResult⟩ ∧
          args[pre.length]? = some v' ∧ convert o p v' = .ok w := by
  obtain ⟨w, hw, ht⟩ := convert_integer o p v z hv hp
  refine ⟨w, ht, hw, ?_⟩
  intro index slot method pre post withResult hs hl
  obtain ⟨bytes, h1, h2⟩ := C21_packet_roundtrip_partial ⟨7, .rpcRequest index slot method (pre ++ v :: post) withResult⟩
    rfl hs hl
  obtain ⟨w', hw', ht'⟩ := convert_integer o p (canon v) z (integerValue_canon v z hv) hp
  refine ⟨bytes, canonList (pre ++ v :: post), canon v, h1, h2, ?_, ?_⟩
  · rw [canonList_eq, List.map_append, List.getElem?_append_right (by simp)]
    simp
  · rw [hw', isOfType_unique p z w' w ht' ht]

/-- 200 as an int for a parameter of type uint8 (it travels as an int16), and -128 as int8 for an int. -/
example : integerValue (.int .int 0 200) = some 200 ∧ PTy.holds (.uint .u8 0) 200 ∧
    wireOKList [.int .int 0 200] = true ∧ canon (.int .int 0 200) = .int .i16 0 200 ∧
    convert plainConv (.uint .u8 0) (.int .i16 0 200) = .ok (.uint .u8 0 200) ∧
    PTy.holds (.int .int 0) (-128) ∧ ¬ PTy.holds (.uint .u8 0) (-1) := by
  refine ⟨rfl, ⟨by decide, by decide⟩, rfl, rfl, rfl, ⟨by decide, by decide⟩, fun h => absurd h.1 (by decide)⟩

end Verif.Props
