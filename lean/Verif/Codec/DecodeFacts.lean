import Verif.Codec.RoundTrip

/-! # What `decode` does on arbitrary bytes -/

namespace Verif.Codec

open Verif

/-! ## Reading -/

theorem readBuf_nil (n : Nat) : readBuf bytesReader [] n = .err .eof := rfl

theorem readBuf_ne {s : List Byte} (h : s ≠ []) (n : Nat) :
    readBuf bytesReader s n = .ok (fill n (s.take n), s.drop n) := by
  simp [readBuf, bytesReader, h]

/-- A multi-byte read: fails at the end of input, otherwise advances by `n`. -/
theorem readUint16_or (s : List Byte) :
    (s = [] ∧ readUint16 bytesReader s = .err .eof) ∨
    (s ≠ [] ∧ ∃ x, readUint16 bytesReader s = .ok (x, s.drop 2)) := by
  by_cases h : s = []
  · subst h; exact Or.inl ⟨rfl, rfl⟩
  · exact Or.inr ⟨h, by simp [readUint16, readBuf_ne h]⟩

theorem readUint32_or (s : List Byte) :
    (s = [] ∧ readUint32 bytesReader s = .err .eof) ∨
    (s ≠ [] ∧ ∃ x, readUint32 bytesReader s = .ok (x, s.drop 4)) := by
  by_cases h : s = []
  · subst h; exact Or.inl ⟨rfl, rfl⟩
  · exact Or.inr ⟨h, by simp [readUint32, readBuf_ne h]⟩

theorem readUint64_or (s : List Byte) :
    (s = [] ∧ readUint64 bytesReader s = .err .eof) ∨
    (s ≠ [] ∧ ∃ x, readUint64 bytesReader s = .ok (x, s.drop 8)) := by
  by_cases h : s = []
  · subst h; exact Or.inl ⟨rfl, rfl⟩
  · exact Or.inr ⟨h, by simp [readUint64, readBuf_ne h]⟩

theorem readByte_or (s : List Byte) :
    (s = [] ∧ readByte bytesReader s = .err .eof) ∨
    (∃ c t, s = c :: t ∧ readByte bytesReader s = .ok (c, t)) := by
  cases s with
  | nil => exact Or.inl ⟨rfl, rfl⟩
  | cons c t => exact Or.inr ⟨c, t, rfl, readByte_cons c t⟩

/-! ## An induction principle over the decoder

`P s r` relates an input to the outcome.  It holds of every run of the decoder if it holds for each leaf
and is preserved by the composite cases. -/

/-- The outcome classes of the leaf cases after the tag. -/
structure DecodeInv (P : List Byte → Res (Val × List Byte) → Prop)
    (PA : Nat → List Byte → Res (List Val × List Byte) → Prop)
    (PM : Nat → List (Val × Val) → List Byte → Res (List (Val × Val) × List Byte) → Prop) : Prop where
  eof : P [] (.err .eof)
  code : ∀ c s, P (c :: s) (.err .unsupportedCode)
  tagEof : ∀ c, P [c] (.err .eof)
  nil : ∀ s, P (cNil :: s) (.ok (.nil, s))
  bool : ∀ c b s, P (c :: s) (.ok (.bool 0 b, s))
  u8 : ∀ c d s, P (c :: d :: s) (.ok (.uint .u8 0 d, s))
  u16 : ∀ c d s, s ≠ [] → P (c :: s) (.ok (.uint .u16 0 d, s.drop 2))
  u32 : ∀ c d s, s ≠ [] → P (c :: s) (.ok (.uint .u32 0 d, s.drop 4))
  u64 : ∀ c d s, s ≠ [] → P (c :: s) (.ok (.uint .u64 0 d, s.drop 8))
  i8 : ∀ c d s, P (c :: d :: s) (.ok (.int .i8 0 d, s))
  i16 : ∀ c d s, s ≠ [] → P (c :: s) (.ok (.int .i16 0 d, s.drop 2))
  i32 : ∀ c d s, s ≠ [] → P (c :: s) (.ok (.int .i32 0 d, s.drop 4))
  i64 : ∀ c d s, s ≠ [] → P (c :: s) (.ok (.int .i64 0 d, s.drop 8))
  str0 : ∀ c s, s ≠ [] → P (c :: s) (.ok (.str 0 [], s.drop 4))
  strEof : ∀ c s, s.length ≤ 4 → P (c :: s) (.err .eof)
  str : ∀ c s n, s ≠ [] → s.drop 4 ≠ [] → n ≠ 0 →
    P (c :: s) (.ok (.str 0 (fill n ((s.drop 4).take n)), (s.drop 4).drop n))
  f32 : ∀ s r, P s r → P (cFloat32 :: s) (r >>= asFloat32)
  f64 : ∀ s r, P s r → P (cFloat64 :: s) (r >>= asFloat64)
  arr : ∀ s n r, s ≠ [] → PA n (s.drop 4) r →
    P (cArr32 :: s) (r >>= fun p => .ok (.seq .ifaceSlice p.1, p.2))
  map : ∀ s n r, s ≠ [] → PM n [] (s.drop 4) r →
    P (cMap32 :: s) (r >>= fun p => .ok (.map .ifaceMap p.1, p.2))
  arrNil : ∀ s, PA 0 s (.ok ([], s))
  arrCons : ∀ n s (r : Res (Val × List Byte)) (g : List Byte → Res (List Val × List Byte)),
    P s r → (∀ v t, r = .ok (v, t) → PA n t (g t)) →
    PA (n + 1) s (r >>= fun p => g p.2 >>= fun q => .ok (p.1 :: q.1, q.2))
  mapNil : ∀ d s, PM 0 d s (.ok (d, s))
  mapCons : ∀ n d s (r : Res (Val × List Byte)) (g : List Byte → Res (Val × List Byte))
      (h : List (Val × Val) → List Byte → Res (List (Val × Val) × List Byte)),
    P s r → (∀ k t, r = .ok (k, t) → P t (g t)) →
    (∀ k t v u, r = .ok (k, t) → g t = .ok (v, u) → hashable k = true →
      PM n (assign k v d) u (h (assign k v d) u)) →
    PM (n + 1) d s (r >>= fun p => g p.2 >>= fun q =>
      if hashable p.1 then h (assign p.1 q.1 d) q.2 else .panic)

section
variable {P : List Byte → Res (Val × List Byte) → Prop}
  {PA : Nat → List Byte → Res (List Val × List Byte) → Prop}
  {PM : Nat → List (Val × Val) → List Byte → Res (List (Val × Val) × List Byte) → Prop}

theorem DecodeInv.array (I : DecodeInv P PA PM) (dec : List Byte → Res (Val × List Byte))
    (hd : ∀ s, P s (dec s)) : ∀ n s, PA n s (decodeArray dec n s)
  | 0, s => I.arrNil s
  | n + 1, s => I.arrCons n s (dec s) (decodeArray dec n) (hd s) (fun _ t _ => I.array dec hd n t)

theorem DecodeInv.mapLoop (I : DecodeInv P PA PM) (dec : List Byte → Res (Val × List Byte))
    (hd : ∀ s, P s (dec s)) : ∀ n d s, PM n d s (decodeMap dec n d s)
  | 0, d, s => I.mapNil d s
  | n + 1, d, s => I.mapCons n d s (dec s) dec (decodeMap dec n) (hd s) (fun _ t _ => hd t)
      (fun _ _ _ _ _ _ _ => I.mapLoop dec hd n _ _)

/-- One unfolding of the decoder on a non-empty input satisfies `P` if the recursive decoder does. -/
theorem DecodeInv.step (I : DecodeInv P PA PM) (f : Nat) (hd : ∀ s, P s (decodeF bytesReader f s)) :
    ∀ s, P s (decodeF bytesReader (f + 1) s) := by
  intro s
  rcases readByte_or s with ⟨rfl, h⟩ | ⟨c, t, rfl, h⟩
  · rw [decodeF, h]; exact I.eof
  rw [decodeF, h]
  change P (c :: t) (decodeTag bytesReader (decodeF bytesReader f) c t)
  unfold decodeTag
  by_cases hc : c = cNil
  · rw [if_pos hc]
    subst hc; exact I.nil t
  rw [if_neg hc]
  by_cases hc : c = cFalse
  · rw [if_pos hc]
    exact I.bool c _ t
  rw [if_neg hc]
  by_cases hc : c = cTrue
  · rw [if_pos hc]
    exact I.bool c _ t
  rw [if_neg hc]
  by_cases hc : c = cFloat32
  · rw [if_pos hc]
    subst hc; exact I.f32 t _ (hd t)
  rw [if_neg hc]
  by_cases hc : c = cFloat64
  · rw [if_pos hc]
    subst hc; exact I.f64 t _ (hd t)
  rw [if_neg hc]
  by_cases hc : c = cUint8
  · rw [if_pos hc]
    rcases readByte_or t with ⟨rfl, h⟩ | ⟨d, u, rfl, h⟩
    · rw [h]; exact I.tagEof c
    · rw [h]; exact I.u8 c d u
  rw [if_neg hc]
  by_cases hc : c = cUint16
  · rw [if_pos hc]
    rcases readUint16_or t with ⟨rfl, h⟩ | ⟨hne, d, h⟩
    · rw [h]; exact I.tagEof c
    · rw [h]; exact I.u16 c d t hne
  rw [if_neg hc]
  by_cases hc : c = cUint32
  · rw [if_pos hc]
    rcases readUint32_or t with ⟨rfl, h⟩ | ⟨hne, d, h⟩
    · rw [h]; exact I.tagEof c
    · rw [h]; exact I.u32 c d t hne
  rw [if_neg hc]
  by_cases hc : c = cUint64
  · rw [if_pos hc]
    rcases readUint64_or t with ⟨rfl, h⟩ | ⟨hne, d, h⟩
    · rw [h]; exact I.tagEof c
    · rw [h]; exact I.u64 c d t hne
  rw [if_neg hc]
  by_cases hc : c = cInt8
  · rw [if_pos hc]
    rcases readByte_or t with ⟨rfl, h⟩ | ⟨d, u, rfl, h⟩
    · rw [h]; exact I.tagEof c
    · rw [h]; exact I.i8 c d u
  rw [if_neg hc]
  by_cases hc : c = cInt16
  · rw [if_pos hc]
    rcases readUint16_or t with ⟨rfl, h⟩ | ⟨hne, d, h⟩
    · rw [h]; exact I.tagEof c
    · rw [h]; exact I.i16 c d t hne
  rw [if_neg hc]
  by_cases hc : c = cInt32
  · rw [if_pos hc]
    rcases readUint32_or t with ⟨rfl, h⟩ | ⟨hne, d, h⟩
    · rw [h]; exact I.tagEof c
    · rw [h]; exact I.i32 c d t hne
  rw [if_neg hc]
  by_cases hc : c = cInt64
  · rw [if_pos hc]
    rcases readUint64_or t with ⟨rfl, h⟩ | ⟨hne, d, h⟩
    · rw [h]; exact I.tagEof c
    · rw [h]; exact I.i64 c d t hne
  rw [if_neg hc]
  by_cases hc : c = cStr32
  · rw [if_pos hc]
    rcases readUint32_or t with ⟨rfl, h⟩ | ⟨hne, n, h⟩
    · rw [h]; exact I.tagEof c
    · rw [h]
      simp only [Res.bind_ok]
      split
      · exact I.str0 c t hne
      · rename_i hn
        by_cases h4 : t.drop 4 = []
        · rw [h4, readBuf_nil]
          exact I.strEof c t (by simpa using h4)
        · rw [readBuf_ne h4]
          exact I.str c t n.toNat hne h4 hn
  rw [if_neg hc]
  by_cases hc : c = cArr32
  · rw [if_pos hc]
    subst hc
    rcases readUint32_or t with ⟨rfl, h⟩ | ⟨hne, n, h⟩
    · rw [h]; exact I.tagEof _
    · rw [h]
      exact I.arr t n.toNat _ hne (I.array _ hd n.toNat (t.drop 4))
  rw [if_neg hc]
  by_cases hc : c = cMap32
  · rw [if_pos hc]
    subst hc
    rcases readUint32_or t with ⟨rfl, h⟩ | ⟨hne, n, h⟩
    · rw [h]; exact I.tagEof _
    · rw [h]
      exact I.map t n.toNat _ hne (I.mapLoop _ hd n.toNat [] (t.drop 4))
  · rw [if_neg hc]; exact I.code c t

theorem DecodeInv.all (I : DecodeInv P PA PM) (h0 : ∀ s, P s .diverge) :
    ∀ f s, P s (decodeF bytesReader f s)
  | 0, s => h0 s
  | f + 1, s => I.step f (I.all h0 f) s

end

/-! ## Consumption and size -/

mutual
/-- Number of values in a value, itself included. -/
def Val.nodes : Val → Nat
  | .seq _ xs => 1 + nodesList xs
  | .map _ kvs => 1 + nodesEntries kvs
  | _ => 1

def nodesList : List Val → Nat
  | [] => 0
  | x :: xs => x.nodes + nodesList xs

def nodesEntries : List (Val × Val) → Nat
  | [] => 0
  | (k, v) :: rest => k.nodes + v.nodes + nodesEntries rest
end

theorem nodesEntries_assign (k v : Val) (d : List (Val × Val)) :
    nodesEntries (assign k v d) ≤ k.nodes + v.nodes + nodesEntries d := by
  induction d with
  | nil => simp [assign, nodesEntries]
  | cons x xs ih =>
    obtain ⟨k', v'⟩ := x
    rw [assign]
    split
    · simp only [nodesEntries]; omega
    · simp only [nodesEntries]; omega

/-- On success the input is what was consumed followed by what is left, and the value has at most as many
nodes as bytes were consumed. -/
def Consumes (s : List Byte) (r : Res (Val × List Byte)) : Prop :=
  ∀ v t, r = .ok (v, t) → t <:+ s ∧ v.nodes + t.length ≤ s.length

theorem Val.nodes_pos (v : Val) : 1 ≤ v.nodes := by
  cases v <;> simp [Val.nodes]

private theorem consumes_drop {v : Val} (hv : v.nodes = 1) (c : Byte) (s : List Byte) (k : Nat) :
    Consumes (c :: s) (.ok (v, s.drop k)) := by
  intro v' t h
  cases h
  refine ⟨(List.drop_suffix k s).trans (List.suffix_cons c s), ?_⟩
  simp [hv]; omega

theorem consumes_inv : DecodeInv Consumes
    (fun _ s r => ∀ vs t, r = .ok (vs, t) → t <:+ s ∧ nodesList vs + t.length ≤ s.length)
    (fun _ d s r => ∀ kvs t, r = .ok (kvs, t) →
      t <:+ s ∧ nodesEntries kvs + t.length ≤ s.length + nodesEntries d) where
  eof := by intro v t h; cases h
  code := by intro c s v t h; cases h
  tagEof := by intro c v t h; cases h
  nil s := consumes_drop rfl _ s 0
  bool c b s := consumes_drop rfl c s 0
  u8 c d s := consumes_drop (s := d :: s) rfl c 1
  u16 c d s _ := consumes_drop rfl c s 2
  u32 c d s _ := consumes_drop rfl c s 4
  u64 c d s _ := consumes_drop rfl c s 8
  i8 c d s := consumes_drop (s := d :: s) rfl c 1
  i16 c d s _ := consumes_drop rfl c s 2
  i32 c d s _ := consumes_drop rfl c s 4
  i64 c d s _ := consumes_drop rfl c s 8
  str0 c s _ := consumes_drop rfl c s 4
  strEof := by intro c s _ v t h; cases h
  str c s n _ _ _ := by rw [List.drop_drop]; exact consumes_drop rfl c s (4 + n)
  f32 := by
    intro s r h v t hr
    cases r with
    | ok p =>
      obtain ⟨h1, h2⟩ := h p.1 p.2 rfl
      simp only [Res.bind_ok, asFloat32] at hr
      split at hr
      · cases hr
        refine ⟨h1.trans (List.suffix_cons _ _), ?_⟩
        have := p.1.nodes_pos
        simp [Val.nodes]; omega
      · cases hr
    | _ => cases hr
  f64 := by
    intro s r h v t hr
    cases r with
    | ok p =>
      obtain ⟨h1, h2⟩ := h p.1 p.2 rfl
      simp only [Res.bind_ok, asFloat64] at hr
      split at hr
      · cases hr
        refine ⟨h1.trans (List.suffix_cons _ _), ?_⟩
        have := p.1.nodes_pos
        simp [Val.nodes]; omega
      · cases hr
    | _ => cases hr
  arr := by
    intro s n r _ h v t hr
    cases r with
    | ok p =>
      obtain ⟨h1, h2⟩ := h p.1 p.2 rfl
      cases hr
      refine ⟨(h1.trans (List.drop_suffix 4 s)).trans (List.suffix_cons _ _), ?_⟩
      simp [Val.nodes] at h2 ⊢; omega
    | _ => cases hr
  map := by
    intro s n r _ h v t hr
    cases r with
    | ok p =>
      obtain ⟨h1, h2⟩ := h p.1 p.2 rfl
      cases hr
      refine ⟨(h1.trans (List.drop_suffix 4 s)).trans (List.suffix_cons _ _), ?_⟩
      simp [Val.nodes, nodesEntries] at h2 ⊢; omega
    | _ => cases hr
  arrNil := by
    intro s vs t h
    cases h
    exact ⟨List.suffix_refl _, by simp [nodesList]⟩
  arrCons := by
    intro n s r g h hg vs t hr
    cases r with
    | ok p =>
      obtain ⟨h1, h2⟩ := h p.1 p.2 rfl
      simp only [Res.bind_ok] at hr
      have hg' := hg p.1 p.2 rfl
      cases hgt : g p.2 with
      | ok q =>
        rw [hgt] at hr
        obtain ⟨h3, h4⟩ := hg' q.1 q.2 (by rw [hgt])
        cases hr
        refine ⟨h3.trans h1, ?_⟩
        simp [nodesList]; omega
      | _ => rw [hgt] at hr; cases hr
    | _ => cases hr
  mapNil := by
    intro d s kvs t h
    cases h
    exact ⟨List.suffix_refl _, by omega⟩
  mapCons := by
    intro n d s r g h hr hg hh kvs t heq
    cases r with
    | ok p =>
      obtain ⟨h1, h2⟩ := hr p.1 p.2 rfl
      simp only [Res.bind_ok] at heq
      have hg' := hg p.1 p.2 rfl
      cases hgt : g p.2 with
      | ok q =>
        rw [hgt] at heq hg'
        obtain ⟨h3, h4⟩ := hg' q.1 q.2 rfl
        simp only [Res.bind_ok] at heq
        split at heq
        · rename_i hk
          obtain ⟨h5, h6⟩ := hh p.1 p.2 q.1 q.2 rfl hgt hk kvs t heq
          refine ⟨(h5.trans h3).trans h1, ?_⟩
          have := nodesEntries_assign p.1 q.1 d
          omega
        · cases heq
      | _ => rw [hgt] at heq; cases heq
    | _ => cases heq

theorem decodeF_consumes (f : Nat) (s : List Byte) : Consumes s (decodeF bytesReader f s) :=
  consumes_inv.all (by intro s v t h; cases h) f s

/-! ## Fuel -/

theorem decodeArray_ne_diverge {dec : List Byte → Res (Val × List Byte)} {m : Nat}
    (hd : ∀ s, s.length ≤ m → dec s ≠ .diverge) (hc : ∀ s, Consumes s (dec s)) :
    ∀ n s, s.length ≤ m → decodeArray dec n s ≠ .diverge := by
  intro n
  induction n with
  | zero => intro s _ h; cases h
  | succ n ih =>
    intro s hs h
    rw [decodeArray] at h
    cases hr : dec s with
    | ok p =>
      have := hc s p.1 p.2 hr
      have h2 := ih p.2 (by omega)
      rw [hr] at h
      simp only [Res.bind_ok] at h
      cases hr2 : decodeArray dec n p.2 with
      | diverge => exact h2 hr2
      | _ => rw [hr2] at h; cases h
    | diverge => exact hd s hs hr
    | _ => rw [hr] at h; cases h

theorem decodeMap_ne_diverge {dec : List Byte → Res (Val × List Byte)} {m : Nat}
    (hd : ∀ s, s.length ≤ m → dec s ≠ .diverge) (hc : ∀ s, Consumes s (dec s)) :
    ∀ n d s, s.length ≤ m → decodeMap dec n d s ≠ .diverge := by
  intro n
  induction n with
  | zero => intro d s _ h; cases h
  | succ n ih =>
    intro d s hs h
    rw [decodeMap] at h
    cases hr : dec s with
    | ok p =>
      have := hc s p.1 p.2 hr
      have h2 := hd p.2 (by omega)
      rw [hr] at h
      simp only [Res.bind_ok] at h
      cases hr2 : dec p.2 with
      | diverge => exact h2 hr2
      | ok q =>
        have := hc p.2 q.1 q.2 hr2
        rw [hr2] at h
        simp only [Res.bind_ok] at h
        split at h
        · exact ih _ q.2 (by omega) h
        · cases h
      | _ => rw [hr2] at h; cases h
    | diverge => exact hd s hs hr
    | _ => rw [hr] at h; cases h

theorem bind_asFloat32_diverge {r : Res (Val × List Byte)} (h : r ≠ .diverge) :
    (r >>= asFloat32) ≠ .diverge := by
  cases r with
  | ok p => simp only [Res.bind_ok, asFloat32]; split <;> simp
  | diverge => exact absurd rfl h
  | _ => simp

theorem bind_asFloat64_diverge {r : Res (Val × List Byte)} (h : r ≠ .diverge) :
    (r >>= asFloat64) ≠ .diverge := by
  cases r with
  | ok p => simp only [Res.bind_ok, asFloat64]; split <;> simp
  | diverge => exact absurd rfl h
  | _ => simp

theorem bind_ok_diverge {α β : Type} {r : Res α} {f : α → β} (h : r ≠ .diverge) :
    (r >>= fun p => Res.ok (f p)) ≠ .diverge := by
  cases r with
  | diverge => exact absurd rfl h
  | _ => simp

theorem decodeF_ne_diverge (f : Nat) (s : List Byte) (h : s.length < f) :
    decodeF bytesReader f s ≠ .diverge := by
  induction f generalizing s with
  | zero => omega
  | succ f ih =>
    have hd : ∀ s', s'.length ≤ s.length - 1 → s ≠ [] → decodeF bytesReader f s' ≠ .diverge := by
      intro s' hs' hne
      have : 0 < s.length := List.length_pos_iff.mpr hne
      exact ih s' (by omega)
    rcases readByte_or s with ⟨rfl, hb⟩ | ⟨c, t, rfl, hb⟩
    · rw [decodeF, hb]; simp
    rw [decodeF, hb]
    change decodeTag bytesReader (decodeF bytesReader f) c t ≠ .diverge
    unfold decodeTag
    simp only [List.length_cons, Nat.add_sub_cancel, ne_eq, reduceCtorEq, not_false_eq_true,
      forall_const] at hd
    by_cases hc : c = cNil
    · rw [if_pos hc]
      simp
    rw [if_neg hc]
    by_cases hc : c = cFalse
    · rw [if_pos hc]
      simp
    rw [if_neg hc]
    by_cases hc : c = cTrue
    · rw [if_pos hc]
      simp
    rw [if_neg hc]
    by_cases hc : c = cFloat32
    · rw [if_pos hc]
      exact bind_asFloat32_diverge (hd t (by omega))
    rw [if_neg hc]
    by_cases hc : c = cFloat64
    · rw [if_pos hc]
      exact bind_asFloat64_diverge (hd t (by omega))
    rw [if_neg hc]
    by_cases hc : c = cUint8
    · rw [if_pos hc]
      rcases readByte_or t with ⟨rfl, h⟩ | ⟨d, u, rfl, h⟩ <;> rw [h] <;> simp
    rw [if_neg hc]
    by_cases hc : c = cUint16
    · rw [if_pos hc]
      rcases readUint16_or t with ⟨rfl, h⟩ | ⟨hne, d, h⟩ <;> rw [h] <;> simp
    rw [if_neg hc]
    by_cases hc : c = cUint32
    · rw [if_pos hc]
      rcases readUint32_or t with ⟨rfl, h⟩ | ⟨hne, d, h⟩ <;> rw [h] <;> simp
    rw [if_neg hc]
    by_cases hc : c = cUint64
    · rw [if_pos hc]
      rcases readUint64_or t with ⟨rfl, h⟩ | ⟨hne, d, h⟩ <;> rw [h] <;> simp
    rw [if_neg hc]
    by_cases hc : c = cInt8
    · rw [if_pos hc]
      rcases readByte_or t with ⟨rfl, h⟩ | ⟨d, u, rfl, h⟩ <;> rw [h] <;> simp
    rw [if_neg hc]
    by_cases hc : c = cInt16
    · rw [if_pos hc]
      rcases readUint16_or t with ⟨rfl, h⟩ | ⟨hne, d, h⟩ <;> rw [h] <;> simp
    rw [if_neg hc]
    by_cases hc : c = cInt32
    · rw [if_pos hc]
      rcases readUint32_or t with ⟨rfl, h⟩ | ⟨hne, d, h⟩ <;> rw [h] <;> simp
    rw [if_neg hc]
    by_cases hc : c = cInt64
    · rw [if_pos hc]
      rcases readUint64_or t with ⟨rfl, h⟩ | ⟨hne, d, h⟩ <;> rw [h] <;> simp
    rw [if_neg hc]
    by_cases hc : c = cStr32
    · rw [if_pos hc]
      rcases readUint32_or t with ⟨rfl, h⟩ | ⟨hne, n, h⟩
      · rw [h]; simp
      · rw [h]
        simp only [Res.bind_ok]
        split
        · simp
        · by_cases h4 : t.drop 4 = []
          · rw [h4, readBuf_nil]; simp
          · rw [readBuf_ne h4]; simp
    rw [if_neg hc]
    by_cases hc : c = cArr32
    · rw [if_pos hc]
      rcases readUint32_or t with ⟨rfl, h⟩ | ⟨hne, n, h⟩
      · rw [h]; simp
      · rw [h]
        exact bind_ok_diverge (decodeArray_ne_diverge (m := t.length) hd (decodeF_consumes f) _ _ (by simp))
    rw [if_neg hc]
    by_cases hc : c = cMap32
    · rw [if_pos hc]
      rcases readUint32_or t with ⟨rfl, h⟩ | ⟨hne, n, h⟩
      · rw [h]; simp
      · rw [h]
        exact bind_ok_diverge (decodeMap_ne_diverge (m := t.length) hd (decodeF_consumes f) _ _ _ (by simp))
    · rw [if_neg hc]; simp

theorem decode_ne_diverge (s : List Byte) : decode s ≠ .diverge :=
  decodeF_ne_diverge _ s (by omega)

/-! ### More fuel does not change an outcome -/

theorem decodeArray_congr {dec dec' : List Byte → Res (Val × List Byte)}
    (hd : ∀ s, dec s ≠ .diverge → dec' s = dec s) :
    ∀ n s, decodeArray dec n s ≠ .diverge → decodeArray dec' n s = decodeArray dec n s := by
  intro n
  induction n with
  | zero => intro s _; rfl
  | succ n ih =>
    intro s hs
    rw [decodeArray] at hs ⊢
    have h1 : dec s ≠ .diverge := by intro h; rw [h] at hs; exact hs rfl
    rw [decodeArray, hd s h1]
    cases hr : dec s with
    | ok p =>
      rw [hr] at hs
      simp only [Res.bind_ok] at hs ⊢
      have h2 : decodeArray dec n p.2 ≠ .diverge := by intro h; rw [h] at hs; exact hs rfl
      rw [ih p.2 h2]
    | _ => rfl

theorem decodeMap_congr {dec dec' : List Byte → Res (Val × List Byte)}
    (hd : ∀ s, dec s ≠ .diverge → dec' s = dec s) :
    ∀ n d s, decodeMap dec n d s ≠ .diverge → decodeMap dec' n d s = decodeMap dec n d s := by
  intro n
  induction n with
  | zero => intro d s _; rfl
  | succ n ih =>
    intro d s hs
    rw [decodeMap] at hs ⊢
    have h1 : dec s ≠ .diverge := by intro h; rw [h] at hs; exact hs rfl
    rw [decodeMap, hd s h1]
    cases hr : dec s with
    | ok p =>
      rw [hr] at hs
      simp only [Res.bind_ok] at hs ⊢
      have h2 : dec p.2 ≠ .diverge := by intro h; rw [h] at hs; exact hs rfl
      rw [hd p.2 h2]
      cases hr2 : dec p.2 with
      | ok q =>
        rw [hr2] at hs
        simp only [Res.bind_ok] at hs ⊢
        split
        · rename_i hk
          rw [if_pos hk] at hs
          exact ih _ _ hs
        · rfl
      | _ => rfl
    | _ => rfl

theorem bind_congr_ne {α β : Type} {r r' : Res α} {f : α → Res β} (h : r ≠ .diverge → r' = r)
    (hb : (r >>= f) ≠ .diverge) : (r' >>= f) = (r >>= f) := by
  rw [h]
  intro hr; rw [hr] at hb; exact hb rfl

theorem decodeTag_congr {dec dec' : List Byte → Res (Val × List Byte)}
    (hd : ∀ s, dec s ≠ .diverge → dec' s = dec s) (c : Byte) (s : List Byte)
    (h : decodeTag bytesReader dec c s ≠ .diverge) :
    decodeTag bytesReader dec' c s = decodeTag bytesReader dec c s := by
  unfold decodeTag at h ⊢
  by_cases hc : c = cNil
  · rw [if_pos hc, if_pos hc]
  rw [if_neg hc] at h ⊢; rw [if_neg hc]
  by_cases hc : c = cFalse
  · rw [if_pos hc, if_pos hc]
  rw [if_neg hc] at h ⊢; rw [if_neg hc]
  by_cases hc : c = cTrue
  · rw [if_pos hc, if_pos hc]
  rw [if_neg hc] at h ⊢; rw [if_neg hc]
  by_cases hc : c = cFloat32
  · rw [if_pos hc] at h ⊢; rw [if_pos hc]; exact bind_congr_ne (hd s) h
  rw [if_neg hc] at h ⊢; rw [if_neg hc]
  by_cases hc : c = cFloat64
  · rw [if_pos hc] at h ⊢; rw [if_pos hc]; exact bind_congr_ne (hd s) h
  rw [if_neg hc] at h ⊢; rw [if_neg hc]
  by_cases hc : c = cUint8
  · rw [if_pos hc, if_pos hc]
  rw [if_neg hc] at h ⊢; rw [if_neg hc]
  by_cases hc : c = cUint16
  · rw [if_pos hc, if_pos hc]
  rw [if_neg hc] at h ⊢; rw [if_neg hc]
  by_cases hc : c = cUint32
  · rw [if_pos hc, if_pos hc]
  rw [if_neg hc] at h ⊢; rw [if_neg hc]
  by_cases hc : c = cUint64
  · rw [if_pos hc, if_pos hc]
  rw [if_neg hc] at h ⊢; rw [if_neg hc]
  by_cases hc : c = cInt8
  · rw [if_pos hc, if_pos hc]
  rw [if_neg hc] at h ⊢; rw [if_neg hc]
  by_cases hc : c = cInt16
  · rw [if_pos hc, if_pos hc]
  rw [if_neg hc] at h ⊢; rw [if_neg hc]
  by_cases hc : c = cInt32
  · rw [if_pos hc, if_pos hc]
  rw [if_neg hc] at h ⊢; rw [if_neg hc]
  by_cases hc : c = cInt64
  · rw [if_pos hc, if_pos hc]
  rw [if_neg hc] at h ⊢; rw [if_neg hc]
  by_cases hc : c = cStr32
  · rw [if_pos hc, if_pos hc]
  rw [if_neg hc] at h ⊢; rw [if_neg hc]
  by_cases hc : c = cArr32
  · rw [if_pos hc] at h ⊢; rw [if_pos hc]
    rcases readUint32_or s with ⟨rfl, hr⟩ | ⟨hne, n, hr⟩
    · rw [hr]; rfl
    · rw [hr] at h ⊢
      exact bind_congr_ne (decodeArray_congr hd _ _) h
  rw [if_neg hc] at h ⊢; rw [if_neg hc]
  by_cases hc : c = cMap32
  · rw [if_pos hc] at h ⊢; rw [if_pos hc]
    rcases readUint32_or s with ⟨rfl, hr⟩ | ⟨hne, n, hr⟩
    · rw [hr]; rfl
    · rw [hr] at h ⊢
      exact bind_congr_ne (decodeMap_congr hd _ _ _) h
  rw [if_neg hc, if_neg hc]

theorem decodeF_succ (f : Nat) : ∀ s, decodeF bytesReader f s ≠ .diverge →
    decodeF bytesReader (f + 1) s = decodeF bytesReader f s := by
  induction f with
  | zero => intro s h; exact absurd rfl h
  | succ f ih =>
    intro s hs
    rw [decodeF] at hs
    rw [decodeF]
    conv => rhs; rw [decodeF]
    cases hb : readByte bytesReader s with
    | ok p =>
      rw [hb] at hs
      exact decodeTag_congr ih p.1 p.2 hs
    | _ => rfl

theorem decodeF_mono {f g : Nat} (h : f ≤ g) (s : List Byte) (hs : decodeF bytesReader f s ≠ .diverge) :
    decodeF bytesReader g s = decodeF bytesReader f s := by
  obtain ⟨k, rfl⟩ := Nat.exists_eq_add_of_le h
  induction k with
  | zero => rfl
  | succ k ih =>
    have := ih (by omega)
    rw [← Nat.add_assoc, decodeF_succ (f + k) s (by rw [this]; exact hs), this]

/-- With any sufficient fuel the decoder behaves as `decode`. -/
theorem decodeF_eq_decode {f : Nat} {s : List Byte} (h : s.length < f) :
    decodeF bytesReader f s = decode s :=
  decodeF_mono (by omega) s (decode_ne_diverge s)

end Verif.Codec
