import Verif.Props.Codec4

/-! # C13, C14: maps -/

namespace Verif.Props

open Verif Verif.Codec

/-! ## C13 Map encoding is order independent -/

/-- `Reord v w`: the same Go value with the entries of its maps, at any depth, listed in other orders.
(Keys need no rule: a hashable key contains no map.) -/
inductive Reord : Val → Val → Prop
  | refl (v : Val) : Reord v v
  | trans {u v w : Val} : Reord u v → Reord v w → Reord u w
  | perm {ty : MapTy} {kvs kvs' : List (Val × Val)} : kvs.Perm kvs' → Reord (.map ty kvs) (.map ty kvs')
  | elem {ty : SeqTy} {pre post : List Val} {x y : Val} : Reord x y →
      Reord (.seq ty (pre ++ x :: post)) (.seq ty (pre ++ y :: post))
  | value {ty : MapTy} {pre post : List (Val × Val)} {k x y : Val} : Reord x y →
      Reord (.map ty (pre ++ (k, x) :: post)) (.map ty (pre ++ (k, y) :: post))

/-- C13 fails: with the keys int8(1) and int16(1) the entry written last wins, so the order shows. -/
theorem C13_order_independence_refuted :
    let a : Val × Val := (.int .i8 0 1, .str 0 [97])
    let b : Val × Val := (.int .i16 0 1, .str 0 [98])
    Reord (.map .ifaceMap [a, b]) (.map .ifaceMap [b, a]) ∧
    decode (encode (.map .ifaceMap [a, b])).bytes = .ok (.map .ifaceMap [(.int .i8 0 1, .str 0 [98])], []) ∧
    decode (encode (.map .ifaceMap [b, a])).bytes = .ok (.map .ifaceMap [(.int .i8 0 1, .str 0 [97])], []) := by
  intro a b
  exact ⟨.perm (List.Perm.swap b a []), by decide +kernel, by decide +kernel⟩

private theorem reord_scalar {v w : Val} (h : Reord v w) :
    v = w ∨ (isScalar v = false ∧ isScalar w = false) := by
  induction h with
  | refl v => exact Or.inl rfl
  | trans _ _ ih1 ih2 =>
    rcases ih1 with rfl | h1
    · exact ih2
    · rcases ih2 with rfl | h2
      · exact Or.inr h1
      · exact Or.inr ⟨h1.1, h2.2⟩
  | perm _ => exact Or.inr ⟨rfl, rfl⟩
  | elem _ _ => exact Or.inr ⟨rfl, rfl⟩
  | value _ _ => exact Or.inr ⟨rfl, rfl⟩

private theorem distinctKeys_perm {ks ks' : List Val} (hp : ks.Perm ks') (h : distinctKeys ks = true) :
    distinctKeys ks' = true := by
  rw [distinctKeys_iff] at h ⊢
  exact hp.pairwise h (fun {a b} hab => by rw [goEq_comm]; exact hab)

private theorem reord_canon {v w : Val} (h : Reord v w) (hv : wireOK v = true) :
    wireOK w = true ∧ Reord (canon v) (canon w) := by
  induction h with
  | refl v => exact ⟨hv, .refl _⟩
  | trans _ _ ih1 ih2 =>
    obtain ⟨h1, r1⟩ := ih1 hv
    obtain ⟨h2, r2⟩ := ih2 h1
    exact ⟨h2, .trans r1 r2⟩
  | @perm ty kvs kvs' hp =>
    simp only [wireOK, Bool.and_eq_true, decide_eq_true_eq, wireOKEntries_iff, canonEntries_eq] at hv ⊢
    refine ⟨⟨⟨hp.length_eq ▸ hv.1.1, fun kv hkv => hv.1.2 kv (hp.mem_iff.mpr hkv)⟩, ?_⟩, ?_⟩
    · exact distinctKeys_perm ((hp.map _).map _) hv.2
    · simp only [canon, canonEntries_eq]
      exact .perm (hp.map _)
  | @elem ty pre post x y _ ih =>
    simp only [wireOK, Bool.and_eq_true, decide_eq_true_eq, wireOKList_iff, List.length_append,
      List.length_cons] at hv ⊢
    obtain ⟨hy, ry⟩ := ih (hv.2 x (by simp))
    refine ⟨⟨hv.1, fun z hz => ?_⟩, ?_⟩
    · rcases List.mem_append.mp hz with hz | hz
      · exact hv.2 z (by simp [hz])
      · rcases List.mem_cons.mp hz with rfl | hz
        · exact hy
        · exact hv.2 z (by simp [hz])
    · simp only [canon, canonList_eq, List.map_append, List.map_cons]
      exact .elem ry
  | @value ty pre post k x y hxy ih =>
    simp only [wireOK, Bool.and_eq_true, decide_eq_true_eq, wireOKEntries_iff, canonEntries_eq,
      List.length_append, List.length_cons, List.map_append, List.map_cons] at hv ⊢
    have hk := hv.1.2 (k, x) (by simp)
    obtain ⟨hy, ry⟩ := ih (by simp_all)
    refine ⟨⟨⟨hv.1.1, fun z hz => ?_⟩, hv.2⟩, ?_⟩
    · rcases List.mem_append.mp hz with hz | hz
      · exact hv.1.2 z (by simp [hz])
      · rcases List.mem_cons.mp hz with rfl | hz
        · refine ⟨hk.1, hk.2.1, ?_, hy⟩
          rcases hk.2.2.1 with h | h
          · exact Or.inl h
          · dsimp only at h
            subst h
            rcases reord_scalar hxy with h | h
            · exact Or.inr h.symm
            · cases h.1
        · exact hv.1.2 z (by simp [hz])
    · simp only [canon, canonEntries_eq, List.map_append, List.map_cons]
      exact .value ry

private theorem reord_top {v w : Val} (h : Reord v w) (hv : topOK v = true) :
    topOK w = true ∧ Reord (canonTop v) (canonTop w) := by
  rcases reord_scalar h with rfl | ⟨h1, h2⟩
  · exact ⟨hv, .refl _⟩
  · have t1 : topOK v = wireOK v ∧ canonTop v = canon v := by cases v <;> first | exact ⟨rfl, rfl⟩ | cases h1
    have t2 : topOK w = wireOK w ∧ canonTop w = canon w := by cases w <;> first | exact ⟨rfl, rfl⟩ | cases h2
    rw [t1.1] at hv
    rw [t2.1, t1.2, t2.2]
    exact reord_canon h hv

private theorem lookup_perm {d d' : List (Val × Val)} (hp : d.Perm d')
    (hd : distinctKeys (d.map Prod.fst) = true) (ht : ∀ a b c : Val, goEq a c = true → goEq b c = true →
      a ∈ d.map Prod.fst → b ∈ d.map Prod.fst → goEq a b = true) (k : Val) :
    lookup k d = lookup k d' := by
  induction hp with
  | nil => rfl
  | cons x _ ih =>
    obtain ⟨k', v'⟩ := x
    simp only [lookup]
    split
    · rfl
    · simp only [List.map_cons, distinctKeys, Bool.and_eq_true] at hd
      exact ih hd.2 (fun a b c h1 h2 h3 h4 => ht a b c h1 h2 (by simp [h3]) (by simp [h4]))
  | swap x y l =>
    obtain ⟨k1, v1⟩ := x
    obtain ⟨k2, v2⟩ := y
    simp only [lookup]
    by_cases h1 : goEq k1 k = true <;> by_cases h2 : goEq k2 k = true <;> simp only [h1, h2, if_true, if_false]
    · have := ht k2 k1 k h2 h1 (by simp) (by simp)
      simp only [List.map_cons, distinctKeys, List.all_cons, Bool.and_eq_true, Bool.not_eq_true'] at hd
      rw [this] at hd
      exact absurd hd.1.1 (by simp)
    all_goals rfl
  | trans p1 _ ih1 ih2 =>
    rw [ih1 hd ht]
    refine ih2 (distinctKeys_perm (p1.map _) hd) (fun a b c h1 h2 h3 h4 => ht a b c h1 h2 ?_ ?_)
    · exact ((p1.map Prod.fst).mem_iff).mpr h3
    · exact ((p1.map Prod.fst).mem_iff).mpr h4

/-- C13 for values with `topOK`: every order decodes, and to the same value up to the order in which map
entries are listed.  Full statement: the same for every encodable value. -/
theorem C13_order_independence_partial (v w : Val) (h : Reord v w) (hv : topOK v = true) :
    ∃ v' w', decode (encode v).bytes = .ok (v', []) ∧ decode (encode w).bytes = .ok (w', []) ∧
      Reord v' w' := by
  obtain ⟨hw, r⟩ := reord_top h hv
  have h1 := decode_encode v hv []
  have h2 := decode_encode w hw []
  rw [List.append_nil] at h1 h2
  exact ⟨_, _, h1, h2, r⟩

private theorem eq64_join {a b c : BitVec 64} (h1 : eq64 a c = true) (h2 : eq64 b c = true) : eq64 a b = true := by
  simp only [eq64, Bool.and_eq_true, Bool.or_eq_true, beq_iff_eq] at *
  grind

private theorem eq32_join {a b c : BitVec 32} (h1 : eq32 a c = true) (h2 : eq32 b c = true) : eq32 a b = true := by
  simp only [eq32, Bool.and_eq_true, Bool.or_eq_true, beq_iff_eq] at *
  grind

private theorem goEq_join {a b c : Val} (ha : isScalar a = true) (h1 : goEq a c = true) (h2 : goEq b c = true) :
    goEq a b = true := by
  rw [goEq_comm] at h2
  cases a <;> first | (cases ha; done) | skip
  all_goals cases c <;> first | (cases h1; done) | skip
  all_goals cases b <;> first | (cases h2; done) | skip
  all_goals simp only [goEq, Bool.and_eq_true, beq_iff_eq] at *
  all_goals grind [eq64_join, eq32_join, eq64_comm, eq32_comm]

private theorem scalar_canon {k : Val} (h : isScalar k = true) : isScalar (canon k) = true := by
  cases k <;> first | rfl | (cases h; done) | skip
  · simp only [canon, canonNat]; repeat' split
    all_goals rfl
  · simp only [canon, canonInt]; repeat' split
    all_goals rfl

/-- In particular a reader that looks up any key finds the same in both. -/
theorem C13_lookup_partial (ty : MapTy) (kvs kvs' : List (Val × Val)) (hp : kvs.Perm kvs')
    (h : wireOK (.map ty kvs) = true) :
    ∃ d d', decode (encode (.map ty kvs)).bytes = .ok (.map .ifaceMap d, []) ∧
      decode (encode (.map ty kvs')).bytes = .ok (.map .ifaceMap d', []) ∧
      ∀ k, lookup k d = lookup k d' := by
  have hw := (reord_canon (.perm (ty := ty) hp) h).1
  have h1 := decode_encode (.map ty kvs) h []
  have h2 := decode_encode (.map ty kvs') hw []
  rw [List.append_nil] at h1 h2
  refine ⟨canonEntries kvs, canonEntries kvs', h1, h2, fun k => lookup_perm ?_ ?_ ?_ k⟩
  · rw [canonEntries_eq, canonEntries_eq]; exact hp.map _
  · simp only [wireOK, Bool.and_eq_true] at h; exact h.2
  · intro a b c ha hb hma _
    refine goEq_join ?_ ha hb
    simp only [wireOK, Bool.and_eq_true, decide_eq_true_eq, wireOKEntries_iff] at h
    rw [canonEntries_eq] at hma
    obtain ⟨_, hx, rfl⟩ := List.mem_map.mp hma
    obtain ⟨kv, hkv, rfl⟩ := List.mem_map.mp hx
    exact scalar_canon (h.1.2 kv hkv).2.1

/-- A map inside a list inside a map, both maps reordered. -/
example : let a : Val × Val := (.str 0 [1], .int .int 0 5)
    let b : Val × Val := (.uint .u8 0 9, .seq .ifaceSlice [.map .ifaceMap [(.nil, .nil), (.bool 0 true, .nil)]])
    let b' : Val × Val := (.uint .u8 0 9, .seq .ifaceSlice [.map .ifaceMap [(.bool 0 true, .nil), (.nil, .nil)]])
    Reord (.map .ifaceMap [a, b]) (.map .ifaceMap [b', a]) ∧ topOK (.map .ifaceMap [a, b]) = true := by
  intro a b b'
  refine ⟨.trans (.perm (List.Perm.swap b a [])) ?_, by decide +kernel⟩
  exact .value (pre := []) (post := [a]) (.elem (pre := []) (post := []) (.perm (List.Perm.swap _ _ [])))

/-! ## C14 Maps keep all their entries -/

/-- C14 fails in three ways: keys that become equal on the wire are merged, the value behind a NaN key
becomes nil, and a composite key crashes the reader. -/
theorem C14_map_entries_refuted :
    decode (encode (.map .ifaceMap [(.int .i8 0 1, .nil), (.int .i16 0 1, .nil)])).bytes =
      .ok (.map .ifaceMap [(.int .i8 0 1, .nil)], []) ∧
    decode (encode (.map .ifaceMap [(.f64 0 0x7ff8000000000000, .str 0 [97])])).bytes =
      .ok (.map .ifaceMap [(.f64 0 0x7ff8000000000000, .nil)], []) ∧
    decode (encode (.map .ifaceMap [(.seq (.array 1) [.int .int 0 1], .nil)])).bytes = .panic := by
  exact ⟨by decide +kernel, by decide +kernel, by decide +kernel⟩

private theorem lookup_own {k v : Val} : ∀ {d : List (Val × Val)}, distinctKeys (d.map Prod.fst) = true →
    goEq k k = true → (k, v) ∈ d → lookup k d = some v := by
  intro d
  induction d with
  | nil => simp
  | cons x xs ih =>
    obtain ⟨k', v'⟩ := x
    intro hd hk hm
    simp only [List.map_cons, distinctKeys, Bool.and_eq_true, List.all_eq_true] at hd
    simp only [lookup]
    rcases List.mem_cons.mp hm with hh | hh
    · cases hh; rw [if_pos hk]
    · rw [if_neg]
      · exact ih hd.2 hk hh
      · have := hd.1 k (List.mem_map.mpr ⟨(k, v), hh, rfl⟩)
        simpa using this

/-- C14 for maps with `wireOK`: every entry is there, and is found under its key (a NaN is found under no key, neither
before nor after).  Full statement: the same for every encodable map.  `canon` is the type change of C04
(`content (canon v) = content v`). -/
theorem C14_map_entries_partial (ty : MapTy) (kvs : List (Val × Val)) (h : wireOK (.map ty kvs) = true) :
    ∃ d, decode (encode (.map ty kvs)).bytes = .ok (.map .ifaceMap d, []) ∧ d.length = kvs.length ∧
      (∀ k v, (k, v) ∈ kvs → (canon k, canon v) ∈ d ∧ (reflexive k = true → lookup (canon k) d = some (canon v))) ∧
      (∀ k v, (k, v) ∈ kvs → content (canon k) = content k ∧ content (canon v) = content v) := by
  have h1 := decode_encode (.map ty kvs) h []
  rw [List.append_nil] at h1
  refine ⟨canonEntries kvs, h1, by simp [canonEntries_eq], ?_, fun k v _ => ⟨content_canon k, content_canon v⟩⟩
  simp only [wireOK, Bool.and_eq_true, decide_eq_true_eq, wireOKEntries_iff] at h
  intro k v hkv
  have hm : (canon k, canon v) ∈ canonEntries kvs := by
    rw [canonEntries_eq]
    exact List.mem_map.mpr ⟨(k, v), hkv, rfl⟩
  refine ⟨hm, fun hr => lookup_own h.2 ?_ hm⟩
  have := h.1.2 (k, v) hkv
  exact goEq_canon this.1 this.1 this.2.1 hr

/-- Keys 1 and uint 1 stay apart; so do the string "1" and nil.  A NaN with nil below it. -/
example : wireOK (.map .ifaceMap [(.int .int 0 1, .nil), (.uint .uint 0 1, .bool 0 true), (.str 0 [49], .nil),
    (.nil, .seq (.slice 2) [.int .int 0 300]), (.f64 0 0x7ff8000000000000, .nil)]) = true := by decide +kernel

end Verif.Props
