import Verif.Props.Gen2

/-!
# C114: the generated file does not depend on the order of the methods

The methods of a proxy are sorted by their names, so that two interfaces with the same methods in different orders get
the same proxy.
-/

namespace Verif.Props

open Verif Verif.Gen

/-- Sorted by name, each name once. -/
def sortedNames (l : List AstMethod) : Prop := l.Pairwise fun a b => a.name.toList < b.name.toList

private theorem lt_irr (a : List Char) : ¬ a < a := List.lt_irrefl a

private theorem lt_of_not {a b : AstMethod} (h : a.name ≠ b.name) (h' : ¬ a.name.toList < b.name.toList) :
    b.name.toList < a.name.toList := by
  refine Classical.byContradiction fun h1 => h ?_
  exact String.toList_inj.mp (List.le_antisymm h1 h')

private theorem mem_put (m x : AstMethod) : ∀ l, x ∈ putMethod m l → x = m ∨ x ∈ l
  | [], h => by simpa [putMethod] using h
  | y :: l, h => by
    simp only [putMethod] at h
    split at h
    · rcases List.mem_cons.mp h with h | h
      · exact Or.inl h
      · exact Or.inr (List.mem_cons_of_mem _ h)
    · split at h
      · simpa using h
      · rcases List.mem_cons.mp h with rfl | h
        · exact Or.inr (List.mem_cons_self ..)
        · rcases mem_put m x l h with h | h
          · exact Or.inl h
          · exact Or.inr (List.mem_cons_of_mem _ h)

private theorem put_sorted (m : AstMethod) : ∀ l, sortedNames l → sortedNames (putMethod m l)
  | [], _ => by simp [putMethod, sortedNames]
  | y :: l, h => by
    have h' := List.pairwise_cons.mp h
    simp only [putMethod]
    split
    · rename_i e
      refine List.pairwise_cons.mpr ⟨?_, h'.2⟩
      intro x hx
      rw [e]
      exact h'.1 x hx
    · rename_i e
      split
      · rename_i hlt
        refine List.pairwise_cons.mpr ⟨?_, h⟩
        intro x hx
        rcases List.mem_cons.mp hx with rfl | hx
        · exact hlt
        · exact List.lt_trans hlt (h'.1 x hx)
      · rename_i hlt
        refine List.pairwise_cons.mpr ⟨?_, put_sorted m l h'.2⟩
        intro x hx
        rcases mem_put m x l hx with rfl | hx
        · exact lt_of_not e hlt
        · exact h'.1 x hx

theorem methodMap_sorted (ms : List AstMethod) : sortedNames (methodMap ms) := by
  have key : ∀ (ms acc : List AstMethod), sortedNames acc → sortedNames (ms.foldl (fun l m => putMethod m l) acc) := by
    intro ms
    induction ms with
    | nil => intro acc h; exact h
    | cons m ms ih => intro acc h; exact ih _ (put_sorted m acc h)
  exact key ms [] List.Pairwise.nil

/-- Sorted lists with the same elements are equal. -/
private theorem sorted_unique : ∀ (l l' : List AstMethod), sortedNames l → sortedNames l' → l.Perm l' → l = l'
  | [], l', _, _, hp => (List.nil_perm.mp hp).symm
  | a :: l, [], _, _, hp => absurd hp.length_eq (by simp)
  | a :: l, b :: l', h, h', hp => by
    have h1 := List.pairwise_cons.mp h
    have h2 := List.pairwise_cons.mp h'
    have hab : a = b := by
      rcases List.mem_cons.mp (hp.subset (List.mem_cons_self ..)) with e | e
      · exact e
      · rcases List.mem_cons.mp (hp.symm.subset (List.mem_cons_self ..)) with e' | e'
        · exact e'.symm
        · exact absurd (List.lt_trans (h1.1 b e') (h2.1 a e)) (lt_irr _)
    subst hab
    rw [sorted_unique l l' h1.2 h2.2 (List.perm_cons a |>.mp hp)]

/-- C114, first part: in a file that was generated, the methods of every proxy are sorted by name. -/
theorem C114_sorted (walk : List Entry) (o : Output) (h : generate walk none = .ok (some o)) :
    ∀ p ∈ o.proxies, (p.methods.map fun m => m.name.toList).Pairwise (· < ·) := by
  obtain ⟨ts, _, e⟩ := generate_ok h
  split at e
  · cases e
    intro p hp
    obtain ⟨t, _, rfl⟩ := List.mem_map.mp hp
    have := methodMap_sorted t.2.methods
    simp only [List.map_map]
    rw [List.pairwise_map]
    exact this
  · cases e

/-- The names of the methods of an interface. -/
def memberNames (ms : List Member) : List String :=
  ms.filterMap fun
    | .method n _ _ => some n
    | .embedded => none

private theorem parseAll_total {α β : Type} (g : α → Res β) (hg : ∀ x, g x = .panic ∨ ∃ y, g x = .ok y) :
    ∀ l, parseAll g l = .panic ∨ ∃ ys, parseAll g l = .ok ys
  | [] => Or.inr ⟨[], rfl⟩
  | x :: l => by
    simp only [parseAll]
    rcases hg x with h | ⟨y, h⟩
    · rw [h]; exact Or.inl rfl
    · rw [h]
      rcases parseAll_total g hg l with h' | ⟨ys, h'⟩
      · rw [h']; exact Or.inl rfl
      · rw [h']; exact Or.inr ⟨y :: ys, rfl⟩

private theorem typeName_total (t : TExpr) : typeName t = .panic ∨ ∃ y, typeName t = .ok y := by
  cases t with
  | ident n => exact Or.inr ⟨n, rfl⟩
  | other => exact Or.inl rfl

private theorem parseMember_total (m : Member) : parseMember m = .panic ∨ ∃ y, parseMember m = .ok y := by
  have hp : ∀ f, parseParam f = .panic ∨ ∃ y, parseParam f = .ok y := by
    rintro ⟨ns, t⟩
    cases ns with
    | nil => exact Or.inl rfl
    | cons n ns =>
      rcases typeName_total t with h | ⟨y, h⟩
      · simp only [parseParam, h]; exact Or.inl rfl
      · simp only [parseParam, h]; exact Or.inr ⟨_, rfl⟩
  have hr : ∀ f, parseResult f = .panic ∨ ∃ y, parseResult f = .ok y := by
    rintro ⟨ns, t⟩
    rcases typeName_total t with h | ⟨y, h⟩
    · simp only [parseResult, h]; exact Or.inl rfl
    · simp only [parseResult, h]; exact Or.inr ⟨_, rfl⟩
  cases m with
  | embedded => exact Or.inl rfl
  | method n ps rs =>
    simp only [parseMember]
    rcases parseAll_total _ hp ps with h | ⟨y, h⟩
    · rw [h]; exact Or.inl rfl
    · rw [h]
      rcases parseAll_total _ hr rs with h' | ⟨z, h'⟩
      · rw [h']; exact Or.inl rfl
      · rw [h']; exact Or.inr ⟨_, rfl⟩

private theorem parseAll_perm {α β : Type} (g : α → Res β) (hg : ∀ x, g x = .panic ∨ ∃ y, g x = .ok y) {l l' : List α}
    (h : l.Perm l') : (parseAll g l = .panic ∧ parseAll g l' = .panic) ∨
      ∃ ys ys', parseAll g l = .ok ys ∧ parseAll g l' = .ok ys' ∧ ys.Perm ys' := by
  induction h with
  | nil => exact Or.inr ⟨[], [], rfl, rfl, .nil⟩
  | cons x _ ih =>
    simp only [parseAll]
    rcases hg x with h | ⟨y, h⟩
    · rw [h]; exact Or.inl ⟨rfl, rfl⟩
    · rw [h]
      rcases ih with ⟨h1, h2⟩ | ⟨ys, ys', h1, h2, hp⟩
      · rw [h1, h2]; exact Or.inl ⟨rfl, rfl⟩
      · rw [h1, h2]; exact Or.inr ⟨y :: ys, y :: ys', rfl, rfl, .cons _ hp⟩
  | swap x y l =>
    simp only [parseAll]
    rcases parseAll_total g hg l with h3 | ⟨ys, h3⟩ <;> rcases hg x with h1 | ⟨a, h1⟩ <;> rcases hg y with h2 | ⟨b, h2⟩ <;>
      rw [h1, h2, h3]
    all_goals first
      | exact Or.inl ⟨rfl, rfl⟩
      | exact Or.inr ⟨_, _, rfl, rfl, .swap _ _ _⟩
  | trans _ _ ih1 ih2 =>
    rcases ih1 with ⟨h1, h2⟩ | ⟨ys, ys', h1, h2, hp⟩
    · rcases ih2 with ⟨h3, h4⟩ | ⟨zs, zs', h3, h4, hp'⟩
      · exact Or.inl ⟨h1, h4⟩
      · rw [h2] at h3; cases h3
    · rcases ih2 with ⟨h3, h4⟩ | ⟨zs, zs', h3, h4, hp'⟩
      · rw [h2] at h3; cases h3
      · rw [h2] at h3; cases h3
        exact Or.inr ⟨ys, zs', h1, h4, hp.trans hp'⟩

private theorem parsed_names : ∀ (ms : List Member) (ys : List AstMethod), parseAll parseMember ms = .ok ys →
    ys.map (·.name) = memberNames ms := by
  intro ms
  induction ms with
  | nil => intro ys h; cases h; rfl
  | cons m ms ih =>
    intro ys h
    simp only [parseAll] at h
    cases hm : parseMember m with
    | ok y =>
      rw [hm] at h
      cases hs : parseAll parseMember ms with
      | ok zs =>
        rw [hs] at h
        cases h
        have := ih zs hs
        cases m with
        | embedded => cases hm
        | method n ps rs =>
          have := (parseMember_ok hm).1
          simp only [List.map_cons, memberNames, List.filterMap_cons]
          rw [this]
          exact congrArg _ (ih zs hs)
      | _ => rw [hs] at h; cases h
    | _ => rw [hm] at h; cases h

/-- Two targets that differ in the order of their methods. -/
private def Alike (t t' : AstTarget) : Prop := t.name = t'.name ∧ methodMap t.methods = methodMap t'.methods

private theorem decl_alike (n : String) (ms ms' : List Member) (hp : ms.Perm ms') (hn : (memberNames ms).Nodup) :
    (parseDecl (.types [.iface n ms]) = .panic ∧ parseDecl (.types [.iface n ms']) = .panic) ∨
    ∃ t t', parseDecl (.types [.iface n ms]) = .ok (some t) ∧ parseDecl (.types [.iface n ms']) = .ok (some t') ∧ Alike t t' := by
  simp only [parseDecl]
  rcases parseAll_perm parseMember parseMember_total hp with ⟨h1, h2⟩ | ⟨ys, ys', h1, h2, hp'⟩
  · rw [h1, h2]; exact Or.inl ⟨rfl, rfl⟩
  · rw [h1, h2]
    refine Or.inr ⟨⟨n, ys⟩, ⟨n, ys'⟩, rfl, rfl, rfl, ?_⟩
    have hy : (ys.map (·.name)).Nodup := by rw [parsed_names ms ys h1]; exact hn
    have hy' : (ys'.map (·.name)).Nodup := ((hp'.map (·.name)).nodup_iff).mp hy
    exact sorted_unique _ _ (methodMap_sorted ys) (methodMap_sorted ys')
      (((methodMap_perm ys hy).trans hp').trans (methodMap_perm ys' hy').symm)

private theorem decls_alike (d d' : Decl) (ds' : List Decl)
    (h : (parseDecl d = .panic ∧ parseDecl d' = .panic) ∨
      ∃ t t', parseDecl d = .ok (some t) ∧ parseDecl d' = .ok (some t') ∧ Alike t t') :
    ∀ ds, scanDecls (ds ++ d :: ds') = scanDecls (ds ++ d' :: ds') ∨
      ∃ us t t' vs, scanDecls (ds ++ d :: ds') = .ok (us ++ t :: vs) ∧ scanDecls (ds ++ d' :: ds') = .ok (us ++ t' :: vs) ∧ Alike t t'
  | [] => by
    simp only [List.nil_append, scanDecls]
    rcases h with ⟨h1, h2⟩ | ⟨t, t', h1, h2, ha⟩
    · rw [h1, h2]; exact Or.inl rfl
    · rw [h1, h2]
      cases hs : scanDecls ds' with
      | ok vs => exact Or.inr ⟨[], t, t', vs, rfl, rfl, ha⟩
      | _ => exact Or.inl rfl
  | x :: ds => by
    simp only [List.cons_append, scanDecls]
    rcases decls_alike d d' ds' h ds with e | ⟨us, t, t', vs, h1, h2, ha⟩
    · rw [e]; exact Or.inl rfl
    · rw [h1, h2]
      cases hx : parseDecl x with
      | ok o =>
        cases o with
        | none => exact Or.inr ⟨us, t, t', vs, rfl, rfl, ha⟩
        | some y => exact Or.inr ⟨y :: us, t, t', vs, rfl, rfl, ha⟩
      | _ => exact Or.inl rfl

private theorem scan_alike (f f' : File) (post : List Entry) (hf : f.path = f'.path)
    (h : scanFile f = scanFile f' ∨ ∃ us t t' vs, scanFile f = .ok (us ++ (f.path, t) :: vs) ∧
      scanFile f' = .ok (us ++ (f.path, t') :: vs) ∧ Alike t t') :
    ∀ pre, scanAll (pre ++ .file f :: post) = scanAll (pre ++ .file f' :: post) ∨
      ∃ us t t' vs, scanAll (pre ++ .file f :: post) = .ok (us ++ (f.path, t) :: vs) ∧
        scanAll (pre ++ .file f' :: post) = .ok (us ++ (f.path, t') :: vs) ∧ Alike t t'
  | [] => by
    simp only [List.nil_append, scanAll, ← hf]
    by_cases hi : ignore f.path = true
    · rw [if_pos hi, if_pos hi]; exact Or.inl rfl
    · rw [if_neg hi, if_neg hi]
      rcases h with h | ⟨us, t, t', vs, h1, h2, ha⟩
      · rw [h]; exact Or.inl rfl
      · rw [h1, h2]
        cases hp : scanAll post with
        | ok ws => exact Or.inr ⟨us, t, t', vs ++ ws, by simp [pure], by simp [pure], ha⟩
        | _ => exact Or.inl rfl
  | .failed :: pre => Or.inl rfl
  | .dir _ :: pre => by
    simp only [List.cons_append, scanAll]
    exact scan_alike f f' post hf h pre
  | .file g :: pre => by
    simp only [List.cons_append, scanAll]
    by_cases hi : ignore g.path = true
    · rw [if_pos hi, if_pos hi]; exact scan_alike f f' post hf h pre
    · rw [if_neg hi, if_neg hi]
      rcases scan_alike f f' post hf h pre with e | ⟨us, t, t', vs, h1, h2, ha⟩
      · rw [e]; exact Or.inl rfl
      · rw [h1, h2]
        cases hg : scanFile g with
        | ok ws => exact Or.inr ⟨ws ++ us, t, t', vs, by simp [pure], by simp [pure], ha⟩
        | _ => exact Or.inl rfl

/-- C114, second part: the order of the methods in an interface does not matter. -/
theorem C114_order (pre post : List Entry) (path : List Char) (ds ds' : List Decl) (n : String) (ms ms' : List Member)
    (old : Option Output) (hp : ms.Perm ms') (hn : (memberNames ms).Nodup) :
    generate (pre ++ .file ⟨path, some (ds ++ .types [.iface n ms] :: ds')⟩ :: post) old =
      generate (pre ++ .file ⟨path, some (ds ++ .types [.iface n ms'] :: ds')⟩ :: post) old := by
  have hd := decls_alike _ _ ds' (decl_alike n ms ms' hp hn) ds
  have hf : scanFile ⟨path, some (ds ++ .types [.iface n ms] :: ds')⟩ = scanFile ⟨path, some (ds ++ .types [.iface n ms'] :: ds')⟩ ∨
      ∃ us t t' vs, scanFile ⟨path, some (ds ++ .types [.iface n ms] :: ds')⟩ = .ok (us ++ (path, t) :: vs) ∧
        scanFile ⟨path, some (ds ++ .types [.iface n ms'] :: ds')⟩ = .ok (us ++ (path, t') :: vs) ∧ Alike t t' := by
    simp only [scanFile]
    rcases hd with e | ⟨us, t, t', vs, h1, h2, ha⟩
    · rw [e]; exact Or.inl rfl
    · rw [h1, h2]
      exact Or.inr ⟨us.map fun t => (path, t), t, t', vs.map fun t => (path, t), by simp [pure], by simp [pure], ha⟩
  unfold generate
  rcases scan_alike ⟨path, some (ds ++ .types [.iface n ms] :: ds')⟩ ⟨path, some (ds ++ .types [.iface n ms'] :: ds')⟩ post rfl hf pre with e | ⟨us, t, t', vs, h1, h2, h3, h4⟩
  · rw [e]
  · rw [h1, h2]
    simp only [Res.bind_ok]
    have hc : genProxyCode (us ++ (path, t) :: vs) = genProxyCode (us ++ (path, t') :: vs) := by
      simp [genProxyCode, h3, h4, proxyName]
    simp [hc]

/-- Two methods in either order. -/
example : ∃ o, generate [.file ⟨"m.go".toList, some [.types [.iface "IM" [.method "B" [] [], .method "A" [] []]]]⟩] none = .ok (some o) ∧
    generate [.file ⟨"m.go".toList, some [.types [.iface "IM" [.method "A" [] [], .method "B" [] []]]]⟩] none = .ok (some o) ∧
    o.proxies.map (fun p => p.methods.map (·.name)) = [["A", "B"]] := ⟨_, rfl, by decide, by decide⟩

end Verif.Props
