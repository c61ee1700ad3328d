import Verif.Gen.Gen

/-!
# C71, C72 and C78: the generated proxies
-/

namespace Verif.Props

open Verif Verif.Gen

/-- Go's syntax of a parameter list in which every parameter has its own type: `x T, y U`, with an optional comma at the
end. -/
inductive ParamList : List Tok → List (String × String) → Prop where
  | nil : ParamList [] []
  | last (x t : String) : ParamList [.ident x, .ident t] [(x, t)]
  | cons (x t : String) {rest : List Tok} {ps : List (String × String)} : ParamList rest ps →
      ParamList (.ident x :: .ident t :: .comma :: rest) ((x, t) :: ps)

/-- Go's syntax of a list of expressions separated by commas; here every expression is a token. In the arguments of a
call a comma may follow (`trailing`), in a `return` not. -/
inductive ExprList (trailing : Bool) : List Tok → List Tok → Prop where
  | nil : ExprList trailing [] []
  | last (x : Tok) (h : x ≠ .comma) : ExprList trailing [x] [x]
  | comma (x : Tok) (h : x ≠ .comma) (ht : trailing = true) : ExprList trailing [x, .comma] [x]
  | cons (x : Tok) (h : x ≠ .comma) {rest xs : List Tok} (hx : xs ≠ []) : ExprList trailing rest xs →
      ExprList trailing (x :: .comma :: rest) (x :: xs)

/-- The parameters (or results) that a field list declares: `x, y T` declares two. -/
def declared (fs : List Field) : List (String × TExpr) := fs.flatMap fun f => f.names.map fun n => (n, f.ty)

/-- The types of the results that a field list declares; a field without names declares one result. -/
def declaredTypes (fs : List Field) : List TExpr := fs.flatMap fun f => List.replicate (max 1 f.names.length) f.ty

theorem parseAll_ok {α β : Type} {g : α → Res β} : ∀ {xs : List α} {ys : List β}, parseAll g xs = .ok ys →
    xs.length = ys.length ∧ ∀ (k : Nat) (x : α), xs[k]? = some x → ∃ y, ys[k]? = some y ∧ g x = .ok y := by
  intro xs
  induction xs with
  | nil => intro ys h; cases h; simp
  | cons x xs ih =>
    intro ys h
    simp only [parseAll] at h
    cases hx : g x with
    | ok y =>
      rw [hx] at h
      cases hxs : parseAll g xs with
      | ok zs =>
        rw [hxs] at h
        cases h
        obtain ⟨h1, h2⟩ := ih hxs
        refine ⟨by simp [h1], ?_⟩
        intro k z hk
        cases k with
        | zero => simp at hk; subst hk; exact ⟨y, by simp, hx⟩
        | succ k => simp at hk; obtain ⟨w, hw⟩ := h2 k z hk; exact ⟨w, by simpa using hw⟩
      | err => rw [hxs] at h; cases h
      | panic => rw [hxs] at h; cases h
      | fatal => rw [hxs] at h; cases h
      | diverge => rw [hxs] at h; cases h
    | err => rw [hx] at h; cases h
    | panic => rw [hx] at h; cases h
    | fatal => rw [hx] at h; cases h
    | diverge => rw [hx] at h; cases h

theorem parseParam_ok {f : Field} {p : String × String} (h : parseParam f = .ok p) :
    f.names.head? = some p.1 ∧ f.ty = .ident p.2 := by
  unfold parseParam at h
  obtain ⟨names, ty⟩ := f
  cases names with
  | nil => cases h
  | cons n ns =>
    cases ty with
    | ident t => cases h; exact ⟨rfl, rfl⟩
    | other => cases h

theorem parseResult_ok {f : Field} {p : String × String} (h : parseResult f = .ok p) :
    f.ty = .ident p.2 := by
  unfold parseResult at h
  obtain ⟨names, ty⟩ := f
  cases ty with
  | ident t => cases h; rfl
  | other => cases h

theorem parseMember_ok {n : String} {ps rs : List Field} {m : AstMethod}
    (h : parseMember (.method n ps rs) = .ok m) :
    m.name = n ∧ parseAll parseParam ps = .ok m.params ∧ parseAll parseResult rs = .ok m.results := by
  simp only [parseMember] at h
  cases hp : parseAll parseParam ps with
  | ok a =>
    rw [hp] at h
    cases hr : parseAll parseResult rs with
    | ok b => rw [hr] at h; cases h; exact ⟨rfl, rfl, rfl⟩
    | err => rw [hr] at h; cases h
    | panic => rw [hr] at h; cases h
    | fatal => rw [hr] at h; cases h
    | diverge => rw [hr] at h; cases h
  | err => rw [hp] at h; cases h
  | panic => rw [hp] at h; cases h
  | fatal => rw [hp] at h; cases h
  | diverge => rw [hp] at h; cases h

theorem parseDecl_ok {name : String} {ms : List Member} {t : AstTarget}
    (h : parseDecl (.types [.iface name ms]) = .ok (some t)) : t.name = name ∧ parseAll parseMember ms = .ok t.methods := by
  simp only [parseDecl] at h
  cases hp : parseAll parseMember ms with
  | ok a => rw [hp] at h; cases h; exact ⟨rfl, rfl⟩
  | err => rw [hp] at h; cases h
  | panic => rw [hp] at h; cases h
  | fatal => rw [hp] at h; cases h
  | diverge => rw [hp] at h; cases h

theorem params_list (n : Nat) : ∀ (i : Nat) (ps : List (String × String)), i + ps.length ≤ n + 1 →
    ParamList (rangeFrom (fun j p => [.ident p.1, .ident p.2] ++ if j ≤ n then [.comma] else []) i ps) ps := by
  intro i ps
  induction ps generalizing i with
  | nil => intro _; exact .nil
  | cons p ps ih =>
    intro h
    simp only [List.length_cons] at h
    simp only [rangeFrom]
    rw [if_pos (by omega)]
    exact .cons p.1 p.2 (ih (i + 1) (by omega))

theorem expr_list {α : Type} (trailing : Bool) (f : Nat → α → Tok) (hf : ∀ k x, f k x ≠ .comma) (n : Nat) :
    ∀ (i : Nat) (xs : List α), i + xs.length = n →
    ExprList trailing (rangeFrom (fun k x => f k x :: comma k n) i xs) ((xs.zipIdx i).map fun (x, k) => f k x) := by
  intro i xs
  induction xs generalizing i with
  | nil => intro _; exact .nil
  | cons x xs ih =>
    intro h
    simp only [List.length_cons] at h
    simp only [rangeFrom, comma]
    cases xs with
    | nil =>
      rw [if_neg (by simp at h; omega)]
      simpa [rangeFrom] using ExprList.last (f i x) (hf i x)
    | cons y ys =>
      rw [if_pos (by simp at h; omega)]
      have := ih (i + 1) (by omega)
      rw [List.zipIdx_cons, List.map_cons]
      exact .cons (f i x) (hf i x) (by simp [List.zipIdx_cons]) this

theorem map_zipIdx_const {α β : Type} (g : α → β) : ∀ (i : Nat) (xs : List α),
    ((xs.zipIdx i).map fun (x, _) => g x) = xs.map g := by
  intro i xs
  induction xs generalizing i with
  | nil => rfl
  | cons x xs ih => rw [List.zipIdx_cons, List.map_cons, List.map_cons, ih]

/-- The parsed parameters are the declared ones if every field has one name. -/
theorem declared_eq {ps : List Field} {qs : List (String × String)} (h : parseAll parseParam ps = .ok qs)
    (h1 : ∀ f ∈ ps, f.names.length = 1) : declared ps = qs.map fun q => (q.1, .ident q.2) := by
  obtain ⟨hl, hk⟩ := parseAll_ok h
  clear h
  induction ps generalizing qs with
  | nil => cases qs with
    | nil => rfl
    | cons q qs => cases hl
  | cons f ps ih =>
    cases qs with
    | nil => cases hl
    | cons q qs =>
      obtain ⟨y, hy, hp⟩ := hk 0 f rfl
      simp only [List.getElem?_cons_zero, Option.some.injEq] at hy
      subst hy
      obtain ⟨hn, ht⟩ := parseParam_ok hp
      have h11 := h1 f (List.mem_cons_self ..)
      have hnames : f.names = [q.1] := by
        cases hf : f.names with
        | nil => rw [hf] at h11; cases h11
        | cons a as =>
          rw [hf] at h11 hn
          simp only [List.length_cons, Nat.add_eq_right, List.length_eq_zero_iff] at h11
          simp only [List.head?_cons, Option.some.injEq] at hn
          rw [h11, hn]
      have := ih (fun g hg => h1 g (List.mem_cons_of_mem _ hg)) (qs := qs) (by simpa using hl)
        (fun k x hx => hk (k + 1) x (by simpa using hx))
      simp only [declared, List.flatMap_cons, List.map_cons] at this ⊢
      rw [this, hnames, ht]
      rfl

theorem declaredTypes_eq {rs : List Field} {qs : List (String × String)} (h : parseAll parseResult rs = .ok qs)
    (h1 : ∀ f ∈ rs, f.names.length ≤ 1) : declaredTypes rs = qs.map fun q => .ident q.2 := by
  obtain ⟨hl, hk⟩ := parseAll_ok h
  clear h
  induction rs generalizing qs with
  | nil => cases qs with
    | nil => rfl
    | cons q qs => cases hl
  | cons f rs ih =>
    cases qs with
    | nil => cases hl
    | cons q qs =>
      obtain ⟨y, hy, hp⟩ := hk 0 f rfl
      simp only [List.getElem?_cons_zero, Option.some.injEq] at hy
      subst hy
      have ht := parseResult_ok hp
      have h11 := h1 f (List.mem_cons_self ..)
      have := ih (fun g hg => h1 g (List.mem_cons_of_mem _ hg)) (qs := qs) (by simpa using hl)
        (fun k x hx => hk (k + 1) x (by simpa using hx))
      simp only [declaredTypes, List.flatMap_cons, List.map_cons] at this ⊢
      rw [this, ht, show max 1 f.names.length = 1 by omega]
      rfl

/-- C71 (partial): if every parameter of an interface is declared with a type of its own (`x int, y int`), the tool
generates for every method a method of the same name whose parameter list is legal Go and declares the same parameters,
and which calls the method of this name of the feature with the name of the interface, passing all parameters in order,
with `CallWithResult` exactly if the method has results.
Missing: methods with a field `x, y int`, see `C71_grouped_refuted`. -/
theorem C71_forward_partial (name : String) (ms : List Member) (t : AstTarget)
    (h : parseDecl (.types [.iface name ms]) = .ok (some t)) (k : Nat) (n : String) (ps rs : List Field)
    (hk : ms[k]? = some (.method n ps rs)) (h1 : ∀ f ∈ ps, f.names.length = 1) :
    ∃ m, t.methods[k]? = some m ∧
      (genMethod t.name m).name = n ∧
      (∃ qs : List (String × String), declared ps = qs.map (fun q => (q.1, .ident q.2)) ∧
        ParamList (genMethod t.name m).params qs) ∧
      ExprList true (genMethod t.name m).args
        (.quoted name :: .quoted n :: (declared ps).map fun q => .ident q.1) ∧
      ((genMethod t.name m).withResult = true ↔ rs ≠ []) := by
  obtain ⟨hname, hms⟩ := parseDecl_ok h
  obtain ⟨_, hks⟩ := parseAll_ok hms
  obtain ⟨m, hm, hp⟩ := hks k _ hk
  obtain ⟨e1, e2, e3⟩ := parseMember_ok hp
  have hd := declared_eq e2 h1
  refine ⟨m, hm, e1, ⟨m.params, hd, params_list m.params.length 0 m.params (by omega)⟩, ?_, ?_⟩
  · have hx := expr_list true (fun _ (p : String × String) => Tok.ident p.1) (by simp) m.params.length 0 m.params (by simp)
    rw [map_zipIdx_const (fun p : String × String => Tok.ident p.1)] at hx
    simp only [genMethod, range, hname, e1, hd, List.map_map, Function.comp_def] at hx ⊢
    refine .cons _ (by simp) (by simp) ?_
    cases hps : m.params with
    | nil => exact .comma _ (by simp) rfl
    | cons p rest =>
      rw [hps] at hx
      exact .cons _ (by simp) (by simp) hx
  · have := (parseAll_ok e3).1
    simp only [genMethod, decide_eq_true_eq, ← this]
    rw [List.length_pos_iff]

/-- Conversely, a grouped declaration always loses parameters: the generated method has one parameter per field. -/
theorem C71_one_per_field (n : String) (ps rs : List Field) (m : AstMethod)
    (h : parseMember (.method n ps rs) = .ok m) (target : String) (qs : List (String × String))
    (hq : ParamList (genMethod target m).params qs) : qs.length = ps.length := by
  obtain ⟨e1, e2, e3⟩ := parseMember_ok h
  have hl := (parseAll_ok e2).1
  have hg := params_list m.params.length 0 m.params (by omega)
  have det : ∀ {ts : List Tok} {a b : List (String × String)}, ParamList ts a → ParamList ts b → a = b := by
    intro ts a b ha
    induction ha generalizing b with
    | nil => intro hb; cases hb; rfl
    | last x t => intro hb; cases hb; rfl
    | cons x t _ ih => intro hb; cases hb with | cons _ _ hb => rw [ih hb]
  rw [det hq hg, hl]

example : ∃ t, parseDecl (.types [.iface "IMath" [.method "Print" [⟨["msg"], .ident "string"⟩] [],
    .method "Add" [⟨["x"], .ident "float64"⟩, ⟨["y"], .ident "float64"⟩] [⟨[], .ident "float64"⟩]]]) = .ok (some t) ∧
    t.methods.map (genMethod t.name) = [
      ⟨"Print", [.ident "msg", .ident "string", .comma], [], false,
        [.quoted "IMath", .comma, .quoted "Print", .comma, .ident "msg"], [], []⟩,
      ⟨"Add", [.ident "x", .ident "float64", .comma, .ident "y", .ident "float64", .comma], [.ident "float64"], true,
        [.quoted "IMath", .comma, .quoted "Add", .comma, .ident "x", .comma, .ident "y"], [.lit "0"],
        [.result 0 "float64"]⟩] :=
  ⟨_, rfl, rfl⟩

/-- C71 (refuted): `Add(x, y int)` is accepted; the generated method has the parameter `x` only. -/
theorem C71_grouped_refuted : ∃ t m, parseDecl (.types [.iface "IMath"
      [.method "Add" [⟨["x", "y"], .ident "int"⟩] []]]) = .ok (some t) ∧ t.methods = [m] ∧
    ParamList (genMethod t.name m).params [("x", "int")] ∧
    ExprList true (genMethod t.name m).args [.quoted "IMath", .quoted "Add", .ident "x"] :=
  ⟨_, _, rfl, rfl, .cons _ _ .nil, .cons _ (by decide) (by decide) (.cons _ (by decide) (by decide) (.last _ (by decide)))⟩

/-- C71 (refuted): the generated method has the receiver `p`, so a parameter `p` is declared twice: the generated code
does not compile. -/
theorem C71_receiver_refuted : ∃ t m, parseDecl (.types [.iface "IMath"
      [.method "Add" [⟨["p"], .ident "int"⟩] []]]) = .ok (some t) ∧ t.methods = [m] ∧
    ParamList (genMethod t.name m).params [("p", "int")] := ⟨_, _, rfl, rfl, .cons _ _ .nil⟩

/-- C71: parameters without name, types that are not identifiers, embedded interfaces and empty type declarations
crash the tool. -/
theorem C71_rejected (name : String) (ms : List Member) (h : .embedded ∈ ms ∨ ∃ n ps rs f, .method n ps rs ∈ ms ∧
      ((f ∈ ps ∧ (f.names = [] ∨ f.ty = .other)) ∨ (f ∈ rs ∧ f.ty = .other))) :
    parseDecl (.types [.iface name ms]) = .panic ∧ parseDecl (.types []) = .panic := by
  refine ⟨?_, rfl⟩
  have only : ∀ {α β : Type} (g : α → Res β), (∀ x, (∃ y, g x = .ok y) ∨ g x = .panic) → ∀ xs,
      (∃ ys, parseAll g xs = .ok ys) ∨ parseAll g xs = .panic := by
    intro α β g hg xs
    induction xs with
    | nil => exact Or.inl ⟨[], rfl⟩
    | cons x xs ih =>
      simp only [parseAll]
      rcases hg x with ⟨y, hy⟩ | hy
      · rcases ih with ⟨ys, hys⟩ | hys
        · exact Or.inl ⟨y :: ys, by rw [hy, hys]; rfl⟩
        · exact Or.inr (by rw [hy, hys]; rfl)
      · exact Or.inr (by rw [hy]; rfl)
  have hpp : ∀ f, (∃ y, parseParam f = .ok y) ∨ parseParam f = .panic := by
    rintro ⟨ns, ty⟩
    cases ns with
    | nil => exact Or.inr rfl
    | cons n ns => cases ty with
      | ident t => exact Or.inl ⟨_, rfl⟩
      | other => exact Or.inr rfl
  have hpr : ∀ f, (∃ y, parseResult f = .ok y) ∨ parseResult f = .panic := by
    rintro ⟨ns, ty⟩
    cases ty with
    | ident t => exact Or.inl ⟨_, rfl⟩
    | other => exact Or.inr rfl
  have hpm : ∀ m, (∃ y, parseMember m = .ok y) ∨ parseMember m = .panic := by
    intro m
    cases m with
    | embedded => exact Or.inr rfl
    | method n ps rs =>
      simp only [parseMember]
      rcases only _ hpp ps with ⟨a, ha⟩ | ha
      · rcases only _ hpr rs with ⟨b, hb⟩ | hb
        · exact Or.inl ⟨⟨n, a, b⟩, by rw [ha, hb]; rfl⟩
        · exact Or.inr (by rw [ha, hb]; rfl)
      · exact Or.inr (by rw [ha]; rfl)
  have hnot : ¬ ∃ a, parseAll parseMember ms = .ok a := by
    rintro ⟨a, ha⟩
    obtain ⟨_, hk⟩ := parseAll_ok ha
    have mem : ∀ m ∈ ms, ∃ y, parseMember m = .ok y := by
      intro m hm
      obtain ⟨k, hlt, rfl⟩ := List.mem_iff_getElem.mp hm
      obtain ⟨y, _, hy⟩ := hk k ms[k] (List.getElem?_eq_getElem hlt)
      exact ⟨y, hy⟩
    rcases h with h | ⟨n, ps, rs, f, hm, h⟩
    · obtain ⟨y, hy⟩ := mem _ h; cases hy
    · obtain ⟨y, hy⟩ := mem _ hm
      obtain ⟨_, e2, e3⟩ := parseMember_ok hy
      rcases h with ⟨hf, h⟩ | ⟨hf, h⟩
      · obtain ⟨j, hlt, rfl⟩ := List.mem_iff_getElem.mp hf
        obtain ⟨z, _, hz⟩ := (parseAll_ok e2).2 j _ (List.getElem?_eq_getElem hlt)
        obtain ⟨h1, h2⟩ := parseParam_ok hz
        rcases h with h | h
        · rw [h] at h1; cases h1
        · rw [h] at h2; cases h2
      · obtain ⟨j, hlt, rfl⟩ := List.mem_iff_getElem.mp hf
        obtain ⟨z, _, hz⟩ := (parseAll_ok e3).2 j _ (List.getElem?_eq_getElem hlt)
        have := parseResult_ok hz
        rw [h] at this; cases this
  simp only [parseDecl]
  rcases only _ hpm ms with h' | h'
  · exact absurd h' hnot
  · rw [h']; rfl

/-! ## C72 -/

/-- What matters about a type for a literal. -/
inductive TypeKind where
  | bool
  | numeric
  | string
  /-- pointers, functions, slices, maps, channels and interfaces -/
  | nilable
  /-- structs and arrays -/
  | composite
  deriving DecidableEq, Repr

/-- The predeclared types of Go. -/
def predeclared : List (String × TypeKind) :=
  [("bool", .bool), ("string", .string), ("int", .numeric), ("int8", .numeric), ("int16", .numeric), ("int32", .numeric),
   ("int64", .numeric), ("uint", .numeric), ("uint8", .numeric), ("uint16", .numeric), ("uint32", .numeric),
   ("uint64", .numeric), ("uintptr", .numeric), ("byte", .numeric), ("rune", .numeric), ("float32", .numeric),
   ("float64", .numeric), ("complex64", .numeric), ("complex128", .numeric), ("error", .nilable)]

/-- Go's rules for the three literals. -/
def assignable : String → TypeKind → Prop
  | "false", k => k = .bool
  | "0", k => k = .numeric
  | "nil", k => k = .nilable
  | _, _ => False

/-- The result types for which the tool knows the default value. -/
def handled : List String :=
  ["bool", "int", "int8", "int16", "int32", "int64", "uint", "uint8", "uint16", "uint32", "uint64", "float32", "float64"]

theorem defaultOf_cases (t : String) : (t = "bool" ∧ defaultOf t = "false") ∨
    (t ∈ handled ∧ t ≠ "bool" ∧ defaultOf t = "0") ∨ (t ∉ handled ∧ defaultOf t = "nil") := by
  by_cases h : t ∈ handled
  · simp only [handled, List.mem_cons, List.not_mem_nil, or_false] at h
    rcases h with h | h | h | h | h | h | h | h | h | h | h | h | h <;> subst h
    · exact Or.inl ⟨rfl, rfl⟩
    all_goals exact Or.inr (Or.inl ⟨by decide, by decide, rfl⟩)
  · refine Or.inr (Or.inr ⟨h, ?_⟩)
    unfold defaultOf
    split <;> first | rfl | exact absurd (by decide) h

/-- C72: which result types get a literal of their type: exactly the 13 basic types that the tool lists and the types
whose values can be nil.  `kinds` says what the identifiers stand for where the proxy is compiled; the predeclared
types are not redeclared there. -/
theorem C72_exact (kinds : String → TypeKind) (hp : ∀ t k, (t, k) ∈ predeclared → kinds t = k) (t : String) :
    assignable (defaultOf t) (kinds t) ↔ t ∈ handled ∨ kinds t = .nilable := by
  rcases defaultOf_cases t with ⟨h, e⟩ | ⟨h, hb, e⟩ | ⟨h, e⟩
  · subst h
    rw [e]
    have := hp "bool" .bool (by decide)
    simp [assignable, this, handled]
  · rw [e]
    have hk : kinds t = .numeric := by
      refine hp t .numeric ?_
      simp only [handled, List.mem_cons, List.not_mem_nil, or_false] at h
      rcases h with h | h | h | h | h | h | h | h | h | h | h | h | h <;> subst h
      · exact absurd rfl hb
      all_goals decide
    simp [assignable, hk, h]
  · rw [e]
    simp [assignable, h]

/-- C72 (partial): if the declared result types are among those, the generated method returns on an error one literal
per declared result, each of the declared type.  Missing: all other types, see `C72_string_refuted`, and results that
share a type, see `C78_grouped_refuted`. -/
theorem C72_defaults_partial (kinds : String → TypeKind) (hp : ∀ t k, (t, k) ∈ predeclared → kinds t = k)
    (n : String) (ps rs : List Field) (m : AstMethod) (h : parseMember (.method n ps rs) = .ok m) (target : String)
    (h1 : ∀ f ∈ rs, f.names.length ≤ 1)
    (hr : ∀ f ∈ rs, ∀ t, f.ty = .ident t → t ∈ handled ∨ kinds t = .nilable) :
    ∃ lits : List String, ExprList false (genMethod target m).onError (lits.map .lit) ∧
      lits.length = (declaredTypes rs).length ∧
      ∀ (k : Nat) (l t : String), lits[k]? = some l → (declaredTypes rs)[k]? = some (.ident t) →
        assignable l (kinds t) := by
  obtain ⟨e1, e2, e3⟩ := parseMember_ok h
  have hd := declaredTypes_eq e3 h1
  refine ⟨m.results.map fun r => defaultOf r.2, ?_, by rw [hd]; simp, ?_⟩
  · have := expr_list false (fun _ (r : String × String) => Tok.lit (defaultOf r.2)) (by simp) m.results.length 0
      m.results (by simp)
    rw [map_zipIdx_const (fun r : String × String => Tok.lit (defaultOf r.2))] at this
    simpa [genMethod, range, List.map_map, Function.comp_def] using this
  · intro k l t hl ht
    rw [hd, List.getElem?_map] at ht
    rw [List.getElem?_map] at hl
    cases hq : m.results[k]? with
    | none => rw [hq] at hl; cases hl
    | some q =>
      rw [hq] at hl ht
      simp only [Option.map_some, Option.some.injEq, TExpr.ident.injEq] at hl ht
      subst hl
      rw [← ht]
      refine (C72_exact kinds hp q.2).mpr ?_
      obtain ⟨hlen, hk⟩ := parseAll_ok e3
      have hlt : k < rs.length := by
        rw [hlen]
        exact (List.getElem?_eq_some_iff.mp hq).1
      obtain ⟨y, hy, hpr⟩ := hk k rs[k] (List.getElem?_eq_getElem hlt)
      rw [hq] at hy
      cases hy
      exact hr rs[k] (List.getElem_mem hlt) q.2 (parseResult_ok hpr)

example : ∃ m, parseMember (.method "Login" [⟨["name"], .ident "string"⟩]
      [⟨[], .ident "bool"⟩, ⟨["code"], .ident "int"⟩, ⟨[], .ident "error"⟩]) = .ok m ∧
    (genMethod "ILogin" m).onError = [.lit "false", .comma, .lit "0", .comma, .lit "nil"] := ⟨_, rfl, rfl⟩

/-- C72 (refuted): for a result of type `string` the generated method returns `nil`, which does not compile.  The same
holds for `byte`, `rune`, `uintptr`, the complex types and every struct type. -/
theorem C72_string_refuted : (∃ m, parseMember (.method "Name" [] [⟨[], .ident "string"⟩]) = .ok m ∧
      (genMethod "IGame" m).onError = [.lit "nil"]) ∧
    ∀ (kinds : String → TypeKind), (∀ t k, (t, k) ∈ predeclared → kinds t = k) →
      ∀ t ∈ ["string", "byte", "rune", "uintptr", "complex64", "complex128"], ¬ assignable (defaultOf t) (kinds t) := by
  refine ⟨⟨_, rfl, rfl⟩, ?_⟩
  intro kinds hp t ht h
  rw [C72_exact kinds hp] at h
  simp only [List.mem_cons, List.not_mem_nil, or_false] at ht
  rcases ht with e | e | e | e | e | e <;> subst e
  · rw [hp "string" .string (by decide)] at h; exact absurd h (by decide)
  · rw [hp "byte" .numeric (by decide)] at h; exact absurd h (by decide)
  · rw [hp "rune" .numeric (by decide)] at h; exact absurd h (by decide)
  · rw [hp "uintptr" .numeric (by decide)] at h; exact absurd h (by decide)
  · rw [hp "complex64" .numeric (by decide)] at h; exact absurd h (by decide)
  · rw [hp "complex128" .numeric (by decide)] at h; exact absurd h (by decide)

/-! ## C78 -/

/-- C78 (partial): if no two results of a method share a type expression, the generated method declares the results of
the interface method, and returns as many values, the `k`-th of them being result `k` of the call asserted to have the
declared type.  Missing: grouped results, see `C78_grouped_refuted`. -/
theorem C78_results_partial (n : String) (ps rs : List Field) (m : AstMethod)
    (h : parseMember (.method n ps rs) = .ok m) (target : String) (h1 : ∀ f ∈ rs, f.names.length ≤ 1) :
    ∃ ts : List String, declaredTypes rs = ts.map .ident ∧
      ExprList true (genMethod target m).results (ts.map .ident) ∧
      ExprList false (genMethod target m).onSuccess ((ts.zipIdx).map fun (t, k) => .result k t) := by
  obtain ⟨e1, e2, e3⟩ := parseMember_ok h
  have hd := declaredTypes_eq e3 h1
  refine ⟨m.results.map (·.2), by rw [hd]; simp, ?_, ?_⟩
  · have := expr_list true (fun _ (r : String × String) => Tok.ident r.2) (by simp) m.results.length 0 m.results (by simp)
    rw [map_zipIdx_const (fun r : String × String => Tok.ident r.2)] at this
    simpa [genMethod, range, List.map_map, Function.comp_def] using this
  · have := expr_list false (fun k (r : String × String) => Tok.result k r.2) (by simp) m.results.length 0 m.results
      (by simp)
    have e : ∀ (i : Nat) (l : List (String × String)), ((l.map (·.2)).zipIdx i).map (fun (t, k) => Tok.result k t) =
        (l.zipIdx i).map fun (r, k) => Tok.result k r.2 := by
      intro i l
      induction l generalizing i with
      | nil => rfl
      | cons x l ih => simp only [List.map_cons, List.zipIdx_cons, ih]
    rw [e]
    simp only [genMethod]
    split
    · exact this
    · rename_i hz
      have : m.results = [] := List.eq_nil_of_length_eq_zero (by omega)
      rw [this]; exact .nil

example : ∃ m, parseMember (.method "Login" [] [⟨[], .ident "bool"⟩, ⟨["code"], .ident "int"⟩]) = .ok m ∧
    (genMethod "ILogin" m).onSuccess = [.result 0 "bool", .comma, .result 1 "int"] := ⟨_, rfl, rfl⟩

/-- C78 (refuted): for `Size() (w, h int)` the generated method has one result. -/
theorem C78_grouped_refuted : ∃ m, parseMember (.method "Size" [] [⟨["w", "h"], .ident "int"⟩]) = .ok m ∧
    declaredTypes [⟨["w", "h"], .ident "int"⟩] = [.ident "int", .ident "int"] ∧
    (genMethod "IWindow" m).results = [.ident "int"] ∧ (genMethod "IWindow" m).onSuccess = [.result 0 "int"] :=
  ⟨_, rfl, rfl, rfl, rfl⟩

end Verif.Props
