import Verif.Props.Gen1

/-!
# C136: the generated methods compile

Go's rules, as far as the generated methods of /repo/tool/ferry.gen.go:273-282 meet them: declarations and scopes, short
variable declarations, comparisons with nil, type assertions and return statements.
-/

namespace Verif.Props

open Verif Verif.Gen

/-! ## Go -/

/-- What the identifiers of the package and of the universe stand for: the types, which of them can hold an `error`, which
a `[]interface{}`, and which can be compared with which.  `nil` and `false` are not redeclared by the package. -/
structure Package where
  /-- the type that an identifier denotes -/
  kind : String → Option TypeKind
  /-- an `error` can be assigned to the type -/
  takesError : String → Bool
  /-- a `[]interface{}` can be assigned to the type -/
  takesResults : String → Bool
  /-- values of the two types can be compared -/
  comparable : String → String → Bool

/-- The predeclared types are not redeclared either, and the blank identifier denotes nothing. -/
structure Package.Usual (o : Package) : Prop where
  predeclared : ∀ t k, (t, k) ∈ predeclared → o.kind t = some k
  blank : o.kind "_" = none

/-- The type of a variable: a named one, or one of the two that the calls of lines 274 and 275 return. -/
inductive VarType where
  | named (t : String)
  | error
  | list
  deriving DecidableEq

/-- A method with the receiver `p` of a struct with the field `slot`, as a reader of the tokens finds it:

    func (p *…) name(params) (results) {
        results, err := p.slot.CallWithResult(args)  // or: err := p.slot.Call(args)
        if nil != err { return onError }
        return onSuccess
    }
-/
structure Method where
  name : String
  params : List (String × String)
  results : List String
  withResult : Bool
  args : List Tok
  onError : List Tok
  onSuccess : List Tok

/-- The tokens of a generated method are read as Go. -/
structure Reads (g : GenMethod) (m : Method) : Prop where
  name : m.name = g.name
  params : ParamList g.params m.params
  results : ExprList true g.results (m.results.map .ident)
  withResult : m.withResult = g.withResult
  args : ExprList true g.args m.args
  onError : ExprList false g.onError m.onError
  onSuccess : ExprList false g.onSuccess m.onSuccess

namespace Method

variable (o : Package) (m : Method)

/-- The variables on the left of `:=` and the types of the values on the right. -/
def assigned : List (String × VarType) := if m.withResult then [("results", .list), ("err", .error)] else [("err", .error)]

/-- The type of a parameter; the blank identifier names nothing. -/
def param (x : String) : Option String := if x = "_" then none else m.params.lookup x

/-- The variables of the body: the parameters, the variables that `:=` declares, and the receiver. -/
def var (x : String) : Option VarType :=
  match m.param x with
  | some t => some (.named t)
  | none =>
    match m.assigned.lookup x with
    | some t => some t
    | none => if x = "p" then some (.named "p") else none

/-- The value of a variable can be assigned to a type. -/
def fits : VarType → String → Prop
  | .named t, u => t = u
  | .error, u => o.takesError u = true
  | .list, u => o.takesResults u = true

/-- An expression of a `return` can be assigned to the result type `u`.  A name that is a variable is no literal and no
type. -/
def returns : Tok → String → Prop
  | .lit "0", u => o.kind u = some .numeric
  | .lit "false", u => match m.var "false" with
    | some v => fits o v u
    | none => o.kind u = some .bool
  | .lit "nil", u => match m.var "nil" with
    | some v => fits o v u
    | none => o.kind u = some .nilable
  | .result _ t, u => (m.var "results" = some .list ∨ ∃ v, m.var "results" = some (.named v) ∧ o.takesResults v = true) ∧
      m.var t = none ∧ (o.kind t).isSome ∧ t = u
  | _, _ => False

/-- The method obeys the rules of Go. -/
structure Compiles : Prop where
  /-- receiver and parameters have different names, but for the blank identifier -/
  distinct : (("p" :: m.params.map Prod.fst).filter (· ≠ "_")).Nodup
  /-- field and method have different names -/
  field : m.name ≠ "slot"
  /-- the types of the signature are known -/
  types : (∀ q ∈ m.params, (o.kind q.2).isSome) ∧ ∀ t ∈ m.results, (o.kind t).isSome
  /-- arguments are string literals and variables that are known before `:=` -/
  arguments : ∀ a ∈ m.args, (∃ s, a = .quoted s) ∨ ∃ x, a = .ident x ∧ ((m.param x).isSome ∨ x = "p")
  /-- `:=` declares a variable -/
  new : ∃ x ∈ m.assigned, m.param x.1 = none
  /-- and assigns to parameters what fits their types -/
  assigns : ∀ x ∈ m.assigned, ∀ t, m.param x.1 = some t → fits o x.2 t
  /-- and a variable that it declares is used; `err` is in the condition -/
  used : m.withResult = true → m.param "results" = none → ∃ k t, .result k t ∈ m.onSuccess
  /-- `nil != err` -/
  condition : match m.var "nil", m.var "err" with
    | none, _ => True
    | some (.named t), some (.named u) => o.comparable t u = true
    | some (.named t), _ => o.comparable t "error" = true
    | some _, _ => False
  /-- what is returned fits the results -/
  error : m.onError.length = m.results.length ∧ ∀ k (h : k < m.results.length) (h' : k < m.onError.length),
    m.returns o m.onError[k] m.results[k]
  success : m.onSuccess.length = m.results.length ∧ ∀ k (h : k < m.results.length) (h' : k < m.onSuccess.length),
    m.returns o m.onSuccess[k] m.results[k]

end Method

/-- A generated method is Go that compiles. -/
def GenMethod.compiles (o : Package) (g : GenMethod) : Prop := ∃ m, Reads g m ∧ m.Compiles o

/-! ## Reading is unique -/

theorem ParamList.det {ts : List Tok} {a b : List (String × String)} (ha : ParamList ts a) (hb : ParamList ts b) : a = b := by
  induction ha generalizing b with
  | nil => cases hb; rfl
  | last x t => cases hb; rfl
  | cons x t _ ih => cases hb with | cons _ _ hb => rw [ih hb]

theorem ExprList.det {tr : Bool} {ts a b : List Tok} (ha : ExprList tr ts a) (hb : ExprList tr ts b) : a = b := by
  induction ha generalizing b with
  | nil => cases hb; rfl
  | last x h => cases hb; rfl
  | comma x h ht =>
    cases hb with
    | comma => rfl
    | cons _ _ hx hb => cases hb; exact absurd rfl hx
  | cons x h hx hr ih =>
    cases hb with
    | comma => cases hr; exact absurd rfl hx
    | cons _ _ hx' hb => rw [ih hb]

/-- What a generated method is read as. -/
def readMethod (target : String) (m : AstMethod) : Method where
  name := m.name
  params := m.params
  results := m.results.map Prod.snd
  withResult := decide (0 < m.results.length)
  args := .quoted target :: .quoted m.name :: m.params.map fun q => .ident q.1
  onError := m.results.map fun r => .lit (defaultOf r.2)
  onSuccess := (m.results.zipIdx).map fun (r, k) => .result k r.2

theorem reads_generated (target : String) (m : AstMethod) : Reads (genMethod target m) (readMethod target m) where
  name := rfl
  params := params_list m.params.length 0 m.params (by omega)
  results := by
    have := expr_list true (fun _ (r : String × String) => Tok.ident r.2) (by simp) m.results.length 0 m.results (by simp)
    rw [map_zipIdx_const (fun r : String × String => Tok.ident r.2)] at this
    simpa [genMethod, range, readMethod, List.map_map, Function.comp_def] using this
  withResult := rfl
  args := by
    have hx := expr_list true (fun _ (p : String × String) => Tok.ident p.1) (by simp) m.params.length 0 m.params (by simp)
    rw [map_zipIdx_const (fun p : String × String => Tok.ident p.1)] at hx
    simp only [genMethod, range, readMethod]
    refine .cons _ (by simp) (by simp) ?_
    cases hps : m.params with
    | nil => exact .comma _ (by simp) rfl
    | cons p rest =>
      rw [hps] at hx
      exact .cons _ (by simp) (by simp) hx
  onError := by
    have := expr_list false (fun _ (r : String × String) => Tok.lit (defaultOf r.2)) (by simp) m.results.length 0 m.results (by simp)
    rw [map_zipIdx_const (fun r : String × String => Tok.lit (defaultOf r.2))] at this
    exact this
  onSuccess := by
    have := expr_list false (fun k (r : String × String) => Tok.result k r.2) (by simp) m.results.length 0 m.results (by simp)
    simp only [genMethod]
    split
    · exact this
    · rename_i hz
      have : m.results = [] := List.eq_nil_of_length_eq_zero (by omega)
      simp only [readMethod, this]; exact .nil

theorem map_ident_inj {a b : List String} (h : a.map Tok.ident = b.map Tok.ident) : a = b :=
  List.map_inj_right (fun _ _ h => Tok.ident.inj h) |>.mp h

theorem Reads.det {g : GenMethod} {a b : Method} (ha : Reads g a) (hb : Reads g b) : a = b := by
  have h1 := ha.name.trans hb.name.symm
  have h2 := ha.params.det hb.params
  have h3 := map_ident_inj (ha.results.det hb.results)
  have h4 := ha.withResult.trans hb.withResult.symm
  have h5 := ha.args.det hb.args
  have h6 := ha.onError.det hb.onError
  have h7 := ha.onSuccess.det hb.onSuccess
  cases a; cases b
  simp only at h1 h2 h3 h4 h5 h6 h7
  subst h1; subst h2; subst h3; subst h4; subst h5; subst h6; subst h7
  rfl

theorem compiles_iff (o : Package) (target : String) (m : AstMethod) :
    GenMethod.compiles o (genMethod target m) ↔ (readMethod target m).Compiles o := by
  constructor
  · rintro ⟨r, hr, hc⟩
    rwa [hr.det (reads_generated target m)] at hc
  · exact fun h => ⟨_, reads_generated target m, h⟩

/-! ## C136 -/

private theorem lookup_none {β : Type} {l : List (String × β)} {x : String} (h : ∀ q ∈ l, q.1 ≠ x) : l.lookup x = none := by
  induction l with
  | nil => rfl
  | cons q l ih =>
    rw [List.lookup_cons]
    have : (x == q.1) = false := by
      rw [beq_eq_false_iff_ne]
      exact fun e => h q List.mem_cons_self e.symm
    rw [this]
    exact ih fun q hq => h q (List.mem_cons_of_mem _ hq)

private theorem lookup_some {β : Type} {l : List (String × β)} {x : String} {t : β} (h : l.lookup x = some t) : (x, t) ∈ l := by
  induction l with
  | nil => cases h
  | cons q l ih =>
    rw [List.lookup_cons] at h
    by_cases e : x = q.1
    · subst e
      simp only [beq_self_eq_true, Option.some.injEq] at h
      subst h
      exact List.mem_cons_self
    · have : (x == q.1) = false := by rw [beq_eq_false_iff_ne]; exact e
      rw [this] at h
      exact List.mem_cons_of_mem _ (ih h)

private theorem lookup_isSome {β : Type} {l : List (String × β)} {q : String × β} (h : q ∈ l) : (l.lookup q.1).isSome := by
  cases e : l.lookup q.1 with
  | some _ => rfl
  | none =>
    exfalso
    induction l with
    | nil => cases h
    | cons r l ih =>
      rw [List.lookup_cons] at e
      by_cases e' : q.1 = r.1
      · rw [e'] at e; simp at e
      · have : (q.1 == r.1) = false := by rw [beq_eq_false_iff_ne]; exact e'
        rw [this] at e
        rcases List.mem_cons.mp h with h | h
        · exact e' (by rw [h])
        · exact ih h e

/-- The names that the template uses itself, apart from that of the receiver. -/
def templateNames : List String := ["nil", "false", "err", "results"]

variable {o : Package} {target : String}

theorem compiles_exact (m : AstMethod) (ho : o.Usual)
    (hd : ((m.params.map Prod.fst).filter (· ≠ "_")).Nodup) (hn : ∀ q ∈ m.params, q.1 ∉ templateNames) :
    (readMethod target m).Compiles o ↔
      m.name ≠ "slot" ∧ (∀ q ∈ m.params, q.1 ≠ "_" ∧ q.1 ≠ "p" ∧ (o.kind q.2).isSome) ∧
      ∀ r ∈ m.results, (∀ q ∈ m.params, q.1 ≠ r.2) ∧ r.2 ≠ "p" ∧ r.2 ≠ "err" ∧ r.2 ≠ "results" ∧
        (r.2 ∈ handled ∨ o.kind r.2 = some .nilable) := by
  have hp := ho.predeclared
  have hpar : ∀ x, x ∈ templateNames → (readMethod target m).param x = none := by
    intro x hx
    unfold Method.param
    split
    · rfl
    · exact lookup_none fun q hq e => hn q hq (e ▸ hx)
  have hvar : ∀ x, (x = "nil" ∨ x = "false") → (readMethod target m).var x = none := by
    intro x hx
    have h1 := hpar x (by rcases hx with h | h <;> subst h <;> decide)
    unfold Method.var
    rw [h1]
    rcases hx with h | h <;> subst h <;> cases e : (readMethod target m).withResult <;> simp only [Method.assigned, e] <;> rfl
  have hres : m.results ≠ [] → (readMethod target m).var "results" = some .list := by
    intro hne
    unfold Method.var
    rw [hpar "results" (by decide)]
    have : (readMethod target m).withResult = true := by
      simp only [readMethod, decide_eq_true_eq]; exact List.length_pos_iff.mpr hne
    simp only [Method.assigned, this]
    rfl
  -- a result type is not hidden in the body
  have hty : ∀ t, m.results ≠ [] → t ≠ "_" → ((readMethod target m).var t = none ↔
      (∀ q ∈ m.params, q.1 ≠ t) ∧ t ≠ "p" ∧ t ≠ "err" ∧ t ≠ "results") := by
    intro t hne hb
    have hw : (readMethod target m).withResult = true := by
      simp only [readMethod, decide_eq_true_eq]; exact List.length_pos_iff.mpr hne
    have hpt : (readMethod target m).param t = m.params.lookup t := by
      unfold Method.param
      rw [if_neg hb]
      rfl
    unfold Method.var
    rw [hpt]
    constructor
    · intro h
      cases e : m.params.lookup t with
      | some _ => rw [e] at h; cases h
      | none =>
        rw [e] at h
        simp only [Method.assigned, hw, if_true] at h
        refine ⟨fun q hq e' => ?_, ?_, ?_, ?_⟩
        · have := lookup_isSome hq
          rw [e', e] at this
          cases this
        · intro e'; subst e'; cases h
        · intro e'; subst e'; cases h
        · intro e'; subst e'; cases h
    · rintro ⟨h1, h2, h3, h4⟩
      rw [lookup_none h1]
      simp only [Method.assigned, hw, if_true]
      rw [lookup_none (l := [("results", VarType.list), ("err", VarType.error)]) (by
        intro q hq
        simp only [List.mem_cons, List.not_mem_nil, or_false] at hq
        rcases hq with rfl | rfl
        · exact fun e => h4 e.symm
        · exact fun e => h3 e.symm)]
      simp [h2]
  have hk : ∀ t ∈ handled, t ≠ "bool" → o.kind t = some .numeric := by
    intro t ht hb
    simp only [handled, List.mem_cons, List.not_mem_nil, or_false] at ht
    rcases ht with h | h | h | h | h | h | h | h | h | h | h | h | h <;> subst h
    · exact absurd rfl hb
    all_goals exact hp _ _ (by decide)
  have hdef : ∀ t, (readMethod target m).returns o (.lit (defaultOf t)) t ↔ (t ∈ handled ∨ o.kind t = some .nilable) := by
    intro t
    rcases defaultOf_cases t with ⟨h, e⟩ | ⟨h, hb, e⟩ | ⟨h, e⟩
    · subst h
      rw [e]
      simp only [Method.returns, hvar "false" (.inr rfl)]
      exact ⟨fun _ => .inl (by decide), fun _ => hp _ _ (by decide)⟩
    · rw [e]
      simp only [Method.returns]
      exact ⟨fun _ => .inl h, fun _ => hk t h hb⟩
    · rw [e]
      simp only [Method.returns, hvar "nil" (.inl rfl)]
      exact ⟨.inr, fun h' => h'.resolve_left h⟩
  have hblank : ∀ t, (t ∈ handled ∨ o.kind t = some .nilable) → t ≠ "_" := by
    rintro t (h | h) e
    · subst e; exact absurd h (by decide)
    · rw [e, ho.blank] at h; cases h
  have hknown : ∀ t, (t ∈ handled ∨ o.kind t = some .nilable) → (o.kind t).isSome := by
    rintro t (h | h)
    · by_cases hb : t = "bool"
      · rw [hb, hp "bool" .bool (by decide)]; rfl
      · rw [hk t h hb]; rfl
    · rw [h]; rfl
  constructor
  · intro C
    refine ⟨C.field, fun q hq => ⟨?_, ?_, C.types.1 q hq⟩, fun r hr => ?_⟩
    · intro e
      rcases C.arguments (.ident q.1) (List.mem_cons_of_mem _ (List.mem_cons_of_mem _ (List.mem_map.mpr ⟨q, hq, rfl⟩)))
        with ⟨s, h⟩ | ⟨x, h, h'⟩
      · cases h
      · cases h
        rw [e] at h'
        rcases h' with h' | h'
        · simp [Method.param] at h'
        · exact absurd h' (by decide)
    · intro e
      have := C.distinct
      rw [List.filter_cons_of_pos (by decide)] at this
      have hnot := (List.nodup_cons.mp this).1
      exact hnot (List.mem_filter.mpr ⟨List.mem_map.mpr ⟨q, hq, e⟩, by decide⟩)
    · obtain ⟨k, hk, rfl⟩ := List.mem_iff_getElem.mp hr
      have hne : m.results ≠ [] := List.ne_nil_of_mem hr
      have h1 := C.error.2 k (by simpa [readMethod] using hk) (by simpa [readMethod] using hk)
      have h2 := C.success.2 k (by simpa [readMethod] using hk) (by simpa [readMethod] using hk)
      simp only [readMethod, List.getElem_map, List.getElem_zipIdx] at h1 h2
      have h1 := (hdef m.results[k].2).mp h1
      have h2 : (readMethod target m).returns o (.result (0 + k) m.results[k].2) m.results[k].2 := h2
      simp only [Method.returns] at h2
      have hb := hblank _ h1
      have := (hty _ hne hb).mp h2.2.1
      exact ⟨this.1, this.2.1, this.2.2.1, this.2.2.2, h1⟩
  · rintro ⟨h1, h2, h3⟩
    have hnone : ∀ x ∈ (readMethod target m).assigned, (readMethod target m).param x.1 = none := by
      intro x hx
      refine hpar _ ?_
      simp only [Method.assigned] at hx
      split at hx
      · simp only [List.mem_cons, List.not_mem_nil, or_false] at hx
        rcases hx with rfl | rfl <;> decide
      · simp only [List.mem_cons, List.not_mem_nil, or_false] at hx
        subst hx; decide
    refine ⟨?_, h1, ⟨fun q hq => (h2 q hq).2.2, ?_⟩, ?_, ?_, ?_, ?_, ?_, ⟨by simp [readMethod], ?_⟩, ⟨by simp [readMethod], ?_⟩⟩
    · rw [List.filter_cons_of_pos (by decide), List.nodup_cons]
      refine ⟨fun h => ?_, hd⟩
      obtain ⟨q, hq, e⟩ := List.mem_map.mp (List.mem_filter.mp h).1
      exact (h2 q hq).2.1 e
    · intro t ht
      obtain ⟨r, hr, rfl⟩ := List.mem_map.mp ht
      exact hknown _ (h3 r hr).2.2.2.2
    · intro a ha
      simp only [readMethod, List.mem_cons, List.mem_map] at ha
      rcases ha with rfl | rfl | ⟨q, hq, rfl⟩
      · exact .inl ⟨_, rfl⟩
      · exact .inl ⟨_, rfl⟩
      · refine .inr ⟨_, rfl, .inl ?_⟩
        unfold Method.param
        rw [if_neg (h2 q hq).1]
        exact lookup_isSome hq
    · refine ⟨("err", .error), ?_, hpar _ (by decide)⟩
      simp only [Method.assigned]
      split <;> simp
    · intro x hx t ht
      rw [hnone x hx] at ht
      cases ht
    · intro hw _
      have hw : 0 < m.results.length := by simpa [readMethod] using hw
      exact ⟨_, _, List.mem_map.mpr ⟨(m.results[0], 0), List.mem_zipIdx_iff_getElem?.mpr (List.getElem?_eq_getElem hw), rfl⟩⟩
    · rw [hvar "nil" (.inl rfl)]
      trivial
    · intro k hk' _
      have hk2 : k < m.results.length := by simpa [readMethod] using hk'
      simp only [readMethod, List.getElem_map]
      exact (hdef _).mpr (h3 _ (List.getElem_mem hk2)).2.2.2.2
    · intro k hk' _
      have hk2 : k < m.results.length := by simpa [readMethod] using hk'
      have hne : m.results ≠ [] := List.ne_nil_of_mem (List.getElem_mem hk2)
      have h := h3 _ (List.getElem_mem hk2)
      simp only [readMethod, List.getElem_map, List.getElem_zipIdx]
      refine ⟨.inl (hres hne), ?_, hknown _ h.2.2.2.2, rfl⟩
      exact (hty _ hne (hblank _ h.2.2.2.2)).mpr ⟨h.1, h.2.1, h.2.2.1, h.2.2.2.1⟩

/-- The parsed parameters have the first names of the fields. -/
theorem parsed_params {ps : List Field} {qs : List (String × String)} (h : parseAll parseParam ps = .ok qs) :
    (∀ q ∈ qs, ∃ f ∈ ps, f.names.head? = some q.1 ∧ f.ty = .ident q.2) ∧
    (∀ f ∈ ps, ∃ q ∈ qs, f.names.head? = some q.1 ∧ f.ty = .ident q.2) ∧
    (qs.map Prod.fst).Sublist ((declared ps).map Prod.fst) := by
  obtain ⟨hl, hk⟩ := parseAll_ok h
  clear h
  induction ps generalizing qs with
  | nil => cases qs with
    | nil => exact ⟨by simp, by simp, by simp⟩
    | cons q qs => cases hl
  | cons f ps ih =>
    cases qs with
    | nil => cases hl
    | cons q qs =>
      obtain ⟨y, hy, hp⟩ := hk 0 f rfl
      simp only [List.getElem?_cons_zero, Option.some.injEq] at hy
      subst hy
      have hf := parseParam_ok hp
      obtain ⟨i1, i2, i3⟩ := ih (qs := qs) (by simpa using hl) (fun k x hx => hk (k + 1) x (by simpa using hx))
      refine ⟨?_, ?_, ?_⟩
      · intro q' hq'
        rcases List.mem_cons.mp hq' with rfl | hq'
        · exact ⟨f, List.mem_cons_self, hf⟩
        · obtain ⟨g, hg, h⟩ := i1 q' hq'
          exact ⟨g, List.mem_cons_of_mem _ hg, h⟩
      · intro g hg
        rcases List.mem_cons.mp hg with rfl | hg
        · exact ⟨q, List.mem_cons_self, hf⟩
        · obtain ⟨q', hq', h⟩ := i2 g hg
          exact ⟨q', List.mem_cons_of_mem _ hq', h⟩
      · simp only [declared, List.flatMap_cons, List.map_append, List.map_cons, List.map_map, Function.comp_def] at i3 ⊢
        cases hn : f.names with
        | nil => rw [hn] at hf; cases hf.1
        | cons a as =>
          rw [hn] at hf
          simp only [List.head?_cons, Option.some.injEq] at hf
          simp only [List.map_cons, List.map_id', List.cons_append, hf.1]
          exact .cons_cons _ (i3.trans (List.sublist_append_right _ _))

theorem parsed_results {rs : List Field} {qs : List (String × String)} (h : parseAll parseResult rs = .ok qs) :
    (∀ q ∈ qs, ∃ f ∈ rs, f.ty = .ident q.2) ∧ ∀ f ∈ rs, ∃ q ∈ qs, f.ty = .ident q.2 := by
  obtain ⟨hl, hk⟩ := parseAll_ok h
  constructor
  · intro q hq
    obtain ⟨k, hlt, rfl⟩ := List.mem_iff_getElem.mp hq
    obtain ⟨y, hy, hp⟩ := hk k rs[k] (List.getElem?_eq_getElem (by omega))
    rw [List.getElem?_eq_getElem hlt] at hy
    cases hy
    exact ⟨_, List.getElem_mem _, parseResult_ok hp⟩
  · intro f hf
    obtain ⟨k, hlt, rfl⟩ := List.mem_iff_getElem.mp hf
    obtain ⟨y, hy, hp⟩ := hk k rs[k] (List.getElem?_eq_getElem hlt)
    exact ⟨y, List.mem_of_getElem? hy, parseResult_ok hp⟩

/-- C136 (partial): which methods of an interface the tool turns into Go that compiles, if no parameter is named like
something that the template uses: exactly those not named `slot`, with parameters that are not blank and not named `p`,
whose types are known in the package of the proxy, and with result types that are not hidden by a parameter, the receiver
or a variable of the template, and that are one of the 13 basic types that the tool lists or can be nil.
Missing: the same for all methods; see below. -/
theorem C136_exact_partial (o : Package) (ho : o.Usual) (n target : String) (ps rs : List Field) (m : AstMethod)
    (h : parseMember (.method n ps rs) = .ok m)
    (hd : (((declared ps).map Prod.fst).filter (· ≠ "_")).Nodup)
    (hn : ∀ f ∈ ps, ∀ x, f.names.head? = some x → x ∉ templateNames) :
    GenMethod.compiles o (genMethod target m) ↔
      n ≠ "slot" ∧
      (∀ f ∈ ps, f.names.head? ≠ some "_" ∧ f.names.head? ≠ some "p" ∧ ∃ t, f.ty = .ident t ∧ (o.kind t).isSome) ∧
      ∀ f ∈ rs, ∃ t, f.ty = .ident t ∧ (∀ g ∈ ps, g.names.head? ≠ some t) ∧ t ∉ ["p", "err", "results"] ∧
        (t ∈ handled ∨ o.kind t = some .nilable) := by
  obtain ⟨e1, e2, e3⟩ := parseMember_ok h
  obtain ⟨p1, p2, p3⟩ := parsed_params e2
  obtain ⟨r1, r2⟩ := parsed_results e3
  rw [compiles_iff, compiles_exact m ho (hd.sublist (p3.filter _)) (by
    intro q hq
    obtain ⟨f, hf, h1, _⟩ := p1 q hq
    exact hn f hf _ h1), e1]
  refine and_congr Iff.rfl (and_congr ?_ ?_)
  · constructor
    · intro H f hf
      obtain ⟨q, hq, h1, h2⟩ := p2 f hf
      obtain ⟨a, b, c⟩ := H q hq
      rw [h1]
      exact ⟨fun e => a (Option.some.inj e), fun e => b (Option.some.inj e), _, h2, c⟩
    · intro H q hq
      obtain ⟨f, hf, h1, h2⟩ := p1 q hq
      obtain ⟨a, b, t, c, d⟩ := H f hf
      rw [h1] at a b
      rw [h2] at c
      cases c
      exact ⟨fun e => a (by rw [e]), fun e => b (by rw [e]), d⟩
  · constructor
    · intro H f hf
      obtain ⟨q, hq, h2⟩ := r2 f hf
      obtain ⟨a, b, c, d, e⟩ := H q hq
      refine ⟨_, h2, fun g hg => ?_, by simp [b, c, d], e⟩
      obtain ⟨q', hq', h1, _⟩ := p2 g hg
      rw [h1]
      exact fun e => a q' hq' (Option.some.inj e)
    · intro H q hq
      obtain ⟨f, hf, h2⟩ := r1 q hq
      obtain ⟨t, c, a, b, e⟩ := H f hf
      rw [h2] at c
      cases c
      simp only [List.mem_cons, List.not_mem_nil, or_false, not_or] at b
      refine ⟨fun q' hq' e => ?_, b.1, b.2.1, b.2.2, e⟩
      obtain ⟨g, hg, h1, _⟩ := p1 q' hq'
      exact a g hg (by rw [h1, e])

private theorem unique_name {l : List (String × String)} (x : String) (hx : x ≠ "_")
    (hnd : ((l.map Prod.fst).filter (· ≠ "_")).Nodup) {t u : String} (ht : (x, t) ∈ l) (hu : (x, u) ∈ l) : t = u := by
  induction l with
  | nil => cases ht
  | cons r l ih =>
    rw [List.map_cons] at hnd
    by_cases hr : r.1 = x
    · rw [List.filter_cons_of_pos (by rw [hr]; simpa using hx), List.nodup_cons] at hnd
      have no : ∀ v, (x, v) ∉ l := fun v hv => hnd.1 (List.mem_filter.mpr
        ⟨List.mem_map.mpr ⟨_, hv, hr.symm⟩, by rw [hr]; simpa using hx⟩)
      rcases List.mem_cons.mp ht with ht | ht
      · rcases List.mem_cons.mp hu with hu | hu
        · rw [← hu] at ht; exact (Prod.mk.inj ht).2
        · exact absurd hu (no _)
      · exact absurd ht (no _)
    · have hnd' := hnd.sublist ((List.sublist_cons_self _ _).filter _)
      have ne : ∀ v, (x, v) ≠ r := fun v e => hr (by rw [← e])
      exact ih hnd' ((List.mem_cons.mp ht).resolve_left (ne _)) ((List.mem_cons.mp hu).resolve_left (ne _))

/-- C136 (refuted for parameters named `err`): a method without results and a parameter `err`, like `Report(err string)`,
never compiles, as `err :=` declares nothing; one with results does only if an `error` can be assigned to the parameter,
whose value the answer then replaces. -/
theorem C136_err_refuted (o : Package) (n target : String) (ps rs : List Field) (m : AstMethod)
    (h : parseMember (.method n ps rs) = .ok m) (hd : (((declared ps).map Prod.fst).filter (· ≠ "_")).Nodup)
    (f : Field) (t : String) (hf : f ∈ ps) (hx : f.names.head? = some "err") (ht : f.ty = .ident t)
    (hc : GenMethod.compiles o (genMethod target m)) : rs ≠ [] ∧ o.takesError t = true := by
  obtain ⟨e1, e2, e3⟩ := parseMember_ok h
  obtain ⟨_, p2, p3⟩ := parsed_params e2
  obtain ⟨q, hq, h1, h2⟩ := p2 f hf
  rw [hx] at h1
  rw [ht] at h2
  cases h2
  have h1 := Option.some.inj h1
  have C := (compiles_iff o target m).mp hc
  have hpar : (readMethod target m).param "err" = some q.2 := by
    have hs := lookup_isSome hq
    rw [← h1] at hs
    cases e : m.params.lookup "err" with
    | none => rw [e] at hs; cases hs
    | some u =>
      have hu := lookup_some e
      have hnd := hd.sublist (p3.filter _)
      have : u = q.2 := unique_name "err" (by decide) hnd hu (by rw [h1]; exact hq)
      simp only [Method.param, readMethod]
      rw [if_neg (by decide), e, this]
  constructor
  · intro e
    subst e
    have hres : m.results = [] := by
      have := (parseAll_ok e3).1
      exact List.eq_nil_of_length_eq_zero (by simpa using this.symm)
    obtain ⟨x, hx, hnew⟩ := C.new
    have : (readMethod target m).assigned = [("err", .error)] := by
      simp only [Method.assigned, readMethod, hres]
      rfl
    rw [this] at hx
    simp only [List.mem_cons, List.not_mem_nil, or_false] at hx
    subst hx
    rw [hpar] at hnew
    cases hnew
  · have := C.assigns ("err", .error) (by simp only [Method.assigned]; split <;> simp) q.2 hpar
    exact this

/-! ### Examples -/

/-- The usual types and `error`. -/
def plainPackage : Package where
  kind := fun t => predeclared.lookup t
  takesError := fun t => t == "error"
  takesResults := fun _ => false
  comparable := fun t u => t == u

theorem plain_usual : plainPackage.Usual where
  predeclared := by
    intro t k h
    simp only [predeclared, List.mem_cons, List.not_mem_nil, or_false, Prod.mk.injEq] at h
    simp only [plainPackage]
    rcases h with ⟨rfl, rfl⟩ | ⟨rfl, rfl⟩ | ⟨rfl, rfl⟩ | ⟨rfl, rfl⟩ | ⟨rfl, rfl⟩ | ⟨rfl, rfl⟩ | ⟨rfl, rfl⟩ | ⟨rfl, rfl⟩ | ⟨rfl, rfl⟩ | ⟨rfl, rfl⟩ | ⟨rfl, rfl⟩ | ⟨rfl, rfl⟩ | ⟨rfl, rfl⟩ | ⟨rfl, rfl⟩ | ⟨rfl, rfl⟩ | ⟨rfl, rfl⟩ | ⟨rfl, rfl⟩ | ⟨rfl, rfl⟩ | ⟨rfl, rfl⟩ | ⟨rfl, rfl⟩ <;> decide
  blank := by decide

/-- The method generated for `Add(x float64, y float64) (float64, error)` compiles. -/
example : ∃ m, parseMember (.method "Add" [⟨["x"], .ident "float64"⟩, ⟨["y"], .ident "float64"⟩]
      [⟨[], .ident "float64"⟩, ⟨[], .ident "error"⟩]) = .ok m ∧ GenMethod.compiles plainPackage (genMethod "IMath" m) := by
  refine ⟨_, rfl, (C136_exact_partial plainPackage plain_usual "Add" _ [⟨["x"], .ident "float64"⟩, ⟨["y"], .ident "float64"⟩]
    [⟨[], .ident "float64"⟩, ⟨[], .ident "error"⟩] _ rfl (by decide) (by simp [templateNames])).mpr ⟨by decide, ?_, ?_⟩⟩
  · intro f hf
    simp only [List.mem_cons, List.not_mem_nil, or_false] at hf
    rcases hf with rfl | rfl <;> exact ⟨by decide, by decide, _, rfl, by decide⟩
  · intro f hf
    simp only [List.mem_cons, List.not_mem_nil, or_false] at hf
    rcases hf with rfl | rfl
    · exact ⟨_, rfl, by decide, by decide, .inl (by decide)⟩
    · exact ⟨_, rfl, by decide, by decide, .inr (by decide)⟩

/-- C136 (refuted): legal methods, also with results for which the tool knows the default value, whose proxies do not
compile: a blank parameter, one with the name of the receiver, one named `err`, one with the name of a result type. -/
theorem C136_names_refuted : ∀ q ∈ [("_", "int"), ("p", "int"), ("err", "string"), ("bool", "int")],
    ∃ m, parseMember (.method "Put" [⟨[q.1], .ident q.2⟩] [⟨[], .ident "bool"⟩]) = .ok m ∧
      ¬ GenMethod.compiles plainPackage (genMethod "IStore" m) := by
  intro q hq
  simp only [List.mem_cons, List.not_mem_nil, or_false] at hq
  rcases hq with rfl | rfl | rfl | rfl
  · refine ⟨_, rfl, fun h => ?_⟩
    have := (C136_exact_partial plainPackage plain_usual "Put" _ [⟨["_"], .ident "int"⟩] [⟨[], .ident "bool"⟩] _ rfl (by decide)
      (by simp [templateNames])).mp h
    exact (this.2.1 _ List.mem_cons_self).1 rfl
  · refine ⟨_, rfl, fun h => ?_⟩
    have := (C136_exact_partial plainPackage plain_usual "Put" _ [⟨["p"], .ident "int"⟩] [⟨[], .ident "bool"⟩] _ rfl (by decide)
      (by simp [templateNames])).mp h
    exact (this.2.1 _ List.mem_cons_self).2.1 rfl
  · refine ⟨_, rfl, fun h => ?_⟩
    have := C136_err_refuted plainPackage "Put" _ [⟨["err"], .ident "string"⟩] [⟨[], .ident "bool"⟩] _ rfl (by decide) _ "string" List.mem_cons_self rfl rfl h
    exact absurd this.2 (by decide)
  · refine ⟨_, rfl, fun h => ?_⟩
    have := (C136_exact_partial plainPackage plain_usual "Put" _ [⟨["bool"], .ident "int"⟩] [⟨[], .ident "bool"⟩] _ rfl (by decide)
      (by simp [templateNames])).mp h
    obtain ⟨t, ht, h, _⟩ := this.2.2 _ List.mem_cons_self
    cases ht
    exact h _ List.mem_cons_self rfl

/-- `Report(err error) bool` compiles, and the argument is what was passed: it is read before `:=`. -/
example : ∃ m, parseMember (.method "Report" [⟨["err"], .ident "error"⟩] [⟨[], .ident "bool"⟩]) = .ok m ∧
    GenMethod.compiles plainPackage (genMethod "ILog" m) := by
  refine ⟨_, rfl, (compiles_iff _ _ _).mpr ?_⟩
  refine ⟨by decide, by decide, ⟨by decide, by decide⟩, ?_, ⟨("results", .list), by decide, by decide⟩, ?_, fun _ _ => ⟨0, "bool", by decide⟩, trivial, ⟨rfl, ?_⟩, ⟨rfl, ?_⟩⟩
  · intro a ha
    simp only [readMethod, List.map_cons, List.map_nil, List.mem_cons, List.not_mem_nil, or_false] at ha
    rcases ha with rfl | rfl | rfl
    · exact .inl ⟨_, rfl⟩
    · exact .inl ⟨_, rfl⟩
    · exact .inr ⟨_, rfl, .inl rfl⟩
  · intro x hx t ht
    have hx : x ∈ [("results", VarType.list), ("err", VarType.error)] := hx
    simp only [List.mem_cons, List.not_mem_nil, or_false] at hx
    rcases hx with rfl | rfl
    · cases ht
    · cases ht; rfl
  · intro k h h'
    have : k = 0 := by simp [readMethod] at h; omega
    subst this
    exact (by decide : plainPackage.kind "bool" = some .bool)
  · intro k h h'
    have : k = 0 := by simp [readMethod] at h; omega
    subst this
    exact ⟨.inl rfl, rfl, rfl, rfl⟩

end Verif.Props
