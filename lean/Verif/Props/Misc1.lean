import Verif.Misc.Set

/-!
# C70: Set semantics
-/

namespace Verif.Props

open Verif Verif.Misc

/-- `x` is in the set after the operations: the last operation on `x` added it. -/
def inSet (ops : List Op) (x : Item) : Bool :=
  match (ops.filter fun op => op.item = x).getLast? with
  | some (.add _) => true
  | _ => false

/-- The result the last operation should have: true if it changes membership. -/
def changes (ops : List Op) : Op → Bool
  | .add x => !inSet ops x
  | .remove x => inSet ops x

/-- The results of a sequence of operations that follows `pre`. -/
def expected : List Op → List Op → List Bool
  | _, [] => []
  | pre, op :: ops => changes pre op :: expected (pre ++ [op]) ops

theorem inSet_append (ops : List Op) (op : Op) (x : Item) :
    inSet (ops ++ [op]) x = if op.item = x then (match op with | .add _ => true | .remove _ => false) else inSet ops x := by
  unfold inSet
  rw [List.filter_append]
  by_cases e : op.item = x
  · simp [e]
    cases op <;> rfl
  · simp [e]

/-- The entries represent the set. -/
def SetRepr (ops : List Op) (d : Data) : Prop := d.Nodup ∧ (∀ x, x ∈ d ↔ inSet ops x = true) ∧ ∀ x ∈ d, x.reflexive = true

theorem lookup_iff {ops : List Op} {d : Data} (h : SetRepr ops d) (x : Item) : lookup d x = inSet ops x := by
  have : lookup d x = true ↔ x ∈ d := by
    unfold lookup goEq
    rw [List.any_eq_true]
    constructor
    · rintro ⟨y, hy, e⟩
      simp at e
      rw [← e.2]; exact hy
    · intro hx
      exact ⟨x, hx, by simp [h.2.2 x hx]⟩
  cases hl : lookup d x <;> cases hi : inSet ops x <;> simp_all [h.2.1]

theorem repr_step {ops : List Op} {d : Data} (h : SetRepr ops d) (op : Op) (hr : op.item.reflexive = true) :
    ∃ d', op.run d = .ok (d', changes ops op) ∧ SetRepr (ops ++ [op]) d' := by
  have hh : op.item.hashable = true := by
    cases hx : op.item <;> simp_all [Item.reflexive, Item.hashable]
  have hl := lookup_iff h op.item
  cases op with
  | add x =>
    simp only [Op.item] at hr hh hl
    cases hi : inSet ops x with
    | true =>
      refine ⟨d, ?_, h.1, ?_, h.2.2⟩
      · simp [Op.run, add, hh, hl, hi, changes]
      · intro y
        rw [inSet_append, h.2.1]
        by_cases e : x = y
        · subst e; simp [Op.item, hi]
        · simp [Op.item, e]
    | false =>
      have hx : x ∉ d := by rw [h.2.1, hi]; simp
      refine ⟨x :: d, ?_, List.nodup_cons.mpr ⟨hx, h.1⟩, ?_, ?_⟩
      · simp [Op.run, add, hh, hl, hi, changes]
      · intro y
        rw [inSet_append, List.mem_cons, h.2.1]
        by_cases e : x = y
        · subst e; simp [Op.item]
        · have e' : ¬ y = x := fun h => e h.symm
          simp [Op.item, e, e']
      · intro y hy
        rcases List.mem_cons.mp hy with e | hy
        · rw [e]; exact hr
        · exact h.2.2 y hy
  | remove x =>
    simp only [Op.item] at hr hh hl
    cases hi : inSet ops x with
    | true =>
      refine ⟨d.filter (fun y => !goEq y x), ?_, List.Pairwise.filter _ h.1, ?_, ?_⟩
      · simp [Op.run, remove, hh, hl, hi, changes]
      · intro y
        rw [inSet_append, List.mem_filter, h.2.1]
        by_cases e : x = y
        · subst e; simp [Op.item, goEq, hr]
        · have e' : ¬ y = x := fun h => e h.symm
          simp [Op.item, e, e', goEq]
      · intro y hy
        exact h.2.2 y (List.mem_filter.mp hy).1
    | false =>
      refine ⟨d, ?_, h.1, ?_, h.2.2⟩
      · simp [Op.run, remove, hh, hl, hi, changes]
      · intro y
        rw [inSet_append, h.2.1]
        by_cases e : x = y
        · subst e; simp [Op.item, hi]
        · simp [Op.item, e]

theorem repr_run (ops pre : List Op) (d : Data) (h : SetRepr pre d) (hr : ∀ op ∈ ops, op.item.reflexive = true) :
    ∃ d', runOps d ops = .ok (d', expected pre ops) ∧ SetRepr (pre ++ ops) d' := by
  induction ops generalizing pre d with
  | nil => exact ⟨d, rfl, by simpa using h⟩
  | cons op ops ih =>
    obtain ⟨d1, e1, h1⟩ := repr_step h op (hr op (List.mem_cons_self ..))
    obtain ⟨d2, e2, h2⟩ := ih (pre ++ [op]) d1 h1 (fun o ho => hr o (List.mem_cons_of_mem _ ho))
    refine ⟨d2, ?_, by simpa using h2⟩
    simp [runOps, e1, e2, expected]

/-- Items that are equal to themselves: nil, and values of comparable types without a NaN inside. -/
def Plain : Item → Prop
  | .nil => True
  | .comparable _ _ => True
  | .nan _ _ => False
  | .unhashable _ => False

theorem Plain.reflexive {x : Item} (h : Plain x) : x.reflexive = true := by
  cases x <;> first | rfl | exact h.elim

/-- C70 (partial): for items that are equal to themselves, every operation returns true exactly if it changes
membership, and at the end `ToSlice` lists exactly the members, each once, in some order. Missing: items that are not
equal to themselves, see `C70_nan_refuted`, and items that cannot be hashed, see `C70_unhashable_refuted`. -/
theorem C70_set_partial (ops : List Op) (hr : ∀ op ∈ ops, Plain op.item) :
    ∃ d, runOps [] ops = .ok (d, expected [] ops) ∧
      ∀ xs, ToSlice d xs → xs.Nodup ∧ ∀ x, x ∈ xs ↔ inSet ops x = true := by
  have h0 : SetRepr [] [] := ⟨List.nodup_nil, by simp [inSet], by simp⟩
  obtain ⟨d, e, h⟩ := repr_run ops [] [] h0 (fun op ho => (hr op ho).reflexive)
  refine ⟨d, e, ?_⟩
  intro xs hp
  have hp : xs.Perm d := hp
  exact ⟨hp.nodup_iff.mpr h.1, fun x => by rw [hp.mem_iff, h.2.1]; rfl⟩

example : expected [] [.add (.comparable 0 1), .add (.comparable 0 1), .add .nil, .remove (.comparable 0 1),
    .remove (.comparable 0 1)] = [true, false, true, true, false] := by decide

example : ∀ op ∈ [Op.add (.comparable 0 1), .add (.comparable 0 1), .add .nil, .remove (.comparable 0 1)],
    Plain op.item := by simp [Op.item, Plain]

/-! ### All items -/

/-- How many entries the set should have for `x`: one for a member; for a NaN one for every time it was added. -/
def copies (ops : List Op) : Item → Nat
  | .nan ty v => ops.count (.add (.nan ty v))
  | .unhashable _ => 0
  | x => (inSet ops x).toNat

/-- The result an operation should have: adding a NaN always succeeds and removing it never does. -/
def returns (ops : List Op) : Op → Bool
  | .add (.nan _ _) => true
  | .remove (.nan _ _) => false
  | op => changes ops op

/-- The item can be hashed. -/
def Keyable : Item → Prop
  | .unhashable _ => False
  | _ => True

/-- The results of a sequence of operations that follows `pre`. -/
def allExpected : List Op → List Op → List Bool
  | _, [] => []
  | pre, op :: ops => returns pre op :: allExpected (pre ++ [op]) ops

private theorem goEq_iff (a b : Item) : goEq a b = true ↔ Plain a ∧ a = b := by
  cases a <;> simp [goEq, Item.reflexive, Plain]

private theorem plain_or (x : Item) (h : Keyable x) : Plain x ∨ ∃ ty v, x = .nan ty v := by
  cases x <;> simp_all [Plain, Keyable]

private theorem lookup_copies {ops : List Op} {d : Data} (h : ∀ x, d.count x = copies ops x) (x : Item) (hp : Plain x) :
    lookup d x = inSet ops x := by
  have : lookup d x = true ↔ x ∈ d := by
    unfold lookup
    rw [List.any_eq_true]
    constructor
    · rintro ⟨y, hy, e⟩
      rw [← ((goEq_iff _ _).mp e).2]; exact hy
    · intro hx
      exact ⟨x, hx, (goEq_iff _ _).mpr ⟨hp, rfl⟩⟩
  have hc := h x
  have hx : x ∈ d ↔ inSet ops x = true := by
    rw [← List.count_pos_iff, hc]
    cases x with
    | nan => exact hp.elim
    | unhashable => exact hp.elim
    | _ => simp only [copies]; cases inSet ops _ <;> simp
  cases hl : lookup d x <;> cases hi : inSet ops x <;> simp_all

private theorem lookup_nan (d : Data) (ty v : Nat) : lookup d (.nan ty v) = false := by
  unfold lookup
  rw [List.any_eq_false]
  intro y _ e
  obtain ⟨a, b⟩ := (goEq_iff _ _).mp e
  rw [b] at a
  exact a

private theorem copies_other (ops : List Op) (op : Op) (x : Item) (h : x ≠ op.item) :
    copies (ops ++ [op]) x = copies ops x := by
  cases x with
  | nan ty v =>
    simp only [copies, List.count_append]
    have : op ≠ .add (.nan ty v) := by intro e; rw [e] at h; exact h rfl
    simp [List.count_singleton, this]
  | unhashable => rfl
  | _ =>
    simp only [copies]
    rw [inSet_append, if_neg (fun e : op.item = _ => h e.symm)]

private theorem copies_plain (ops : List Op) (x : Item) (h : Plain x) :
    copies ops x = (inSet ops x).toNat := by
  cases x <;> first | rfl | exact h.elim

private theorem copies_step {ops : List Op} {d : Data} (h : ∀ x, d.count x = copies ops x) (op : Op)
    (hk : Keyable op.item) :
    ∃ d', op.run d = .ok (d', returns ops op) ∧ ∀ x, d'.count x = copies (ops ++ [op]) x := by
  have hh : op.item.hashable = true := by
    cases hx : op.item <;> simp_all [Item.hashable, Keyable]
  have same : ∀ x, x ≠ op.item → d.count x = copies (ops ++ [op]) x := by
    intro x hx; rw [copies_other ops op x hx]; exact h x
  rcases plain_or _ hk with hp | ⟨ty, v, e⟩
  · have hl := lookup_copies h op.item hp
    have hr : returns ops op = changes ops op := by
      cases op with
      | add x => cases x <;> first | rfl | exact hp.elim
      | remove x => cases x <;> first | rfl | exact hp.elim
    rw [hr]
    have hc := h op.item
    rw [copies_plain _ _ hp] at hc
    have ha := inSet_append ops op op.item
    rw [if_pos rfl] at ha
    cases op with
    | add x =>
      simp only [Op.item] at *
      cases hi : inSet ops x with
      | true =>
        refine ⟨d, by simp [Op.run, add, hh, hl, hi, changes], ?_⟩
        intro y
        by_cases e : y = x
        · rw [e, copies_plain _ _ hp, ha, hc, hi]
        · exact same y e
      | false =>
        refine ⟨x :: d, by simp [Op.run, add, hh, hl, hi, changes], ?_⟩
        intro y
        by_cases e : y = x
        · rw [e, copies_plain _ _ hp, ha, List.count_cons_self, hc, hi]; rfl
        · rw [List.count_cons_of_ne (fun e' => e e'.symm)]; exact same y e
    | remove x =>
      simp only [Op.item] at *
      cases hi : inSet ops x with
      | true =>
        refine ⟨d.filter (fun y => !goEq y x), by simp [Op.run, remove, hh, hl, hi, changes], ?_⟩
        intro y
        by_cases e : y = x
        · rw [e, copies_plain _ _ hp, ha]
          show List.count x _ = 0
          rw [List.count_eq_zero]
          intro hm
          have := (List.mem_filter.mp hm).2
          rw [(goEq_iff x x).mpr ⟨hp, rfl⟩] at this
          cases this
        · rw [List.count_filter]
          · exact same y e
          · have : goEq y x = false := by
              refine Bool.eq_false_iff.mpr fun h' => e ((goEq_iff _ _).mp h').2
            rw [this]; rfl
      | false =>
        refine ⟨d, by simp [Op.run, remove, hh, hl, hi, changes], ?_⟩
        intro y
        by_cases e : y = x
        · rw [e, copies_plain _ _ hp, ha, hc, hi]
        · exact same y e
  · have hl := lookup_nan d ty v
    cases op with
    | add x =>
      simp only [Op.item] at *
      subst e
      refine ⟨.nan ty v :: d, by simp [Op.run, add, hh, hl, returns], ?_⟩
      intro y
      by_cases e : y = .nan ty v
      · subst e
        rw [List.count_cons_self, h]
        simp [copies]
      · rw [List.count_cons_of_ne (fun e' => e e'.symm)]; exact same y e
    | remove x =>
      simp only [Op.item] at *
      subst e
      refine ⟨d, by simp [Op.run, remove, hh, hl, returns], ?_⟩
      intro y
      by_cases e : y = .nan ty v
      · subst e
        rw [h]
        simp [copies]
      · exact same y e

private theorem copies_run (ops pre : List Op) (d : Data) (h : ∀ x, d.count x = copies pre x)
    (hk : ∀ op ∈ ops, Keyable op.item) :
    ∃ d', runOps d ops = .ok (d', allExpected pre ops) ∧ ∀ x, d'.count x = copies (pre ++ ops) x := by
  induction ops generalizing pre d with
  | nil => exact ⟨d, rfl, by simpa using h⟩
  | cons op ops ih =>
    obtain ⟨d1, e1, h1⟩ := copies_step h op (hk op (List.mem_cons_self ..))
    obtain ⟨d2, e2, h2⟩ := ih (pre ++ [op]) d1 h1 (fun o ho => hk o (List.mem_cons_of_mem _ ho))
    refine ⟨d2, ?_, by simpa using h2⟩
    simp [runOps, e1, e2, allExpected]

private theorem run_append (ops : List Op) (op : Op) (post : List Op) (d d' : Data) (bs : List Bool)
    (h : runOps d ops = .ok (d', bs)) (hp : op.run d' = .panic) : runOps d (ops ++ op :: post) = .panic := by
  induction ops generalizing d bs with
  | nil => cases h; simp [runOps, hp]
  | cons o ops ih =>
    simp only [runOps, List.cons_append] at h ⊢
    split at h
    · rename_i d1 b e
      split at h
      · rename_i d2 bs2 e2
        cases h
        rw [ih d1 bs2 e2]
      · rename_i hne; exact absurd h (by intro h; exact hne _ _ h)
    · cases h

/-- C70 made exact: what every sequence of operations on any items does.  As long as the items can be hashed, every
operation returns what `returns` says and `ToSlice` lists each item `copies` times: members once, a NaN as often as
it was added.  The first operation on an item that cannot be hashed panics.  Full statement of C70: a NaN and an item
that cannot be hashed are treated like all others. -/
theorem C70_exact_partial (ops : List Op) :
    ((∀ op ∈ ops, Keyable op.item) →
      ∃ d, runOps [] ops = .ok (d, allExpected [] ops) ∧ ∀ xs, ToSlice d xs → ∀ x, xs.count x = copies ops x) ∧
    ((∃ op ∈ ops, ¬ Keyable op.item) → runOps [] ops = .panic) := by
  have h0 : ∀ x, List.count x ([] : Data) = copies [] x := by
    intro x; cases x <;> simp [copies, inSet]
  constructor
  · intro hk
    obtain ⟨d, e, h⟩ := copies_run ops [] [] h0 hk
    refine ⟨d, e, fun xs hp x => ?_⟩
    rw [List.Perm.count_eq hp x, h]
    rfl
  · rintro ⟨op, ho, hn⟩
    have key : ∀ pre : List Op, ∀ l, ops = pre ++ l → (∀ o ∈ pre, Keyable o.item) → (∃ o ∈ l, ¬ Keyable o.item) →
        runOps [] ops = .panic := by
      intro pre l
      induction l generalizing pre with
      | nil => rintro - - ⟨o, ho, -⟩; cases ho
      | cons o l ih =>
        intro e hpre hex
        by_cases hk : Keyable o.item
        · refine ih (pre ++ [o]) (by rw [e]; simp) ?_ ?_
          · intro x hx
            rcases List.mem_append.mp hx with hx | hx
            · exact hpre x hx
            · rw [List.mem_singleton.mp hx]; exact hk
          · obtain ⟨x, hx, hxn⟩ := hex
            rcases List.mem_cons.mp hx with rfl | hx
            · exact absurd hk hxn
            · exact ⟨x, hx, hxn⟩
        · obtain ⟨d, e1, -⟩ := copies_run pre [] [] h0 hpre
          rw [e]
          refine run_append pre o l [] d _ e1 ?_
          cases o with
          | add x => cases x <;> first | rfl | exact (hk trivial).elim
          | remove x => cases x <;> first | rfl | exact (hk trivial).elim
    exact key [] ops rfl (by intro o ho; cases ho) ⟨op, ho, hn⟩

/-- A NaN added twice, a value added twice, both removed. -/
example : allExpected [] [.add (.nan 0 0), .add (.comparable 0 1), .add (.nan 0 0), .add (.comparable 0 1),
      .remove (.nan 0 0), .remove (.comparable 0 1)] = [true, true, true, false, false, true] ∧
    copies [.add (.nan 0 0), .add (.comparable 0 1), .add (.nan 0 0), .add (.comparable 0 1),
      .remove (.nan 0 0), .remove (.comparable 0 1)] (.nan 0 0) = 2 := by decide

/-- A slice is among the items. -/
example : ∃ op ∈ [Op.add .nil, .add (.unhashable 3)], ¬ Keyable op.item :=
  ⟨.add (.unhashable 3), by simp, fun h => h⟩

/-- C70 (refuted): a NaN can be added twice and never removed. -/
theorem C70_nan_refuted : ∃ x d, runOps [] [.add x, .add x, .remove x] = .ok (d, [true, true, false]) ∧
    d = [x, x] := ⟨.nan 0 0, _, rfl, rfl⟩

/-- C70 (refuted): adding a slice panics, as does removing it from any set. -/
theorem C70_unhashable_refuted : ∃ x, ∀ d, add d x = .panic ∧ remove d x = .panic :=
  ⟨.unhashable 0, fun _ => ⟨rfl, rfl⟩⟩

end Verif.Props
