import Verif.Dock.Slot

/-!
# C102: calls of a feature go through the dock that carries it

Full statement: if a dock was made of slots, then every call by a feature of these slots is looked up among these slots:
it is passed to the last of them carried under the name that is called, and sent by this dock if there is none.
False if a slot is used twice or too early.
-/

namespace Verif.Props

open Verif Verif.Codec Verif.Slot

/-- `j` is the last of the slots carried under the name `n`. -/
def LastSlot (s : Slot.State) (slots : List (Option Nat)) (n : Str) (j : Nat) : Prop :=
  ∃ pre post, slots = pre ++ some j :: post ∧ s.name j = some n ∧ ∀ k, some k ∈ post → s.name k ≠ some n

/-- The lookup among the slots from `slots`, on top of a table. -/
private theorem attach_spec (d : Nat) : ∀ (slots : List (Option Nat)) (s : Slot.State), (attach d s slots).dead = false →
    (attach d s slots).name = s.name ∧ (attach d s slots).log = s.log ∧ (attach d s slots).made = s.made ∧
    (∀ i, some i ∈ slots → (attach d s slots).dock i = some d) ∧
    (∀ i, some i ∉ slots → (attach d s slots).dock i = s.dock i) ∧
    (∀ e, e ≠ d → (attach d s slots).table e = s.table e) ∧
    (∀ n j, (attach d s slots).table d n = some j →
      LastSlot s slots n j ∨ (s.table d n = some j ∧ ∀ k, some k ∈ slots → s.name k ≠ some n)) ∧
    (∀ n, (attach d s slots).table d n = none → s.table d n = none ∧ ∀ k, some k ∈ slots → s.name k ≠ some n)
  | [], s, _ => ⟨rfl, rfl, rfl, by simp, by simp [attach], fun _ _ => rfl, fun n j h => Or.inr ⟨h, by simp⟩,
      fun n h => ⟨h, by simp⟩⟩
  | none :: rest, s, h => by cases h
  | some i :: rest, s, h => by
    simp only [attach] at h ⊢
    cases hn : s.name i with
    | none => rw [hn] at h; cases h
    | some m =>
      simp only [hn] at h ⊢
      obtain ⟨h1, h2, h3, h4, h5, h6, h7, h8⟩ := attach_spec d rest _ h
      refine ⟨h1, h2, h3, ?_, ?_, ?_, ?_, ?_⟩
      · intro k hk
        by_cases hr : some k ∈ rest
        · exact h4 k hr
        · rw [h5 k hr]
          rcases List.mem_cons.mp hk with e | e
          · cases e; simp
          · exact absurd e hr
      · intro k hk
        simp only [List.mem_cons, not_or] at hk
        rw [h5 k hk.2]
        exact upd_other _ _ (fun e => hk.1 (by rw [e]))
      · intro e he
        rw [h6 e he]
        exact upd_other _ _ he
      · intro n j hj
        rcases h7 n j hj with ⟨pre, post, e1, e2, e3⟩ | ⟨e1, e2⟩
        · exact Or.inl ⟨some i :: pre, post, by simp [e1], e2, e3⟩
        · simp only [upd_same] at e1
          by_cases e : n = m
          · subst e
            rw [upd_same] at e1
            cases e1
            exact Or.inl ⟨[], rest, rfl, hn, e2⟩
          · rw [upd_other _ _ e] at e1
            refine Or.inr ⟨e1, ?_⟩
            intro k hk
            rcases List.mem_cons.mp hk with c | c
            · cases c; rw [hn]; intro c; exact e (Option.some.inj c).symm
            · exact e2 k c
      · intro n hj
        obtain ⟨e1, e2⟩ := h8 n hj
        simp only [upd_same] at e1
        have e : n ≠ m := by rintro rfl; rw [upd_same] at e1; cases e1
        rw [upd_other _ _ e] at e1
        refine ⟨e1, ?_⟩
        intro k hk
        rcases List.mem_cons.mp hk with c | c
        · cases c; rw [hn]; intro c; exact e (Option.some.inj c).symm
        · exact e2 k c

/-- Tables and links of features agree with the features that docks were created with. -/
private structure SlotInv (s : Slot.State) : Prop where
  fresh : ∀ d, s.made d = false → (∀ ss, .made d ss ∉ s.log) ∧ ∀ n, s.table d n = none
  carried : ∀ d ss, .made d ss ∈ s.log → ∀ i, some i ∈ ss → s.name i ≠ none
  dock : ∀ d ss, .made d ss ∈ s.log → ∀ i, some i ∈ ss → s.dock i = some d
  back : ∀ i d, s.dock i = some d → ∃ ss, .made d ss ∈ s.log ∧ some i ∈ ss
  found : ∀ d ss, .made d ss ∈ s.log → ∀ n j, s.table d n = some j → LastSlot s ss n j
  absent : ∀ d ss, .made d ss ∈ s.log → ∀ n, s.table d n = none → ∀ k, some k ∈ ss → s.name k ≠ some n
  inside : ∀ i n d j, .inside i n d j ∈ s.log → ∃ ss, .made d ss ∈ s.log ∧ some i ∈ ss ∧ LastSlot s ss n j
  outside : ∀ i n d, .outside i n d ∈ s.log →
    ∃ ss, .made d ss ∈ s.log ∧ some i ∈ ss ∧ ∀ k, some k ∈ ss → s.name k ≠ some n
  unique : ∀ d ss ss', .made d ss ∈ s.log → .made d ss' ∈ s.log → ss = ss'

/-- No slot is used for two docks. -/
def freshSlots (s : Slot.State) : Slot.Act → Prop
  | .newDock _ slots => ∀ i, some i ∈ slots → s.dock i = none
  | _ => True

private theorem lastSlot_name {s t : Slot.State} {ss : List (Option Nat)} {n : Str} {j : Nat}
    (h : ∀ k, some k ∈ ss → t.name k = s.name k) (hl : LastSlot s ss n j) : LastSlot t ss n j := by
  obtain ⟨pre, post, e1, e2, e3⟩ := hl
  subst e1
  refine ⟨pre, post, rfl, ?_, ?_⟩
  · rw [h j (by simp)]; exact e2
  · intro k hk; rw [h k (by simp [hk])]; exact e3 k hk

private theorem slotInv_step (s : Slot.State) (a : Slot.Act) (s' : Slot.State) (ok : freshSlots s a)
    (h : s.dead = false → SlotInv s) (hs : s.step a = some s') : s'.dead = false → SlotInv s' := by
  intro hd
  unfold State.step at hs
  cases hdead : s.dead with
  | true => simp [hdead] at hs
  | false =>
  have hI := h hdead
  simp only [hdead, Bool.false_eq_true, if_false] at hs
  cases a with
  | carry i n ok =>
    simp only at hs
    split at hs
    · rename_i hn
      split at hs
      · cases hs
        have key : ∀ d ss, .made d ss ∈ s.log → ∀ k, some k ∈ ss → upd s.name i (some n) k = s.name k := by
          intro d ss hm k hk
          refine upd_other _ _ ?_
          rintro rfl
          exact hI.carried d ss hm k hk hn
        refine ⟨hI.fresh, ?_, hI.dock, hI.back, ?_, ?_, ?_, ?_, hI.unique⟩
        · intro d ss hm k hk
          simp only
          rw [key d ss hm k hk]
          exact hI.carried d ss hm k hk
        · intro d ss hm m j hj
          exact lastSlot_name (key d ss hm) (hI.found d ss hm m j hj)
        · intro d ss hm m hj k hk
          simp only
          rw [key d ss hm k hk]
          exact hI.absent d ss hm m hj k hk
        · intro k m d j hj
          obtain ⟨ss, h1, h2, h3⟩ := hI.inside k m d j hj
          exact ⟨ss, h1, h2, lastSlot_name (key d ss h1) h3⟩
        · intro k m d hj
          obtain ⟨ss, h1, h2, h3⟩ := hI.outside k m d hj
          refine ⟨ss, h1, h2, fun l hl => ?_⟩
          simp only
          rw [key d ss h1 l hl]
          exact h3 l hl
      · cases hs; cases hd
    · cases hs
  | newDock d slots =>
    simp only at hs
    split at hs
    · cases hs
    · rename_i hm
      cases hs
      simp only [Bool.not_eq_true] at hm
      obtain ⟨f1, f2⟩ := hI.fresh d hm
      obtain ⟨h1, h2, h3, h4, h5, h6, h7, h8⟩ := attach_spec d slots _ hd
      simp only at h1 h2 h3 h5 h6 h7 h8
      have mem : ∀ e ss, .made e ss ∈ s.log ++ [Ev.made d slots] →
          (e = d ∧ ss = slots) ∨ (e ≠ d ∧ .made e ss ∈ s.log) := by
        intro e ss he
        rcases List.mem_append.mp he with he | he
        · refine Or.inr ⟨fun hed => ?_, he⟩
          rw [hed] at he
          exact f1 ss he
        · simp only [List.mem_singleton, Ev.made.injEq] at he
          exact Or.inl he
      have named : ∀ i, some i ∈ slots → s.name i ≠ none := by
        intro i hi hn
        have : ∀ (l : List (Option Nat)) (t : Slot.State), t.name i = none → some i ∈ l → (attach d t l).dead = true := by
          intro l
          induction l with
          | nil => intro t _ hi; cases hi
          | cons x l ih =>
            intro t ht hi
            cases x with
            | none => rfl
            | some k =>
              simp only [attach]
              cases hk : t.name k with
              | none => rfl
              | some m =>
                refine ih _ ht ?_
                rcases List.mem_cons.mp hi with e | e
                · cases e; rw [ht] at hk; cases hk
                · exact e
        have h9 := this slots
          { s with made := upd s.made d true, dead := false, log := s.log ++ [.made d slots] } hn hi
        rw [h9] at hd
        cases hd
      have last : ∀ {ss : List (Option Nat)} {n : Str} {j : Nat}, LastSlot s ss n j → LastSlot
          (attach d { s with made := upd s.made d true, dead := false, log := s.log ++ [.made d slots] } slots) ss n j :=
        fun hl => lastSlot_name (fun k _ => by rw [h1]) hl
      refine ⟨?_, ?_, ?_, ?_, ?_, ?_, ?_, ?_, ?_⟩
      · intro e he
        rw [h3] at he
        have hed : e ≠ d := by rintro rfl; rw [upd_same] at he; cases he
        rw [upd_other _ _ hed] at he
        obtain ⟨g1, g2⟩ := hI.fresh e he
        rw [h2, h6 e hed]
        refine ⟨?_, g2⟩
        intro ss hss
        rcases mem e ss hss with c | c
        · exact hed c.1
        · exact g1 ss c.2
      · intro e ss he i hi
        rw [h2] at he
        rw [h1]
        rcases mem e ss he with ⟨_, rfl⟩ | c
        · exact named i hi
        · exact hI.carried e ss c.2 i hi
      · intro e ss he i hi
        rw [h2] at he
        rcases mem e ss he with ⟨rfl, rfl⟩ | c
        · exact h4 i hi
        · have hdk := hI.dock e ss c.2 i hi
          rw [h5 i ?_, hdk]
          intro hs
          rw [ok i hs] at hdk
          cases hdk
      · intro i e he
        rw [h2]
        by_cases hi : some i ∈ slots
        · rw [h4 i hi] at he
          cases he
          exact ⟨slots, by simp, hi⟩
        · rw [h5 i hi] at he
          obtain ⟨ss, g1, g2⟩ := hI.back i e he
          exact ⟨ss, by simp [g1], g2⟩
      · intro e ss he n j hj
        rw [h2] at he
        rcases mem e ss he with ⟨rfl, rfl⟩ | c
        · rcases h7 n j hj with g | g
          · exact last g
          · rw [f2 n] at g; cases g.1
        · rw [h6 e c.1] at hj
          exact last (hI.found e ss c.2 n j hj)
      · intro e ss he n hj k hk
        rw [h2] at he
        rw [h1]
        rcases mem e ss he with ⟨rfl, rfl⟩ | c
        · exact (h8 n hj).2 k hk
        · rw [h6 e c.1] at hj
          exact hI.absent e ss c.2 n hj k hk
      · intro i n e j he
        rw [h2] at he ⊢
        simp only [List.mem_append, List.mem_singleton, reduceCtorEq, or_false] at he
        obtain ⟨ss, g1, g2, g3⟩ := hI.inside i n e j he
        exact ⟨ss, by simp [g1], g2, last g3⟩
      · intro i n e he
        rw [h2] at he ⊢
        simp only [List.mem_append, List.mem_singleton, reduceCtorEq, or_false] at he
        obtain ⟨ss, g1, g2, g3⟩ := hI.outside i n e he
        exact ⟨ss, by simp [g1], g2, by rw [h1]; exact g3⟩
      · intro e ss ss' he he'
        rw [h2] at he he'
        rcases mem e ss he with ⟨rfl, rfl⟩ | c <;> rcases mem _ ss' he' with c' | c'
        · exact c'.2.symm
        · exact absurd rfl c'.1
        · exact absurd c'.1 c.1
        · exact hI.unique e ss ss' c.2 c'.2
  | call i n =>
    simp only at hs
    split at hs
    · cases hs
    · split at hs
      · cases hs; cases hd
      · rename_i d hdk
        obtain ⟨ss, g1, g2⟩ := hI.back i d hdk
        have madeMem : ∀ {x : Ev}, (∀ e ss, x ≠ .made e ss) → ∀ e ss, .made e ss ∈ s.log ++ [x] → .made e ss ∈ s.log := by
          intro x hx e ss he
          rcases List.mem_append.mp he with he | he
          · exact he
          · simp only [List.mem_singleton] at he
            exact absurd he.symm (hx e ss)
        split at hs
        · rename_i j hj
          cases hs
          have mm := madeMem (x := .inside i n d j) (by simp)
          refine ⟨?_, fun e ss he => hI.carried e ss (mm e ss he), fun e ss he => hI.dock e ss (mm e ss he), ?_,
            fun e ss he => hI.found e ss (mm e ss he), fun e ss he => hI.absent e ss (mm e ss he), ?_, ?_,
            fun e ss ss' he he' => hI.unique e ss ss' (mm e ss he) (mm e ss' he')⟩
          · intro e he
            obtain ⟨a1, a2⟩ := hI.fresh e he
            exact ⟨fun ss hss => a1 ss (mm e ss hss), a2⟩
          · intro k e he
            obtain ⟨ss, a1, a2⟩ := hI.back k e he
            exact ⟨ss, by simp [a1], a2⟩
          · intro k m e l he
            simp only [List.mem_append, List.mem_singleton] at he
            rcases he with he | he
            · obtain ⟨ss, a1, a2, a3⟩ := hI.inside k m e l he
              exact ⟨ss, by simp [a1], a2, a3⟩
            · cases he
              exact ⟨ss, by simp [g1], g2, hI.found d ss g1 n j hj⟩
          · intro k m e he
            simp only [List.mem_append, List.mem_singleton, reduceCtorEq, or_false] at he
            obtain ⟨ss, a1, a2, a3⟩ := hI.outside k m e he
            exact ⟨ss, by simp [a1], a2, a3⟩
        · rename_i hj
          cases hs
          have mm := madeMem (x := .outside i n d) (by simp)
          refine ⟨?_, fun e ss he => hI.carried e ss (mm e ss he), fun e ss he => hI.dock e ss (mm e ss he), ?_,
            fun e ss he => hI.found e ss (mm e ss he), fun e ss he => hI.absent e ss (mm e ss he), ?_, ?_,
            fun e ss ss' he he' => hI.unique e ss ss' (mm e ss he) (mm e ss' he')⟩
          · intro e he
            obtain ⟨a1, a2⟩ := hI.fresh e he
            exact ⟨fun ss hss => a1 ss (mm e ss hss), a2⟩
          · intro k e he
            obtain ⟨ss, a1, a2⟩ := hI.back k e he
            exact ⟨ss, by simp [a1], a2⟩
          · intro k m e l he
            simp only [List.mem_append, List.mem_singleton, reduceCtorEq, or_false] at he
            obtain ⟨ss, a1, a2, a3⟩ := hI.inside k m e l he
            exact ⟨ss, by simp [a1], a2, a3⟩
          · intro k m e he
            simp only [List.mem_append, List.mem_singleton] at he
            rcases he with he | he
            · obtain ⟨ss, a1, a2, a3⟩ := hI.outside k m e he
              exact ⟨ss, by simp [a1], a2, a3⟩
            · cases he
              exact ⟨ss, by simp [g1], g2, hI.absent d ss g1 n hj⟩

/-- C102 (partial): if no slot is used for two docks, every call by the feature of a slot is looked up among the slots its
dock was made of.  It is passed on to the last of these carried under the name that is called, and leaves the dock only
if none is.  And no call is made by a slot that belongs to no dock.
(A crash ends the execution; what was done before it is covered by taking the execution up to there.)
Missing: slots used for two docks, see `C102_shared_refuted`, and calls before `Startup`, see `C102_early_refuted`. -/
theorem C102_own_partial (as : List Slot.Act) (s : Slot.State) (h : run State.step State.init as = some s)
    (ha : AllSteps State.step State.init as freshSlots) (hd : s.dead = false) :
    (∀ i n d j, .inside i n d j ∈ s.log → ∃ ss, .made d ss ∈ s.log ∧ some i ∈ ss ∧ LastSlot s ss n j) ∧
    (∀ i n d, .outside i n d ∈ s.log →
      ∃ ss, .made d ss ∈ s.log ∧ some i ∈ ss ∧ ∀ k, some k ∈ ss → s.name k ≠ some n) ∧
    (∀ d ss i d' ss', .made d ss ∈ s.log → some i ∈ ss → .made d' ss' ∈ s.log → some i ∈ ss' → d = d' ∧ ss = ss') := by
  have hI : SlotInv s := run_inv_steps (I := fun s => s.dead = false → SlotInv s) slotInv_step as _ s ha
    (fun _ => by constructor <;> simp [State.init]) h hd
  refine ⟨hI.inside, hI.outside, ?_⟩
  intro d ss i d' ss' h1 h2 h3 h4
  have e1 := hI.dock d ss h1 i h2
  rw [hI.dock d' ss' h3 i h4] at e1
  cases e1
  exact ⟨rfl, hI.unique _ ss ss' h1 h3⟩

/-- Two features in one dock, one of which calls the other and a third one. -/
example : ∃ s, run State.step State.init [.carry 0 [65] true, .carry 1 [66] true, .newDock 7 [some 0, some 1],
    .call 0 [66], .call 0 [67]] = some s ∧ s.dead = false ∧
    s.log = [.made 7 [some 0, some 1], .inside 0 [66] 7 1, .outside 0 [67] 7] ∧
    AllSteps State.step State.init [.carry 0 [65] true, .carry 1 [66] true, .newDock 7 [some 0, some 1], .call 0 [66],
      .call 0 [67]] freshSlots :=
  ⟨_, rfl, rfl, by decide, .cons trivial rfl (.cons trivial rfl (.cons (fun _ _ => rfl) rfl (.cons trivial rfl
    (.cons trivial rfl .nil))))⟩

/-- C102 (partial): if no slot is used for two docks, every call of a slot that a dock was made of is possible and goes to the
last of the slots of this dock carried under the name; it leaves the dock exactly if there is none. -/
theorem C102_call_partial (as : List Slot.Act) (s : Slot.State) (h : run State.step State.init as = some s)
    (ha : AllSteps State.step State.init as freshSlots) (hd : s.dead = false) (d : Nat) (ss : List (Option Nat))
    (hm : .made d ss ∈ s.log) (i : Nat) (hi : some i ∈ ss) (n : Str) :
    ∃ s', s.step (.call i n) = some s' ∧ s'.dead = false ∧
      ((∃ j, LastSlot s ss n j ∧ s'.log = s.log ++ [.inside i n d j]) ∨
       ((∀ k, some k ∈ ss → s.name k ≠ some n) ∧ s'.log = s.log ++ [.outside i n d])) := by
  have hI : SlotInv s := run_inv_steps (I := fun s => s.dead = false → SlotInv s) slotInv_step as _ s ha
    (fun _ => by constructor <;> simp [State.init]) h hd
  have hn := hI.carried d ss hm i hi
  have hdk := hI.dock d ss hm i hi
  cases ht : s.table d n with
  | some j =>
    refine ⟨{ s with log := s.log ++ [.inside i n d j] }, ?_, hd, Or.inl ⟨j, hI.found d ss hm n j ht, rfl⟩⟩
    simp [State.step, hd, hn, hdk, ht]
  | none =>
    refine ⟨{ s with log := s.log ++ [.outside i n d] }, ?_, hd, Or.inr ⟨hI.absent d ss hm n ht, rfl⟩⟩
    simp [State.step, hd, hn, hdk, ht]

/-- Two slots of the same name: calls from both go to the second. -/
example : ∃ s, run State.step State.init [.carry 0 [65] true, .carry 1 [65] true, .newDock 7 [some 0, some 1],
    .call 0 [65], .call 1 [65]] = some s ∧ s.dead = false ∧
    s.log = [.made 7 [some 0, some 1], .inside 0 [65] 7 1, .inside 1 [65] 7 1] ∧
    AllSteps State.step State.init [.carry 0 [65] true, .carry 1 [65] true, .newDock 7 [some 0, some 1], .call 0 [65],
      .call 1 [65]] freshSlots :=
  ⟨_, rfl, rfl, by decide, .cons trivial rfl (.cons trivial rfl (.cons (fun _ _ => rfl) rfl (.cons trivial rfl
    (.cons trivial rfl .nil))))⟩

/-- C102 (refuted): a slot passed to `Startup` twice.  The first dock has both features, but from then on the calls of the
first are looked up in the second dock, which does not have the other feature and sends them away. -/
theorem C102_shared_refuted : ∃ as s, run State.step State.init as = some s ∧ s.dead = false ∧
    s.log = [.made 7 [some 0, some 1], .inside 0 [66] 7 1, .made 8 [some 0], .outside 0 [66] 8] ∧
    s.table 7 [65] = some 0 ∧ s.table 7 [66] = some 1 :=
  ⟨[.carry 0 [65] true, .carry 1 [66] true, .newDock 7 [some 0, some 1], .call 0 [66], .newDock 8 [some 0],
    .call 0 [66]], _, rfl, rfl, by decide, by decide, by decide⟩

/-- C102 (refuted): a call before the slot is passed to `Startup` ends the process, whatever is called. -/
theorem C102_early_refuted (as : List Slot.Act) (s : Slot.State) (h : run State.step State.init as = some s)
    (hd : s.dead = false) (i : Nat) (n : Str) (m : Str) (hn : s.name i = some m)
    (hi : ∀ d ss, .newDock d ss ∈ as → some i ∉ ss) :
    ∃ s', s.step (.call i n) = some s' ∧ s'.dead = true := by
  have hdock : s.dock i = none := by
    refine run_inv_on (I := fun s => s.dock i = none) (A := fun a => ∀ d ss, a = .newDock d ss → some i ∉ ss) ?_ as _ s
      (fun a ha d ss e => hi d ss (e ▸ ha)) rfl h
    intro s a s' hA hI hs
    unfold State.step at hs
    split at hs
    · cases hs
    cases a with
    | carry k n ok =>
      simp only at hs
      split at hs
      · split at hs <;> cases hs <;> exact hI
      · cases hs
    | newDock d ss =>
      simp only at hs
      split at hs
      · cases hs
      · cases hs
        have hni := hA d ss rfl
        have : ∀ (l : List (Option Nat)) (t : Slot.State), some i ∉ l → t.dock i = none → (attach d t l).dock i = none := by
          intro l
          induction l with
          | nil => intro t _ ht; exact ht
          | cons x l ih =>
            intro t hl ht
            cases x with
            | none => exact ht
            | some k =>
              simp only [List.mem_cons, not_or] at hl
              simp only [attach]
              cases hk : t.name k with
              | none => exact ht
              | some m =>
                refine ih _ hl.2 ?_
                simp only
                rw [upd_other _ _ (fun e => hl.1 (by rw [e]))]
                exact ht
        exact this ss _ hni hI
    | call k n =>
      simp only at hs
      split at hs
      · cases hs
      · split at hs
        · cases hs; exact hI
        · split at hs <;> cases hs <;> exact hI
  refine ⟨{ s with dead := true }, ?_, rfl⟩
  unfold State.step
  simp [hd, hn, hdock]

example : ∃ s, run State.step State.init [.carry 0 [65] true, .call 0 [65]] = some s ∧ s.dead = true := ⟨_, rfl, rfl⟩

end Verif.Props
