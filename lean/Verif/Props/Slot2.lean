import Verif.Props.Slot1

/-!
# C113: slots are misused in exactly three ways

The process ends exactly if `Carry` is given something that is no feature, `Startup` something that was not made by
`Carry`, or if the feature of a slot calls before its slot was passed to `Startup`.
-/

namespace Verif.Props

open Verif Verif.Codec Verif.Slot

/-- Slots and docks of slots are as the actions so far say. -/
private structure UseInv (pre : List Slot.Act) (s : Slot.State) : Prop where
  name : s.dead = false → ∀ i, s.name i ≠ none ↔ ∃ n ok, .carry i n ok ∈ pre
  dock : s.dead = false → ∀ i, s.dock i ≠ none ↔ ∃ d ss, .newDock d ss ∈ pre ∧ some i ∈ ss

private theorem attach_alive (d : Nat) : ∀ (slots : List (Option Nat)) (s : Slot.State), s.dead = false →
    ((attach d s slots).dead = false ↔ ∀ x ∈ slots, ∃ i, x = some i ∧ s.name i ≠ none)
  | [], s, h => by simp [attach, h]
  | none :: rest, s, h => by
    simp only [attach, Bool.true_eq_false, false_iff]
    intro c
    obtain ⟨i, e, _⟩ := c none (List.mem_cons_self ..)
    cases e
  | some i :: rest, s, h => by
    simp only [attach]
    cases hn : s.name i with
    | none =>
      simp only [Bool.true_eq_false, false_iff]
      intro c
      obtain ⟨k, e, hk⟩ := c (some i) (List.mem_cons_self ..)
      cases e
      exact hk hn
    | some m =>
      simp only
      rw [attach_alive d rest ⟨s.name, upd s.dock i (some d), upd s.table d (upd (s.table d) m (some i)), s.made, s.dead, s.log⟩ h]
      constructor
      · intro c x hx
        rcases List.mem_cons.mp hx with rfl | hx
        · exact ⟨i, rfl, by rw [hn]; simp⟩
        · exact c x hx
      · intro c x hx
        exact c x (List.mem_cons_of_mem _ hx)

private theorem attach_spec' (d : Nat) : ∀ (slots : List (Option Nat)) (s : Slot.State), (attach d s slots).dead = false →
    (attach d s slots).name = s.name ∧ (∀ i, some i ∈ slots → (attach d s slots).dock i = some d) ∧
    (∀ i, some i ∉ slots → (attach d s slots).dock i = s.dock i)
  | [], s, _ => ⟨rfl, by simp, by simp [attach]⟩
  | none :: rest, s, h => by cases h
  | some i :: rest, s, h => by
    simp only [attach] at h ⊢
    cases hn : s.name i with
    | none => rw [hn] at h; cases h
    | some m =>
      simp only [hn] at h ⊢
      obtain ⟨h1, h2, h3⟩ := attach_spec' d rest _ h
      refine ⟨h1, ?_, ?_⟩
      · intro k hk
        by_cases hr : some k ∈ rest
        · exact h2 k hr
        · rw [h3 k hr]
          rcases List.mem_cons.mp hk with e | e
          · cases e; simp
          · exact absurd e hr
      · intro k hk
        simp only [List.mem_cons, not_or] at hk
        rw [h3 k hk.2]
        exact upd_other _ _ (fun e => hk.1 (by rw [e]))

private theorem useInv_step (pre : List Slot.Act) (s : Slot.State) (a : Slot.Act) (t : Slot.State) (I : UseInv pre s)
    (h : s.step a = some t) : UseInv (pre ++ [a]) t := by
  unfold State.step at h
  cases hd : s.dead with
  | true => rw [hd] at h; simp at h
  | false =>
  rw [if_neg (by rw [hd]; simp)] at h
  have hN := I.name hd
  have hD := I.dock hd
  cases a with
  | carry i n ok =>
    simp only at h
    split at h
    · rename_i hi
      split at h <;> cases h
      · refine ⟨fun _ k => ?_, fun _ k => ?_⟩
        · by_cases e : k = i
          · subst e; simp only [upd_same]
            exact ⟨fun _ => ⟨n, ok, by simp⟩, fun _ => by simp⟩
          · simp only [upd_other _ _ e]
            rw [hN k]
            simp [e]
        · simp only [List.mem_append, List.mem_singleton, reduceCtorEq, or_false]
          exact hD k
      · exact ⟨fun c => (by cases c), fun c => (by cases c)⟩
    · cases h
  | newDock d slots =>
    simp only at h
    split at h
    · cases h
    · cases h
      refine ⟨fun ha k => ?_, fun ha k => ?_⟩
      · obtain ⟨h1, _⟩ := attach_spec' d slots _ ha
        rw [h1]
        simp only [List.mem_append, List.mem_singleton, reduceCtorEq, or_false]
        exact hN k
      · obtain ⟨_, h2, h3⟩ := attach_spec' d slots _ ha
        by_cases hk : some k ∈ slots
        · rw [h2 k hk]
          exact ⟨fun _ => ⟨d, slots, by simp, hk⟩, fun _ => by simp⟩
        · rw [h3 k hk]
          simp only
          rw [hD k]
          constructor
          · rintro ⟨d', ss, h4, h5⟩; exact ⟨d', ss, by simp [h4], h5⟩
          · rintro ⟨d', ss, h4, h5⟩
            rcases List.mem_append.mp h4 with h4 | h4
            · exact ⟨d', ss, h4, h5⟩
            · simp only [List.mem_singleton, Slot.Act.newDock.injEq] at h4
              rw [h4.2] at h5
              exact absurd h5 hk
  | call i n =>
    have same : ∀ u : Slot.State, u.name = s.name → u.dock = s.dock → UseInv (pre ++ [.call i n]) u := by
      intro u h1 h2
      refine ⟨fun _ k => ?_, fun _ k => ?_⟩
      · rw [h1]; simp only [List.mem_append, List.mem_singleton, reduceCtorEq, or_false]; exact hN k
      · rw [h2]; simp only [List.mem_append, List.mem_singleton, reduceCtorEq, or_false]; exact hD k
    simp only at h
    repeat' split at h
    all_goals cases h
    all_goals exact same _ rfl rfl

private theorem useInv_run (as pre : List Slot.Act) (s t : Slot.State) (I : UseInv pre s)
    (h : run State.step s as = some t) : UseInv (pre ++ as) t := by
  induction as generalizing pre s with
  | nil => cases h; simpa using I
  | cons a as ih =>
    simp only [run] at h
    cases hs : s.step a with
    | none => rw [hs] at h; cases h
    | some u =>
      rw [hs] at h
      have := ih (pre ++ [a]) u (useInv_step pre s a u I hs) h
      simpa using this

/-- An action that misuses slots, after the actions `pre`. -/
def misuse (pre : List Slot.Act) : Slot.Act → Prop
  | .carry _ _ ok => ok = false
  | .newDock _ slots => ∃ x ∈ slots, ∀ i n ok, x = some i → .carry i n ok ∉ pre
  | .call i _ => ∀ d ss, .newDock d ss ∈ pre → some i ∉ ss

/-- C113: an action that can be taken ends the process exactly if it is one of these. -/
theorem C113_misuse (as : List Slot.Act) (a : Slot.Act) (s t : Slot.State) (h : run State.step State.init as = some s)
    (ht : s.step a = some t) : t.dead = true ↔ misuse as a := by
  have I : UseInv as s := by
    have := useInv_run as [] State.init s ⟨fun _ i => by simp [State.init], fun _ i => by simp [State.init]⟩ h
    simpa using this
  unfold State.step at ht
  cases hd : s.dead with
  | true => rw [hd] at ht; simp at ht
  | false =>
  rw [if_neg (by rw [hd]; simp)] at ht
  have hN := I.name hd
  have hD := I.dock hd
  cases a with
  | carry i n ok =>
    simp only at ht
    split at ht
    · split at ht <;> cases ht
      · rename_i ho; simp [misuse, hd, ho]
      · rename_i ho; simpa [misuse] using ho
    · cases ht
  | newDock d slots =>
    simp only at ht
    split at ht
    · cases ht
    · cases ht
      have key := attach_alive d slots { s with made := upd s.made d true, log := s.log ++ [.made d slots] } hd
      rw [← Bool.not_eq_false, key]
      simp only [misuse]
      constructor
      · intro c
        refine Classical.byContradiction fun hc => c ?_
        intro x hx
        refine Classical.byContradiction fun hx' => hc ⟨x, hx, ?_⟩
        intro i n ok e hm
        exact hx' ⟨i, e, (hN i).mpr ⟨n, ok, hm⟩⟩
      · rintro ⟨x, hx, hm⟩ c
        obtain ⟨i, e, hn⟩ := c x hx
        obtain ⟨n, ok, hmem⟩ := (hN i).mp hn
        exact hm i n ok e hmem
  | call i n =>
    simp only at ht
    split at ht
    · cases ht
    · have key : s.dock i = none ↔ misuse as (.call i n) := by
        simp only [misuse]
        constructor
        · intro c d ss h1 h2
          exact (hD i).mpr ⟨d, ss, h1, h2⟩ c
        · intro c
          refine Classical.byContradiction fun hc => ?_
          obtain ⟨d, ss, h1, h2⟩ := (hD i).mp hc
          exact c d ss h1 h2
      rw [← key]
      split at ht
      · rename_i hdk; cases ht; simp [hdk]
      · rename_i d hdk
        split at ht <;> cases ht <;> simp [hdk, hd]

/-- All three happen, and proper use does not. -/
example : (∃ s t, run State.step State.init [] = some s ∧ s.step (.carry 0 [97] false) = some t ∧ t.dead = true) ∧
    (∃ s t, run State.step State.init [.carry 0 [97] true] = some s ∧ s.step (.newDock 0 [some 0, none]) = some t ∧ t.dead = true) ∧
    (∃ s t, run State.step State.init [.carry 0 [97] true] = some s ∧ s.step (.call 0 [98]) = some t ∧ t.dead = true) ∧
    (∃ s t, run State.step State.init [.carry 0 [97] true, .newDock 0 [some 0]] = some s ∧ s.step (.call 0 [98]) = some t ∧
      t.dead = false) :=
  ⟨⟨_, _, rfl, rfl, rfl⟩, ⟨_, _, rfl, rfl, rfl⟩, ⟨_, _, rfl, rfl, rfl⟩, ⟨_, _, rfl, rfl, rfl⟩⟩

end Verif.Props
