import Mathlib.Data.List.Perm.Subperm
import Verif.Props.Chan1

/-! # Shared caller objects: what holds of C37 -/

namespace Verif.Props

open Verif Verif.Chan

/-- The calls made through a caller object so far. -/
def callsOf (s : State) (caller : Nat) : List Nat :=
  (List.range s.n).filter fun i => (s.req i).caller == caller

/-- The call whose answer a call has got. -/
def gotFrom (s : State) (k : Nat) : Nat := ((s.result k).map (·.1)).getD k

/-- **C37, what holds however a caller object is shared.**  A call returns the answer to some call made through the
same caller object, and a result is what the method invocation for that call returned; no answer is returned by
two calls; and when all calls made through the object have returned, the answers they have got are exactly the
answers to these calls, permuted.  Full statement: each gets its own. -/
theorem C37_permuted_partial (T : Nat → Target) (acts : List Act) (s : State)
    (h : run (State.step T) (State.init T) acts = some s) :
    (∀ k j a, s.result k = some (j, a) → (s.req j).caller = (s.req k).caller ∧ j < s.n ∧
      ∀ r, a = .ok r → s.ret j = some r) ∧
    (∀ k k' j a a', s.result k = some (j, a) → s.result k' = some (j, a') → k = k') ∧
    (∀ c, (∀ k ∈ callsOf s c, s.result k ≠ none) → ((callsOf s c).map (gotFrom s)).Perm (callsOf s c)) := by
  obtain ⟨A, R⟩ := inv_run T h
  have first : ∀ k j a, s.result k = some (j, a) → (s.req j).caller = (s.req k).caller ∧ j < s.n ∧
      ∀ r, a = .ok r → s.ret j = some r := by
    intro k j a hk
    obtain ⟨h1, h2, -, -⟩ := A.result k j a hk
    refine ⟨h2, Nat.lt_of_not_le fun hge => ?_, ?_⟩
    · have := (A.fresh j hge).2.1
      rw [h1] at this; cases this
    · rintro r rfl
      obtain ⟨t, ht⟩ := R.result _ _ _ hk
      exact R.retOK _ _ _ ht
  refine ⟨first, A.once, fun c hc => ?_⟩
  have get : ∀ k ∈ callsOf s c, ∃ a, s.result k = some (gotFrom s k, a) := by
    intro k hk
    cases e : s.result k with
    | none => exact absurd e (hc k hk)
    | some x => exact ⟨x.2, by simp [gotFrom, e]⟩
  have mem : ∀ k, k ∈ callsOf s c ↔ k < s.n ∧ (s.req k).caller = c := by
    intro k; simp [callsOf]
  have nd : (callsOf s c).Nodup := List.Nodup.sublist List.filter_sublist List.nodup_range
  have nd' : ((callsOf s c).map (gotFrom s)).Nodup := by
    refine List.pairwise_map.mpr (nd.imp_of_mem ?_)
    intro k l hk hl hne e
    obtain ⟨a, ha⟩ := get k hk
    obtain ⟨b, hb⟩ := get l hl
    rw [← e] at hb
    exact hne (A.once _ _ _ _ _ ha hb)
  have sub : (callsOf s c).map (gotFrom s) ⊆ callsOf s c := by
    intro j hj
    obtain ⟨k, hk, rfl⟩ := List.mem_map.mp hj
    obtain ⟨a, ha⟩ := get k hk
    obtain ⟨h1, h2, -⟩ := first k _ a ha
    exact (mem _).mpr ⟨h2, h1.trans ((mem k).mp hk).2⟩
  exact (List.subperm_of_subset nd' sub).perm_of_length_le (by simp)

/-- Calls through the caller object `c` do not overlap: none is made before the earlier ones have returned.  Nothing is
required of other caller objects. -/
def UnsharedOne (c : Nat) (T : Nat → Target) (acts : List Act) : Prop :=
  AllSteps (State.step T) (State.init T) acts (fun s a => ∀ callee meth args parent,
    a = .call callee c meth args parent → ∀ j, j < s.n → (s.req j).caller = c → s.result j ≠ none)

/-- The invariant of a caller object that is not shared. -/
structure OwnOne (c : Nat) (s : State) : Prop where
  single : ∀ i j, i < s.n → j < s.n → (s.req i).caller = c → (s.req j).caller = c → s.result i = none →
    s.result j = none → i = j
  own : ∀ k j a, (s.req k).caller = c → s.result k = some (j, a) → j = k

theorem ownOne_step (c : Nat) (T : Nat → Target) (s : State) (a : Act) (t : State) (A : AnsInv s)
    (ok : ∀ callee meth args parent, a = .call callee c meth args parent →
      ∀ j, j < s.n → (s.req j).caller = c → s.result j ≠ none)
    (I : OwnOne c s) (h : s.step T a = some t) : OwnOne c t := by
  obtain ⟨h1, h2⟩ := I
  have same : t.n = s.n → t.req = s.req → t.result = s.result → OwnOne c t := by
    intro e1 e2 e3
    constructor
    · rw [e1, e2, e3]; exact h1
    · rw [e2, e3]; exact h2
  unfold State.step at h
  split at h
  · cases h
  cases a with
  | call callee caller meth args parent =>
    have hf := (A.fresh s.n (Nat.le_refl _)).2.2.2.1
    have ok' : caller = c → ∀ j, j < s.n → (s.req j).caller = c → s.result j ≠ none := by
      rintro rfl
      exact ok _ _ _ _ rfl
    simp only at h
    repeat' split at h
    all_goals cases h
    all_goals (constructor <;> simp only [upd] <;> grind)
  | receive i =>
    simp only at h
    split at h
    · rename_i hi
      split at h
      · rename_i x hr hx
        cases h
        obtain ⟨j, a⟩ := x
        have hj := A.chan _ j a hx
        have hjn : j < s.n := by
          refine Nat.lt_of_not_le fun hge => ?_
          have := (A.fresh j hge).2.1
          rw [hj.1] at this; cases this
        have hij : (s.req i).caller = c → j = i := by
          intro hic
          refine h1 j i hjn hi.1 (hj.2.1.trans hic) hic ?_ hr
          cases e : s.result j with
          | none => rfl
          | some y =>
            obtain ⟨j', a'⟩ := y
            have := h2 j j' a' (hj.2.1.trans hic) e
            subst this
            exfalso
            have := (A.result _ _ _ e).2.2.2 a
            rw [hj.2.1] at this
            exact this hx
        constructor
        · intro k l hk hl hkc hlc e1 e2
          simp only [upd] at e1 e2
          split at e1
          · cases e1
          · split at e2
            · cases e2
            · exact h1 k l hk hl hkc hlc e1 e2
        · intro k l b hkc e
          simp only [upd] at e
          split at e
          · rename_i hk
            cases e
            rw [hk] at hkc ⊢
            exact hij hkc
          · exact h2 k l b hkc e
      · cases h
    · cases h
  | _ =>
    simp only at h
    repeat' split at h
    all_goals (cases h; try exact same rfl rfl rfl)

/-- **C37 and C36 for a single caller object.**  If calls through this caller object do not overlap, each returns the
answer to itself, whatever is done with other caller objects, shared or not. -/
theorem C37_single_partial (c : Nat) (T : Nat → Target) (acts : List Act) (s : State) (u : UnsharedOne c T acts)
    (h : run (State.step T) (State.init T) acts = some s) (i j : Nat) (a : Ans) (hi : (s.req i).caller = c)
    (hr : s.result i = some (j, a)) : j = i ∧ ∀ r, a = .ok r → s.ret i = some r := by
  obtain ⟨A, R⟩ := inv_run T h
  have O : AnsInv s ∧ OwnOne c s := by
    refine run_inv_steps (I := fun s => AnsInv s ∧ OwnOne c s)
      (fun s a t ok I h => ⟨ansInv_step T s a t I.1 h, ownOne_step c T s a t I.1 ok I.2 h⟩) acts _ _ u
      ⟨ansInv_init T, ?_⟩ h
    constructor <;> simp [State.init]
  have e := O.2.own i j a hi hr
  subst e
  refine ⟨rfl, ?_⟩
  rintro r rfl
  obtain ⟨t, ht⟩ := R.result _ _ _ hr
  exact R.retOK _ _ _ ht

/-- Two calls through caller object 0 are mixed up while a call through caller object 1 is made. -/
def mixedUp : List Act :=
  [.call 0 1 [97] [] none, .call 0 0 [97] [] none, .push 1, .start 0, .call 0 0 [97] [] none, .push 2,
    .ret 0 [.bool 0 false], .settleH 0, .deliverH 0, .receive 2, .start 0, .ret 0 [.bool 0 true], .push 0,
    .settleH 0, .deliverH 0, .receive 1, .start 0, .ret 0 [.nil], .settleH 0, .deliverH 0, .receive 0]

/-- The hypothesis of the last theorem holds of caller object 1 here, and the calls of object 0 swap their answers. -/
example : UnsharedOne 1 demo mixedUp ∧ ∃ s, run (State.step demo) (State.init demo) mixedUp = some s ∧
    (callsOf s 0, (callsOf s 0).map (gotFrom s), s.result 0) = ([1, 2], [2, 1], some (0, .ok (some [.nil]))) := by
  constructor
  · intro pre a post t he hr callee meth args parent ea j hj
    cases pre with
    | nil => cases hr; exact absurd hj (Nat.not_lt_zero j)
    | cons x pre =>
      have hm : a ∈ mixedUp.tail := by rw [he]; simp
      subst ea
      simp [mixedUp] at hm
  · exact ⟨_, rfl, rfl⟩

end Verif.Props
