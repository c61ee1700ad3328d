import Mathlib.Data.List.Induction
import Verif.Chan.Records

/-!
# Calls: one answer each, the right answer, order, timeouts: C35, C36, C37, C38, C42, C43, C44
-/

namespace Verif.Props

open Verif Verif.Chan

/-! ## C35 -/

/-- **C35.**  In every execution: a request is answered at most once; it is marked done exactly if an answer has
been recorded; not both with a result and with a timeout; what calls return are recorded answers, and no answer is
returned twice. -/
theorem C35_one_answer (T : Nat → Target) (acts : List Act) (s : State)
    (h : run (State.step T) (State.init T) acts = some s) :
    (∀ i, (s.answers.map (·.1)).count i ≤ 1) ∧
    (∀ i, s.done i = true ↔ i ∈ s.answers.map (·.1)) ∧
    (∀ i r t t', ¬ ((i, Ans.ok r, t) ∈ s.answers ∧ (i, Ans.timeout, t') ∈ s.answers)) ∧
    (∀ k j a, s.result k = some (j, a) → ∃ t, (j, a, t) ∈ s.answers) ∧
    (∀ k k' j a a', s.result k = some (j, a) → s.result k' = some (j, a') → k = k') := by
  obtain ⟨A, R⟩ := inv_run T h
  have hc : ∀ i, (s.answers.map (·.1)).count i ≤ 1 := by
    intro i; rw [R.count i]; split <;> omega
  refine ⟨hc, ?_, ?_, R.result, A.once⟩
  · intro i
    rw [← List.count_pos_iff, R.count i]
    cases s.done i <;> simp
  · rintro i r t t' ⟨h1, h2⟩
    obtain ⟨p, q, e⟩ := List.append_of_mem h1
    have := hc i
    rw [e] at this h2
    simp only [List.map_append, List.map_cons, List.count_append, List.count_cons_self] at this
    simp only [List.mem_append, List.mem_cons, Prod.mk.injEq, reduceCtorEq, false_and, and_false, false_or] at h2
    rcases h2 with h2 | h2
    · have := List.count_pos_iff.mpr (List.mem_map_of_mem (f := (·.1)) h2)
      simp only at this
      omega
    · have := List.count_pos_iff.mpr (List.mem_map_of_mem (f := (·.1)) h2)
      simp only at this
      omega

/-- A target with the method "a" only. -/
def demo : Nat → Target := fun _ => ⟨fun m => m == [97], fun _ args => !args.isEmpty⟩

/-- The timer and the method race: here the timer is first, the late result is dropped. -/
example : ((run (State.step demo) (State.init demo) [.setTimeout 0 [97] 0, .call 0 0 [97] [] none, .push 0, .start 0,
    .wake 0, .ret 0 [.nil], .settleT 0, .deliverT 0, .settleH 0, .receive 0]).map fun s =>
      (s.answers.map (·.1), s.result 0 |>.map (·.1), s.done 0)) = some ([0], some 0, true) := by
  rfl

/-! ## C36 -/

/-- Each caller object is used by one goroutine at a time: no call is made on it before the earlier ones have
returned. -/
def Unshared (T : Nat → Target) (acts : List Act) : Prop :=
  AllSteps (State.step T) (State.init T) acts (fun s a => ∀ callee caller meth args parent,
    a = .call callee caller meth args parent → ∀ j, j < s.n → (s.req j).caller = caller → s.result j ≠ none)

/-- The invariant of unshared callers. -/
structure OwnInv (s : State) : Prop where
  single : ∀ i j, i < s.n → j < s.n → (s.req i).caller = (s.req j).caller → s.result i = none →
    s.result j = none → i = j
  own : ∀ k j a, s.result k = some (j, a) → j = k

theorem ownInv_step (T : Nat → Target) (s : State) (a : Act) (t : State) (A : AnsInv s)
    (ok : ∀ callee caller meth args parent, a = .call callee caller meth args parent →
      ∀ j, j < s.n → (s.req j).caller = caller → s.result j ≠ none)
    (I : OwnInv s) (h : s.step T a = some t) : OwnInv t := by
  obtain ⟨h1, h2⟩ := I
  have same : t.n = s.n → t.req = s.req → t.result = s.result → OwnInv t := by
    intro e1 e2 e3
    constructor
    · rw [e1, e2, e3]; exact h1
    · rw [e3]; exact h2
  unfold State.step at h
  split at h
  · cases h
  cases a with
  | call callee caller meth args parent =>
    have ok' := ok _ _ _ _ _ rfl
    have hf := (A.fresh s.n (Nat.le_refl _)).2.2.2.1
    simp only at h
    repeat' split at h
    all_goals cases h
    all_goals (constructor <;> simp only [upd] <;> grind)
  | receive i =>
    simp only at h
    split at h
    · rename_i hi
      split at h
      · rename_i x hr hc
        cases h
        obtain ⟨j, a⟩ := x
        have hj := A.chan _ j a hc
        have hjn : j < s.n := by
          refine Nat.lt_of_not_le fun hge => ?_
          have := (A.fresh j hge).2.1
          rw [hj.1] at this; cases this
        have hjr : s.result j = none := by
          cases e : s.result j with
          | none => rfl
          | some y =>
            obtain ⟨j', a'⟩ := y
            have := h2 j j' a' e
            subst this
            exfalso
            have := (A.result _ _ _ e).2.2.2 a
            rw [hj.2.1] at this
            exact this hc
        have hij : j = i := h1 j i hjn hi.1 hj.2.1 hjr hr
        subst hij
        constructor
        · intro k l hk hl hkl e1 e2
          simp only [upd] at e1 e2
          split at e1
          · cases e1
          · split at e2
            · cases e2
            · exact h1 k l hk hl hkl e1 e2
        · intro k l b e
          simp only [upd] at e
          split at e
          · rename_i hk
            cases e; exact hk.symm
          · exact h2 k l b e
      · cases h
    · cases h
  | _ =>
    simp only at h
    repeat' split at h
    all_goals (cases h; try exact same rfl rfl rfl)

theorem ownInv_run (T : Nat → Target) {acts : List Act} {s : State} (u : Unshared T acts)
    (h : run (State.step T) (State.init T) acts = some s) : AnsInv s ∧ OwnInv s := by
  refine run_inv_steps (I := fun s => AnsInv s ∧ OwnInv s)
    (fun s a t ok I h => ⟨ansInv_step T s a t I.1 h, ownInv_step T s a t I.1 ok I.2 h⟩) acts _ _ u
    ⟨ansInv_init T, ?_⟩ h
  constructor <;> simp [State.init]

/-- **C36.**  If caller objects are not shared, a call returns the answer to itself; and if that is a result, it
is what the method invocation for this very request returned. -/
theorem C36_own_answer (T : Nat → Target) (acts : List Act) (s : State) (u : Unshared T acts)
    (h : run (State.step T) (State.init T) acts = some s) (i j : Nat) (a : Ans) (hr : s.result i = some (j, a)) :
    j = i ∧ ∀ r, a = .ok r → s.ret i = some r := by
  obtain ⟨A, R⟩ := inv_run T h
  have e := (ownInv_run T u h).2.own i j a hr
  subst e
  refine ⟨rfl, ?_⟩
  rintro r rfl
  obtain ⟨t, ht⟩ := R.result _ _ _ hr
  exact R.retOK _ _ _ ht

/-- After a timed-out call the same caller object makes another call; the first one's late result does not
disturb it. -/
example : ((run (State.step demo) (State.init demo) [.setTimeout 0 [97] 0, .call 0 0 [97] [] none, .push 0, .start 0,
    .wake 0, .settleT 0, .deliverT 0, .receive 0, .setTimeout 0 [97] 0x3f800000, .call 0 0 [97] [] none, .push 1,
    .ret 0 [.nil], .settleH 0, .start 0, .ret 0 [.bool 0 true], .settleH 0, .deliverH 0, .receive 1]).map fun s =>
      (s.result 0, s.result 1)) = some (some (0, .timeout), some (1, .ok (some [.bool 0 true]))) := by
  rfl

/-! ## C37 -/

/-- **C37 refuted.**  Two goroutines call a method through one caller object: each gets the other's result. -/
theorem C37_shared_caller_refuted :
    ∃ acts s, run (State.step demo) (State.init demo) acts = some s ∧
      (s.req 0).caller = (s.req 1).caller ∧ s.ret 0 = some (some [.bool 0 false]) ∧
      s.ret 1 = some (some [.bool 0 true]) ∧
      s.result 0 = some (1, .ok (some [.bool 0 true])) ∧ s.result 1 = some (0, .ok (some [.bool 0 false])) := by
  exact ⟨[.call 0 0 [97] [] none, .push 0, .start 0, .call 0 0 [97] [] none, .push 1, .ret 0 [.bool 0 false],
    .settleH 0, .deliverH 0, .receive 1, .start 0, .ret 0 [.bool 0 true], .settleH 0, .deliverH 0, .receive 0],
    _, rfl, rfl, rfl, rfl, rfl, rfl⟩

/-! ## C38 -/

/-- What a handler does that treats the requests `is` one after the other. -/
def oneByOne (is : List Nat) : List HEv := is.flatMap fun i => [.started i, .finished i]

/-- The request whose method body is running. -/
def running : Handler → Option Nat
  | .running i => some i
  | _ => none

/-- Invariant for C38: what a callee has started and finished are the requests that entered its queue, in order. -/
structure OrderInv (s : State) : Prop where
  alive : s.dead = false → ∀ c, ∃ pre, s.entered c = pre ++ (running (s.handler c)).toList ++ s.queue c ∧
    s.log c = oneByOne pre ++ (running (s.handler c)).toList.map .started
  pre : ∀ c, s.log c <+: oneByOne (s.entered c)
  entered : ∀ c i, i ∈ s.entered c ↔ s.pushed i = true ∧ (s.req i).callee = c
  nodup : ∀ c, (s.entered c).Nodup

theorem oneByOne_append (a b : List Nat) : oneByOne (a ++ b) = oneByOne a ++ oneByOne b := by
  simp [oneByOne]

private theorem prefix_of_alive {e q : List Nat} {l : List HEv} {r : Option Nat}
    (h : ∃ pre, e = pre ++ r.toList ++ q ∧ l = oneByOne pre ++ r.toList.map HEv.started) : l <+: oneByOne e := by
  obtain ⟨pre, rfl, rfl⟩ := h
  rw [oneByOne_append, oneByOne_append, List.append_assoc]
  refine (List.prefix_append_right_inj _).mpr ?_
  cases r with
  | none => simp
  | some i => exact ⟨.finished i :: oneByOne q, by simp [oneByOne]⟩

set_option maxHeartbeats 4000000 in
theorem orderInv_step (T : Nat → Target) (s : State) (a : Act) (t : State) (A : AnsInv s)
    (I : OrderInv s) (h : s.step T a = some t) : OrderInv t := by
  obtain ⟨h1, h2, h3, h4⟩ := I
  have hd : s.dead = false := by
    cases e : s.dead with
    | false => rfl
    | true => simp [State.step, e] at h
  have h1 := h1 hd
  have build : (∀ c, ∃ pre, t.entered c = pre ++ (running (t.handler c)).toList ++ t.queue c ∧
      t.log c = oneByOne pre ++ (running (t.handler c)).toList.map HEv.started) →
      (∀ c i, i ∈ t.entered c ↔ t.pushed i = true ∧ (t.req i).callee = c) → (∀ c, (t.entered c).Nodup) →
      OrderInv t := fun g1 g2 g3 => ⟨fun _ => g1, fun c => prefix_of_alive (g1 c), g2, g3⟩
  unfold State.step at h
  rw [if_neg (by simp [hd])] at h
  cases a with
  | call callee caller meth args parent =>
    have hf := (A.fresh s.n (Nat.le_refl _)).1
    simp only at h
    repeat' split at h
    all_goals cases h
    all_goals (refine build h1 ?_ h4; simp only [upd]; grind)
  | push i =>
    simp only at h
    split at h
    · rename_i hi
      cases h
      refine build ?_ ?_ ?_
      · intro c
        obtain ⟨pre, e1, e2⟩ := h1 c
        refine ⟨pre, ?_, e2⟩
        simp only [upd]
        split
        · rename_i hc; subst hc; rw [e1]; simp
        · exact e1
      · simp only [upd]; grind
      · simp only [upd]; grind [List.nodup_append]
    · cases h
  | start c =>
    simp only at h
    split at h
    · rename_i i rest hidle hq
      obtain ⟨pre, e1, e2⟩ := h1 c
      rw [hidle, hq] at e1
      rw [hidle] at e2
      simp only [running, Option.toList, List.append_nil, List.map_nil] at e1 e2
      split at h <;> cases h
      · refine build ?_ h3 h4
        intro d
        by_cases hdc : d = c
        · subst hdc
          exact ⟨pre, by simp [e1, running], by simp [e2, running]⟩
        · simp only [upd, if_neg hdc]; exact h1 d
      · refine build ?_ h3 h4
        intro d
        by_cases hdc : d = c
        · subst hdc
          exact ⟨pre ++ [i], by simp [e1, running], by simp [e2, running, oneByOne]⟩
        · simp only [upd, if_neg hdc]; exact h1 d
      · refine ⟨fun e => absurd e (by simp), ?_, h3, h4⟩
        intro d
        by_cases hdc : d = c
        · subst hdc
          simp only [upd_same, e1, e2, oneByOne_append]
          exact (List.prefix_append_right_inj _).mpr ⟨.finished i :: oneByOne rest, by simp [oneByOne]⟩
        · simp only [upd, if_neg hdc]; exact h2 d
    · cases h
  | ret c res =>
    simp only at h
    repeat' split at h
    all_goals cases h
    rename_i i hr _
    refine build ?_ h3 h4
    intro d
    by_cases hdc : d = c
    · subst hdc
      obtain ⟨pre, e1, e2⟩ := h1 d
      rw [hr] at e1 e2
      exact ⟨pre ++ [i], by simp [e1, running], by simp [e2, running, oneByOne]⟩
    · simp only [upd, if_neg hdc]; exact h1 d
  | settleH c =>
    simp only at h
    repeat' split at h
    all_goals cases h
    all_goals
      refine build ?_ h3 h4
      intro d
      by_cases hdc : d = c
      · subst hdc
        obtain ⟨pre, e1, e2⟩ := h1 d
        simp_all [running]
      · simp only [upd, if_neg hdc]; exact h1 d
  | deliverH c =>
    simp only at h
    repeat' split at h
    all_goals cases h
    all_goals
      refine build ?_ h3 h4
      intro d
      by_cases hdc : d = c
      · subst hdc
        obtain ⟨pre, e1, e2⟩ := h1 d
        simp_all [running]
      · simp only [upd, if_neg hdc]; exact h1 d
  | _ =>
    simp only at h
    repeat' split at h
    all_goals (cases h; try exact build h1 h3 h4)

theorem orderInv_run (T : Nat → Target) {acts : List Act} {s : State}
    (h : run (State.step T) (State.init T) acts = some s) : OrderInv s := by
  refine (run_inv (I := fun s => AnsInv s ∧ OrderInv s)
    (fun s a t I h => ⟨ansInv_step T s a t I.1 h, orderInv_step T s a t I.1 I.2 h⟩) acts _ _
    ⟨ansInv_init T, ?_⟩ h).2
  constructor <;> simp [State.init, running, oneByOne]

/-- **C38.**  Each callee treats the requests that entered its queue one at a time and in order: what its handler
has done so far is a beginning of treating them one by one; every request enters once; and as long as the process
has not died, exactly the requests waiting in the queue are not yet started. -/
theorem C38_serial_fifo (T : Nat → Target) (acts : List Act) (s : State)
    (h : run (State.step T) (State.init T) acts = some s) (c : Nat) :
    s.log c <+: oneByOne (s.entered c) ∧ (s.entered c).Nodup ∧
    (∀ i, i ∈ s.entered c ↔ s.pushed i = true ∧ (s.req i).callee = c) ∧
    (s.dead = false → ∃ startedOnes, s.entered c = startedOnes ++ s.queue c ∧
      startedOnes = (s.log c).filterMap fun e => match e with | .started i => some i | .finished _ => none) := by
  have O := orderInv_run T h
  refine ⟨O.pre c, O.nodup c, O.entered c, fun hd => ?_⟩
  obtain ⟨pre, e1, e2⟩ := O.alive hd c
  refine ⟨pre ++ (running (s.handler c)).toList, e1, ?_⟩
  rw [e2, List.filterMap_append]
  congr 1
  · clear e1 e2
    induction pre with
    | nil => rfl
    | cons i pre ih =>
      simp only [oneByOne, List.flatMap_cons] at ih ⊢
      simp [← ih]
  · cases running (s.handler c) <;> simp

example : ((run (State.step demo) (State.init demo) [.call 0 0 [97] [] none, .call 0 1 [97] [] none,
    .call 0 2 [98] [] none, .push 1, .push 0, .start 0, .push 2, .ret 0 [], .settleH 0, .deliverH 0, .start 0]).map fun s =>
      (s.entered 0, s.log 0, s.queue 0)) =
    some ([1, 0, 2], [.started 1, .finished 1, .started 0], [2]) := by
  rfl

/-! ## C42 -/

/-- The finite float32 with these bits is at least the natural number `k`: the sign is 0 and
significand × 2^exponent ≥ k.  The factor 2^150 keeps it in the natural numbers. -/
def AtLeast (t : BitVec 32) (k : Nat) : Prop :=
  t.toNat / 2 ^ 23 < 255 ∧
    k * 2 ^ 150 ≤ (if t.toNat / 2 ^ 23 = 0 then t.toNat * 2 else 2 ^ 23 + t.toNat % 2 ^ 23) * 2 ^ (t.toNat / 2 ^ 23)

instance (t : BitVec 32) (k : Nat) : Decidable (AtLeast t k) := by unfold AtLeast; infer_instance

private theorem shift_le (m e k : Nat) :
    (127 ≤ e → e < 150 → (k ≤ m / 2 ^ (150 - e) ↔ k * 2 ^ 150 ≤ m * 2 ^ e)) ∧
    (150 ≤ e → (k ≤ m * 2 ^ (e - 150) ↔ k * 2 ^ 150 ≤ m * 2 ^ e)) := by
  constructor
  · intro _ h2
    rw [Nat.le_div_iff_mul_le (Nat.two_pow_pos _)]
    have : k * 2 ^ 150 = k * 2 ^ (150 - e) * 2 ^ e := by
      rw [Nat.mul_assoc, ← Nat.pow_add, Nat.sub_add_cancel (Nat.le_of_lt h2)]
    rw [this]
    exact (Nat.mul_le_mul_right_iff (Nat.two_pow_pos _)).symm
  · intro h
    have : m * 2 ^ e = m * 2 ^ (e - 150) * 2 ^ 150 := by
      rw [Nat.mul_assoc, ← Nat.pow_add, Nat.sub_add_cancel h]
    rw [this]
    exact (Nat.mul_le_mul_right_iff (Nat.two_pow_pos _)).symm

theorem truncate_spec (t : BitVec 32) (k : Nat) (hk : 1 ≤ k) (hf : t.toNat / 2 ^ 23 < 255) :
    k ≤ truncate t ↔ AtLeast t k := by
  unfold truncate AtLeast
  have hm : t.toNat % 2 ^ 23 < 2 ^ 23 := Nat.mod_lt _ (Nat.two_pow_pos _)
  have h0 : t.toNat / 2 ^ 23 = 0 → t.toNat < 2 ^ 23 := fun h => by
    rcases Nat.div_eq_zero_iff.mp h with h | h
    · exact absurd h (by decide)
    · exact h
  rw [Nat.mod_eq_of_lt (Nat.lt_trans hf (by decide))]
  simp only [hf, true_and]
  generalize t.toNat / 2 ^ 23 = e at *
  generalize t.toNat % 2 ^ 23 = f at *
  have low : ∀ m, m < 2 ^ 24 → e < 127 → m * 2 ^ e < k * 2 ^ 150 := by
    intro m h1 h2
    calc m * 2 ^ e < 2 ^ 24 * 2 ^ e := Nat.mul_lt_mul_of_pos_right h1 (Nat.two_pow_pos _)
      _ ≤ 2 ^ 24 * 2 ^ 126 := Nat.mul_le_mul_left _ (Nat.pow_le_pow_right (by decide) (by omega))
      _ = 1 * 2 ^ 150 := by rw [Nat.one_mul, ← Nat.pow_add]
      _ ≤ k * 2 ^ 150 := Nat.mul_le_mul_right _ hk
  by_cases h1 : e < 127
  · rw [if_pos h1]
    constructor
    · intro h; omega
    · intro h
      exfalso
      refine absurd h (Nat.not_le_of_lt (low _ ?_ h1))
      split
      · rename_i he
        have := h0 he
        have e24 : 2 ^ 24 = 2 ^ 23 * 2 := rfl
        omega
      · have e24 : 2 ^ 24 = 2 ^ 23 + 2 ^ 23 := rfl
        omega
  · rw [if_neg h1, if_neg (show ¬ e = 0 by omega)]
    split
    · rename_i h2; exact (shift_le _ e k).1 (by omega) h2
    · rename_i h2; exact (shift_le _ e k).2 (by omega)

/-- In the range in which a timeout can be expressed in nanoseconds, exactly its whole seconds are slept. -/
theorem sleepTime_eq (t : BitVec 32) (hf : t.toNat / 2 ^ 23 < 255) (hr : ¬ AtLeast t 9223372037) :
    sleepTime t = truncate t * 1000000000 := by
  have hpos : ¬ 2 ^ 31 ≤ t.toNat := by omega
  have hlt : truncate t < 9223372037 := Nat.lt_of_not_le fun h => hr ((truncate_spec t _ (by decide) hf).mp h)
  unfold sleepTime toInt64 second
  rw [if_pos (by omega), if_neg hpos]
  generalize truncate t = n at hlt
  rw [Int.bmod_eq_of_le (by omega) (by omega)]
  omega

/-- **C42, lower bound.**  A request is answered with a timeout only after its method has been started, and, for
timeouts below 9223372037 seconds, no earlier than the whole seconds of the timeout in force at that time have
passed since.  Missing: fractions of a second and larger timeouts, for which it is false. -/
theorem C42_not_early_partial (T : Nat → Target) (acts : List Act) (s : State)
    (h : run (State.step T) (State.init T) acts = some s) (i at' : Nat) (ha : (i, Ans.timeout, at') ∈ s.answers) :
    ∃ t0 d, s.startedAt i = some (t0, d) ∧ t0 ≤ at' ∧
      ∀ k, AtLeast d k → ¬ AtLeast d 9223372037 → t0 + k * 1000000000 ≤ at' := by
  obtain ⟨t0, d, e, hl⟩ := (inv_run T h).2.late i at' ha
  refine ⟨t0, d, e, Nat.le_trans (Nat.le_add_right _ _) hl, ?_⟩
  intro k hk hn
  rw [sleepTime_eq d hk.1 hn] at hl
  rcases Nat.eq_zero_or_pos k with e | hp
  · rw [e, Nat.zero_mul]; exact Nat.le_trans (Nat.le_add_right _ _) hl
  · have h1 := Nat.mul_le_mul_right 1000000000 ((truncate_spec d k hp hk.1).mpr hk)
    exact Nat.le_trans (Nat.add_le_add_left h1 t0) hl

/-- The float32 nearest to 0.1. -/
def tenth : BitVec 32 := 0x3dcccccd

/-- **C42 refuted.**  With a timeout of 0.1 seconds a request is answered with a timeout at the very moment its
method is started: fractions of a second are dropped. -/
theorem C42_not_early_refuted :
    ∃ acts s, run (State.step demo) (State.init demo) acts = some s ∧ s.startedAt 0 = some (0, tenth) ∧
      (0, Ans.timeout, 0) ∈ s.answers ∧ s.ret 0 = none ∧ s.clock = 0 := by
  exact ⟨[.setTimeout 0 [97] tenth, .call 0 0 [97] [] none, .push 0, .start 0, .wake 0, .settleT 0], _, rfl, rfl,
    List.mem_cons_self .., rfl, rfl⟩

/-- **C42 refuted**, for long timeouts.  With 10000000000 seconds (317 years, the float32 0x501502f9) the number of
nanoseconds wraps around in 64 bits and becomes negative: 49 years for 2^34 seconds, nothing at all here. -/
theorem C42_long_timeout_refuted :
    ∃ acts s, run (State.step demo) (State.init demo) acts = some s ∧ s.startedAt 0 = some (0, 0x501502f9) ∧
      AtLeast 0x501502f9 10000000000 ∧ (0, Ans.timeout, 0) ∈ s.answers ∧ s.ret 0 = none ∧ s.clock = 0 := by
  exact ⟨[.setTimeout 0 [97] 0x501502f9, .call 0 0 [97] [] none, .push 0, .start 0, .wake 0, .settleT 0], _, rfl, rfl,
    by decide +kernel, List.mem_cons_self .., rfl, rfl⟩

/-- 1.9 seconds (0x3ff33333) are slept as 1 second; whole numbers are exact. -/
example : sleepTime 0x3ff33333 = 1000000000 ∧ sleepTime 0x40400000 = 3000000000 ∧ AtLeast 0x40400000 3 ∧
    ¬ AtLeast 0x40400000 4 ∧ ¬ AtLeast tenth 1 ∧ sleepTime 0x501502f9 = 0 ∧ sleepTime 0xbf800000 = 0 := by
  decide +kernel

/-! ## C43 -/

/-- The timeout that the calls of `SetTimeout` in `acts` give to method `m` of callee `c`: the last one. -/
def lastTimeout (c : Nat) (m : Str) (acts : List Act) : Option (BitVec 32) :=
  (acts.filterMap fun a => match a with
    | .setTimeout c' m' t => if c' = c ∧ m' = m then some t else none
    | _ => none).getLast?

theorem timeouts_run (T : Nat → Target) (acts : List Act) (s : State)
    (h : run (State.step T) (State.init T) acts = some s) (c : Nat) (m : Str) :
    s.timeouts c m = if (T c).known m then some ((lastTimeout c m acts).getD 0x3f800000) else none := by
  induction acts using List.reverseRecOn generalizing s with
  | nil => cases h; simp [State.init, lastTimeout, cDefaultTimeout]
  | append_singleton acts a ih =>
    rw [run_append] at h
    cases hr : run (State.step T) (State.init T) acts with
    | none => simp [hr] at h
    | some u =>
      have ih := ih u hr
      rw [hr] at h
      simp only [Option.bind_some, run] at h
      split at h
      · cases h
      rename_i v hv
      cases h
      have other : (∀ c' m' t, a ≠ .setTimeout c' m' t) → s.timeouts = u.timeouts → 
          s.timeouts c m = if (T c).known m then some ((lastTimeout c m (acts ++ [a])).getD 0x3f800000) else none := by
        intro h1 h2
        rw [h2, ih]
        have : lastTimeout c m (acts ++ [a]) = lastTimeout c m acts := by
          unfold lastTimeout
          rw [List.filterMap_append]
          cases a <;> simp_all
        rw [this]
      unfold State.step at hv
      split at hv
      · cases hv
      cases a with
      | setTimeout c' m' t =>
        simp only [lastTimeout, List.filterMap_append] at ih ⊢
        simp only at hv
        by_cases e : c' = c ∧ m' = m
        · obtain ⟨rfl, rfl⟩ := e
          rw [ih] at hv
          by_cases hk : (T c').known m'
          · simp only [hk, if_true, Option.some.injEq] at hv
            subst hv
            simp [hk]
          · simp only [hk, Bool.false_eq_true, if_false, Option.some.injEq] at hv
            subst hv
            simp [hk, ih]
        · have : s.timeouts c m = u.timeouts c m := by
            split at hv <;> cases hv
            · simp only [upd]
              by_cases hc : c = c'
              · subst hc
                have hm : m ≠ m' := fun x => e ⟨rfl, x.symm⟩
                rw [if_pos rfl]
                exact upd_other _ _ hm
              · simp [hc]
            · rfl
          rw [this, ih]
          simp [e]
      | _ =>
        refine other (by intros; simp) ?_
        simp only at hv
        repeat' split at hv
        all_goals (cases hv; try rfl)

/-- **C43.**  When the method of a request is started, the timeout applied is the last one set before for this
method of this callee, or one second if none was set or the method is unknown. -/
theorem C43_last_setting_wins (T : Nat → Target) (acts : List Act) (s t : State) (c i : Nat)
    (h : run (State.step T) (State.init T) acts = some s) (hs : s.step T (.start c) = some t)
    (hi : (s.queue c).head? = some i) :
    t.startedAt i = some (s.clock,
      if (T c).known (s.req i).meth then (lastTimeout c (s.req i).meth acts).getD 0x3f800000 else 0x3f800000) := by
  have e := timeouts_run T acts s h c (s.req i).meth
  unfold State.step at hs
  split at hs
  · cases hs
  simp only at hs
  split at hs
  · rename_i j rest hidle hq
    rw [hq] at hi
    cases hi
    have : s.timeoutOf c (s.req i).meth =
        if (T c).known (s.req i).meth then (lastTimeout c (s.req i).meth acts).getD 0x3f800000 else 0x3f800000 := by
      rw [State.timeoutOf, e]
      split <;> rfl
    split at hs <;> cases hs <;> simp [this]
  · cases hs

/-- A setting made while the request waits in the queue counts; one made after the start does not. -/
example : ((run (State.step demo) (State.init demo) [.setTimeout 0 [97] 0x40000000, .call 0 0 [97] [] none, .push 0,
    .setTimeout 0 [97] 0x40400000, .setTimeout 0 [98] 0, .setTimeout 1 [97] 0, .start 0,
    .setTimeout 0 [97] 0]).map fun s => (s.startedAt 0, s.timeouts 0 [98])) =
    some (some (0, 0x40400000), none) := by
  rfl

/-! ## C44 -/

/-- Methods that run are known. -/
structure KnownInv (T : Nat → Target) (s : State) : Prop where
  run : ∀ c i, s.handler c = .running i → (T c).known (s.req i).meth = true
  ret : ∀ i r, s.ret i = some (some r) → (T (s.req i).callee).known (s.req i).meth = true

set_option maxHeartbeats 4000000 in
theorem knownInv_step (T : Nat → Target) (s : State) (a : Act) (t : State) (A : AnsInv s)
    (I : KnownInv T s) (h : s.step T a = some t) : KnownInv T t := by
  obtain ⟨h1, h2⟩ := I
  have b1 : ∀ c i, s.handler c = .running i → (s.req i).callee = c ∧ s.pushed i = true :=
    fun c i e => ⟨(A.inHandler c i (by rw [e]; rfl)).1, (A.inHandler c i (by rw [e]; rfl)).2.1⟩
  have f := A.fresh
  unfold State.step at h
  split at h
  · cases h
  cases a <;> simp only at h <;> (repeat' split at h) <;> cases h <;>
    first
      | exact ⟨h1, h2⟩
      | (constructor <;> simp only [upd] <;> grind [Target.invoke])

/-- **C44 refuted, for all executions.**  A request whose method the target does not have is never answered with an
error about that: only with the result nil and no error, or, if the timer is faster, with the timeout error. -/
theorem C44_never_reported (T : Nat → Target) (acts : List Act) (s : State)
    (h : run (State.step T) (State.init T) acts = some s) (i at' : Nat) (a : Ans)
    (hu : (T (s.req i).callee).known (s.req i).meth = false) (ha : (i, a, at') ∈ s.answers) :
    a = .ok none ∨ a = .timeout := by
  have R := (inv_run T h).2
  have K : KnownInv T s := by
    refine (run_inv (I := fun s => AnsInv s ∧ KnownInv T s)
      (fun s a t I h => ⟨ansInv_step T s a t I.1 h, knownInv_step T s a t I.1 I.2 h⟩) acts _ _
      ⟨ansInv_init T, ?_⟩ h).2
    constructor <;> simp [State.init]
  cases a with
  | timeout => exact .inr rfl
  | ok r =>
    cases r with
    | none => exact .inl rfl
    | some r =>
      have := K.ret i r (R.retOK _ _ _ ha)
      rw [hu] at this
      cases this

/-- **C44 refuted.**  A call of an unknown method returns nil and no error. -/
theorem C44_unknown_method_refuted :
    ∃ acts s, run (State.step demo) (State.init demo) acts = some s ∧
      (demo (s.req 0).callee).known (s.req 0).meth = false ∧ s.result 0 = some (0, .ok none) := by
  exact ⟨[.call 0 0 [98] [] none, .push 0, .start 0, .settleH 0, .deliverH 0, .receive 0], _, rfl, rfl, rfl⟩

end Verif.Props
