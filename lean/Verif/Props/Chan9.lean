import Verif.Props.Chan6

/-!
# C160: with a prompt runtime the duration of the method decides the outcome of a call
-/

namespace Verif.Props

open Verif Verif.Chan

/-- Time passes only when the timers, the handlers that have a result, the channel sends and the calling goroutines have
done what they can. -/
def Sharp (T : Nat → Target) (acts : List Act) : Prop :=
  Prompt T acts ∧ AllSteps (State.step T) (State.init T) acts (fun s a => a = .tick → ∀ c, s.step T (.settleH c) = none)

/-- A result that is not yet an answer is held by the handler; answers are from the past. -/
structure HeldInv (s : State) : Prop where
  held : ∀ i r, s.ret i = some r → s.done i = false → s.handler (s.req i).callee = .returned i r
  past : ∀ i a t, (i, a, t) ∈ s.answers → t ≤ s.clock

set_option maxHeartbeats 4000000 in
theorem heldInv_step (T : Nat → Target) (s : State) (a : Act) (t : State) (A : AnsInv s) (I : HeldInv s)
    (h : s.step T a = some t) : HeldInv t := by
  obtain ⟨a1, a2, a3, a4, a5, a6, a7, a8, a9, a10, a11, a12⟩ := A
  obtain ⟨h1, h2⟩ := I
  unfold State.step at h
  split at h
  · cases h
  cases a <;> simp only at h <;> (repeat' split at h) <;> cases h <;>
    (constructor <;> (try simp only [upd]) <;> grind [Handler.busy, Handler.sends])

/-- What a step leaves as it is. -/
theorem start_keeps {T : Nat → Target} {s t : State} {a : Act} (A : AnsInv s) (R : RecInv s) (h : s.step T a = some t) (i : Nat) :
    (∀ x, s.startedAt i = some x → t.startedAt i = some x) ∧ (∀ x, s.ret i = some x → t.ret i = some x) := by
  have q := A.inQueue
  have u := A.unstarted
  have r := R.retR
  have rn := R.retN
  unfold State.step at h
  split at h
  · cases h
  cases a <;> simp only at h <;> (repeat' split at h) <;> cases h <;>
    refine ⟨?_, ?_⟩ <;> (try simp only [upd]) <;> grind

/-- A settled call that has not returned can go on, without time passing. -/
theorem settled_goes (T : Nat → Target) {s : State} (I : AllInv s) (hd : s.dead = false) (i : Nat)
    (hdone : s.done i = true) (hr : s.result i = none) :
    ∃ b, Finishing (s.req i).callee i b ∧ s.step T b ≠ none := by
  have hn : i < s.n := by
    refine Nat.lt_of_not_le fun hge => ?_
    have := (I.ans.fresh i hge).2.1
    rw [hdone] at this; cases this
  have hp : s.pushed i = true := by
    cases e : s.pushed i with
    | true => rfl
    | false => have := (I.ans.unpushed i e).2; rw [hdone] at this; cases this
  have hc : s.lock i = true → s.chan (s.req i).caller = none := by
    intro hl
    cases e : s.chan (s.req i).caller with
    | none => rfl
    | some x =>
      have := chan_own I hn hr (j := x.1) (a := x.2) e
      have := (I.ans.chan _ x.1 x.2 e).2.2
      simp_all
  rcases I.live.flight i hdone with h | h | h | h
  · exact ⟨.deliverT i, .deliverT, by simp [State.step, hd, h, hc (I.ans.lockT i h).2]⟩
  · have hh : ∃ res, s.handler (s.req i).callee = .sending i res := by
      cases e : s.handler (s.req i).callee <;> simp_all [Handler.sends]
    obtain ⟨res, hh⟩ := hh
    exact ⟨.deliverH _, .deliverH, by simp [State.step, hd, hh, hc (I.ans.lockH _ i h).2.1]⟩
  · cases e : s.chan (s.req i).caller with
    | none => simp [e] at h
    | some x => exact ⟨.receive i, .receive, by simp [State.step, hd, hr, e, hn, hp]⟩
  · rw [hr] at h; cases h

/-- The condition on the steps of an execution. -/
def okStep (T : Nat → Target) (s : State) (a : Act) : Prop :=
  (∀ callee caller meth args parent, a = .call callee caller meth args parent →
    ∀ j, j < s.n → (s.req j).caller = caller → s.result j ≠ none) ∧
  (a = .tick → ∀ c i b, Finishing c i b → s.step T b = none) ∧ (a = .tick → ∀ c, s.step T (.settleH c) = none)

theorem okStep_all {T : Nat → Target} {acts : List Act} (u : Unshared T acts) (p : Sharp T acts) :
    AllSteps (State.step T) (State.init T) acts (okStep T) :=
  fun pre a post t he ht => ⟨u pre a post t he ht, p.1 pre a post t he ht, p.2 pre a post t he ht⟩

theorem okStep_post {T : Nat → Target} {pre post : List Act} {s1 : State}
    (h : AllSteps (State.step T) (State.init T) (pre ++ post) (okStep T))
    (h1 : run (State.step T) (State.init T) pre = some s1) : AllSteps (State.step T) s1 post (okStep T) := by
  intro p a q t he ht
  exact h (pre ++ p) a q t (by rw [he, List.append_assoc]) (by rw [run_append, h1]; exact ht)

theorem okStep_pre {T : Nat → Target} {pre post : List Act}
    (h : AllSteps (State.step T) (State.init T) (pre ++ post) (okStep T)) :
    AllSteps (State.step T) (State.init T) pre (okStep T) := by
  intro p a q t he ht
  exact h p a (q ++ post) t (by rw [he]; simp) ht

theorem sharp_inv {T : Nat → Target} {acts : List Act} {s : State}
    (h : AllSteps (State.step T) (State.init T) acts (okStep T))
    (hs : run (State.step T) (State.init T) acts = some s) : AllInv s ∧ HeldInv s :=
  run_inv_steps (I := fun s => AllInv s ∧ HeldInv s) (ok := okStep T)
    (fun s a t ok I h => ⟨allInv_step T s a t ok.1 I.1 h, heldInv_step T s a t I.1.ans I.2 h⟩) acts _ _ h
    ⟨allInv_init T, by constructor <;> simp [State.init]⟩ hs

/-- After the method of `i` has returned `r` at the time `c1`, before the end of the timeout. -/
structure Quick (i t0 c1 : Nat) (d : BitVec 32) (r : Option (List Codec.Val)) (s : State) : Prop where
  all : AllInv s
  heldInv : HeldInv s
  started : s.startedAt i = some (t0, d)
  returned : s.ret i = some r
  later : c1 ≤ s.clock
  noTimeout : ∀ t', (i, Ans.timeout, t') ∉ s.answers
  result : c1 < s.clock → s.result i ≠ none

theorem step_alive {T : Nat → Target} {s t : State} {a : Act} (h : s.step T a = some t) : s.dead = false := by
  cases e : s.dead with
  | false => rfl
  | true => simp [State.step, e] at h

/-- Answers are added, in one step at most one, and a timeout only by the timer. -/
theorem new_timeout {T : Nat → Target} {s t : State} {a : Act} (h : s.step T a = some t) (i t' : Nat)
    (hn : (i, Ans.timeout, t') ∉ s.answers) (ha : (i, Ans.timeout, t') ∈ t.answers) :
    s.timer i = .woken ∧ s.done i = false := by
  unfold State.step at h
  split at h
  · cases h
  cases a <;> simp only at h <;> (repeat' split at h) <;> cases h <;> simp_all

theorem quick_step (T : Nat → Target) (i t0 c1 : Nat) (d : BitVec 32) (r : Option (List Codec.Val))
    (hc : c1 < t0 + sleepTime d) (s : State) (a : Act) (t : State) (ok : okStep T s a)
    (Q : Quick i t0 c1 d r s) (h : s.step T a = some t) : Quick i t0 c1 d r t := by
  obtain ⟨I, H, hs, hr, hl, hn, hq⟩ := Q
  have k := fair_keeps h i
  have done_of : s.result i ≠ none → s.done i = true := by
    intro e
    cases e2 : s.result i with
    | none => exact absurd e2 e
    | some x =>
      obtain ⟨j, b⟩ := x
      have := I.own.own i j b e2
      subst this
      exact (I.ans.result _ _ _ e2).1
  refine ⟨allInv_step T s a t ok.1 I h, heldInv_step T s a t I.ans H h, (start_keeps I.ans I.recd h i).1 _ hs,
    (start_keeps I.ans I.recd h i).2 _ hr, Nat.le_trans hl k.2.2.2.2.2, ?_, ?_⟩
  · intro t' ha
    obtain ⟨w, nd⟩ := new_timeout h i t' (hn t') ha
    obtain ⟨t0', d', e1, e2⟩ := I.recd.woken i w
    rw [hs] at e1
    cases e1
    have := done_of (hq (by omega))
    rw [nd] at this
    cases this
  · intro hlt
    have hres : s.result i ≠ none := by
      by_cases e : c1 < s.clock
      · exact hq e
      · -- the clock moves
        have ht : a = .tick := by
          unfold State.step at h
          split at h
          · cases h
          cases a <;> simp only at h <;> (repeat' split at h) <;> cases h <;> first | rfl | (exact absurd hlt e)
        intro hnone
        have hd := step_alive h
        cases hdone : s.done i with
        | true =>
          obtain ⟨b, f, g⟩ := settled_goes T I hd i hdone hnone
          exact g (ok.2.1 ht _ _ _ f)
        | false =>
          have hh := H.held i r hr hdone
          have hlk : s.lock i = false := by
            cases e : s.lock i with
            | false => rfl
            | true =>
              rcases I.ans.locked i e with h | h
              · have := (I.ans.lockT i h).1; simp_all
              · have := (I.ans.lockH _ i h).1; simp_all
          have := ok.2.2 ht (s.req i).callee
          simp [State.step, hd, hh, hlk, hdone] at this
    rw [k.2.2.2.2.1 hres]
    exact hres

/-- **C160, quick methods.**  Callers are not shared and the runtime is prompt.  If at some time `s1.clock` before the
end of the timeout the method of a call has returned `r`, then this is what the call returns, and it has done so as soon
as the clock has moved on. -/
theorem C160_quick (T : Nat → Target) (pre post : List Act) (s1 s : State) (u : Unshared T (pre ++ post))
    (p : Sharp T (pre ++ post)) (h1 : run (State.step T) (State.init T) pre = some s1)
    (h : run (State.step T) (State.init T) (pre ++ post) = some s) (i t0 : Nat) (d : BitVec 32)
    (r : Option (List Codec.Val)) (hs : s1.startedAt i = some (t0, d)) (hr : s1.ret i = some r)
    (hc : s1.clock < t0 + sleepTime d) :
    (∀ x, s.result i = some x → x = (i, .ok r)) ∧ (s1.clock < s.clock → s.result i = some (i, .ok r)) := by
  have ok := okStep_all u p
  obtain ⟨I, H⟩ := sharp_inv (okStep_pre ok) h1
  have Q1 : Quick i t0 s1.clock d r s1 := by
    refine ⟨I, H, hs, hr, Nat.le_refl _, ?_, fun e => absurd e (Nat.lt_irrefl _)⟩
    intro t' ha
    obtain ⟨t0', d', e1, e2⟩ := I.recd.late i t' ha
    have := H.past _ _ _ ha
    rw [hs] at e1
    cases e1
    omega
  rw [run_append, h1] at h
  have Q := run_inv_steps (I := Quick i t0 s1.clock d r) (ok := okStep T)
    (fun s a t ok I h => quick_step T i t0 s1.clock d r hc s a t ok I h) post _ _ (okStep_post ok h1) Q1 h
  have first : ∀ x, s.result i = some x → x = (i, .ok r) := by
    rintro ⟨j, b⟩ e
    have := Q.all.own.own i j b e
    subst this
    obtain ⟨t', ht'⟩ := Q.all.recd.result _ _ _ e
    cases b with
    | timeout => exact absurd ht' (Q.noTimeout t')
    | ok r' =>
      have := Q.all.recd.retOK _ _ _ ht'
      rw [Q.returned] at this
      cases this
      rfl
  refine ⟨first, fun hlt => ?_⟩
  cases e : s.result i with
  | none => exact absurd e (Q.result hlt)
  | some x => rw [first x e]

/-- **C160, slow methods.**  If at some time after the end of the timeout the method of a call has not returned, then
the call has returned the timeout error, and whatever the method does later does not change it. -/
theorem C160_slow (T : Nat → Target) (pre post : List Act) (s1 s : State) (u : Unshared T (pre ++ post))
    (p : Sharp T (pre ++ post)) (h1 : run (State.step T) (State.init T) pre = some s1)
    (h : run (State.step T) (State.init T) (pre ++ post) = some s) (i t0 : Nat) (d : BitVec 32)
    (hs : s1.startedAt i = some (t0, d)) (hr : s1.ret i = none) (hc : t0 + sleepTime d < s1.clock) :
    s1.result i = some (i, .timeout) ∧ s.result i = some (i, .timeout) := by
  have ok := okStep_all u p
  obtain ⟨I, H⟩ := sharp_inv (okStep_pre ok) h1
  have up : Unshared T pre := fun q a w t he ht => u q a (w ++ post) t (by rw [he]; simp) ht
  have pp : Prompt T pre := fun q a w t he ht => p.1 q a (w ++ post) t (by rw [he]; simp) ht
  have first : s1.result i = some (i, .timeout) := by
    cases e : s1.result i with
    | none =>
      have := C40_bounded_after_start_partial T pre s1 up pp h1 i t0 d hs e
      omega
    | some x =>
      obtain ⟨j, b⟩ := x
      have := I.own.own i j b e
      subst this
      obtain ⟨t', ht'⟩ := I.recd.result _ _ _ e
      cases b with
      | timeout => rfl
      | ok r' =>
        have := I.recd.retOK _ _ _ ht'
        rw [hr] at this
        cases this
  refine ⟨first, ?_⟩
  rw [run_append, h1] at h
  refine run_inv (I := fun s => s.result i = some (i, .timeout)) ?_ post s1 s first h
  intro s a t e st
  rw [(fair_keeps st i).2.2.2.2.1 (by rw [e]; intro c; cases c), e]

/-! ## The test with the timeout -/

/-- The test: the timeout of the method is set to 0.1 seconds, then one goroutine calls it.
/repo/chancall/API_test.go:75-97. -/
def testTimeout (m : Str) (rest : List Act) : List Act := .setTimeout 0 m tenth :: .call 0 0 m [] none :: rest

/-- Neither a call nor a setting of a timeout: what follows in the test. -/
def OnlyRuns : Act → Prop
  | .call .. => False
  | .setTimeout .. => False
  | _ => True

theorem sleep_tenth : sleepTime tenth = 0 := by decide +kernel

/-- The only request is the one of the test, and it runs with the timeout that was set. -/
structure OneCall (m : Str) (s : State) : Prop where
  one : s.n = 1
  meth : (s.req 0).meth = m
  callee : (s.req 0).callee = 0
  set : s.timeouts 0 m = some tenth
  inForce : ∀ t0 d, s.startedAt 0 = some (t0, d) → d = tenth

set_option maxHeartbeats 4000000 in
theorem oneCall_step (T : Nat → Target) (m : Str) (s : State) (a : Act) (t : State) (A : AnsInv s) (o : OnlyRuns a)
    (I : OneCall m s) (h : s.step T a = some t) : OneCall m t := by
  obtain ⟨h1, h2, h3, h4, h5⟩ := I
  have q := A.inQueue
  unfold State.step at h
  split at h
  · cases h
  cases a with
  | call => cases o
  | setTimeout => cases o
  | start c =>
    have ht : s.timeoutOf 0 m = tenth := by simp [State.timeoutOf, h4]
    simp only at h
    repeat' split at h
    all_goals cases h
    all_goals (constructor <;> (try simp only [upd]) <;> grind)
  | _ =>
    simp only at h
    repeat' split at h
    all_goals cases h
    all_goals exact ⟨h1, h2, h3, h4, h5⟩

/-- An answer with a result is given only by the handler. -/
theorem new_ok {T : Nat → Target} {s t : State} {a : Act} (h : s.step T a = some t) (i t' : Nat)
    (r : Option (List Codec.Val)) (hn : (i, Ans.ok r, t') ∉ s.answers) (ha : (i, Ans.ok r, t') ∈ t.answers) :
    (∃ c, s.handler c = .returned i r) ∧ s.done i = false := by
  unfold State.step at h
  split at h
  · cases h
  cases a <;> simp only at h <;> (repeat' split at h) <;> cases h <;> simp_all
  exact ⟨_, by assumption⟩

/-- **C160, the test with the timeout.**  The method takes at least two seconds.  With a prompt runtime the call never
returns anything but the timeout error, so that the test does not fail; and it has returned when the clock has moved on
from the time at which the method was started: a tenth of a second counts as nothing. -/
theorem C160_test (T : Nat → Target) (m : Str) (rest : List Act) (s : State) (known : (T 0).known m = true)
    (only : ∀ a ∈ rest, OnlyRuns a) (p : Sharp T (testTimeout m rest))
    (h : run (State.step T) (State.init T) (testTimeout m rest) = some s)
    (slow : ∀ pre s1 t0 d, pre <+: testTimeout m rest → run (State.step T) (State.init T) pre = some s1 →
      s1.startedAt 0 = some (t0, d) → s1.ret 0 ≠ none → t0 + 2000000000 ≤ s1.clock) :
    (∀ x, s.result 0 = some x → x = (0, .timeout)) ∧
      (∀ t0 d, s.startedAt 0 = some (t0, d) → t0 < s.clock → s.result 0 = some (0, .timeout)) := by
  have u : Unshared T (testTimeout m rest) := by
    intro pre a post t he ht callee caller meth args parent e j hj
    subst e
    cases pre with
    | nil => cases he
    | cons x pre =>
      cases pre with
      | nil =>
        cases he
        have hn : t.n = 0 := by
          simp only [run, State.step, State.init, known] at ht
          cases ht
          rfl
        rw [hn] at hj
        exact absurd hj (Nat.not_lt_zero _)
      | cons y pre =>
        simp only [testTimeout, List.cons_append, List.cons.injEq] at he
        have : OnlyRuns (.call callee caller meth args parent) := only _ (by rw [he.2.2]; simp)
        cases this
  have ok := okStep_all u p
  -- the state in which the routines begin
  obtain ⟨s0, h0, O0, a0, e0⟩ : ∃ s0, run (State.step T) (State.init T) [.setTimeout 0 m tenth, .call 0 0 m [] none] = some s0 ∧
      OneCall m s0 ∧ s0.answers = [] ∧ s0.result 0 = none := by
    refine ⟨_, by simp only [run, State.step, State.init, known]; rfl, ?_, rfl, rfl⟩
    constructor <;> simp [upd]
  have hlist : testTimeout m rest = [.setTimeout 0 m tenth, .call 0 0 m [] none] ++ rest := rfl
  have I0 := sharp_inv (okStep_pre (post := rest) (by rw [← hlist]; exact ok)) h0
  have steps : AllSteps (State.step T) s0 rest (fun t a => okStep T t a ∧ OnlyRuns a ∧
      (∀ t0 d, t.startedAt 0 = some (t0, d) → t.ret 0 ≠ none → t0 + 2000000000 ≤ t.clock) ∧
      (∀ t0 d, t.startedAt 0 = some (t0, d) → t.result 0 = none → t.clock ≤ t0 + sleepTime d)) := by
    intro pre a post t he ht
    have hrun : run (State.step T) (State.init T) ([.setTimeout 0 m tenth, .call 0 0 m [] none] ++ pre) = some t := by
      rw [run_append, h0]; exact ht
    have hsplit : testTimeout m rest = ([.setTimeout 0 m tenth, .call 0 0 m [] none] ++ pre) ++ a :: post := by
      rw [hlist, he]; simp
    refine ⟨ok _ a post t hsplit hrun, only a (by rw [he]; simp), ?_, ?_⟩
    · intro t0 d e1 e2
      exact slow _ t t0 d ⟨a :: post, hsplit.symm⟩ hrun e1 e2
    · intro t0 d e1 e2
      refine C40_bounded_after_start_partial T _ t ?_ ?_ hrun 0 t0 d e1 e2
      · intro q b w v he' hv; exact u q b (w ++ a :: post) v (by rw [hsplit, he']; simp) hv
      · intro q b w v he' hv; exact p.1 q b (w ++ a :: post) v (by rw [hsplit, he']; simp) hv
  have hrest : run (State.step T) s0 rest = some s := by
    rw [hlist, run_append, h0] at h; exact h
  have done_of : ∀ v : State, AllInv v → v.result 0 ≠ none → v.done 0 = true := by
    intro v I e
    cases e2 : v.result 0 with
    | none => exact absurd e2 e
    | some x =>
      obtain ⟨j, b⟩ := x
      have := I.own.own 0 j b e2
      subst this
      exact (I.ans.result _ _ _ e2).1
  have key := run_inv_steps (I := fun v => (AllInv v ∧ HeldInv v) ∧ OneCall m v ∧ ∀ r t', (0, Ans.ok r, t') ∉ v.answers)
    (ok := _) ?_ rest s0 s steps ⟨I0, O0, by rw [a0]; simp⟩ hrest
  · obtain ⟨⟨I, H⟩, O, no⟩ := key
    have first : ∀ x, s.result 0 = some x → x = (0, .timeout) := by
      rintro ⟨j, b⟩ e
      have := I.own.own 0 j b e
      subst this
      obtain ⟨t', ht'⟩ := I.recd.result _ _ _ e
      cases b with
      | timeout => rfl
      | ok r' => exact absurd ht' (no r' t')
    refine ⟨first, ?_⟩
    intro t0 d e1 hlt
    cases e : s.result 0 with
    | none =>
      have h40 := C40_bounded_after_start_partial T _ s u p.1 h 0 t0 d e1 e
      rw [O.inForce t0 d e1, sleep_tenth] at h40
      omega
    | some x => rw [first x e]
  · rintro v a t ⟨ok1, only1, slow1, soon1⟩ ⟨⟨I, H⟩, O, no⟩ st
    refine ⟨⟨allInv_step T v a t ok1.1 I st, heldInv_step T v a t I.ans H st⟩, oneCall_step T m v a t I.ans only1 O st, ?_⟩
    intro r t' ha
    obtain ⟨⟨c, hc⟩, nd⟩ := new_ok st 0 t' r (no r t') ha
    have hret := I.recd.retH c 0 r hc
    have hti := (I.ans.inHandler c 0 (by rw [hc]; rfl)).2.2
    have hres : v.result 0 = none := by
      cases e : v.result 0 with
      | none => rfl
      | some x => have := done_of v I (by rw [e]; intro c; cases c); rw [nd] at this; cases this
    cases e : v.startedAt 0 with
    | none =>
      have : v.timer 0 = .woken ∨ (∃ u, v.timer 0 = .sleeping u) ∨ v.timer 0 = .sending ∨ v.timer 0 = .over := by
        cases e : v.timer 0 <;> simp_all
      rcases this with h | ⟨w, h⟩ | h | h
      · obtain ⟨x, y, z, _⟩ := I.recd.woken 0 h; rw [e] at z; cases z
      · obtain ⟨x, y, z, _⟩ := I.recd.sleeping 0 w h; rw [e] at z; cases z
      · have := (I.ans.lockT 0 h).1; rw [nd] at this; cases this
      · have := I.live.over 0 h; rw [nd] at this; cases this
    | some x =>
      obtain ⟨t0, d⟩ := x
      have g1 := slow1 t0 d e (by rw [hret]; intro c; cases c)
      have g2 := soon1 t0 d e hres
      rw [O.inForce t0 d e, sleep_tenth] at g2
      omega

/-- A schedule of the test: the method returns after `N` nanoseconds, and only then does anything else happen. -/
def lazy (N : Nat) : List Act :=
  [.push 0, .start 0] ++ (List.replicate N .tick ++ [.ret 0 [], .settleH 0, .deliverH 0, .receive 0])

/-- The schedule is one of the test, the method takes `N` nanoseconds, and the call returns without an error. -/
theorem lazy_runs (N : Nat) : ∃ s, (∀ a ∈ lazy N, OnlyRuns a) ∧
    run (State.step demo) (State.init demo) (testTimeout [97] (lazy N)) = some s ∧
    (∀ pre s1 t0 d, pre <+: testTimeout [97] (lazy N) → run (State.step demo) (State.init demo) pre = some s1 →
      s1.startedAt 0 = some (t0, d) → s1.ret 0 ≠ none → t0 + N ≤ s1.clock) ∧
    s.result 0 = some (0, .ok (some [])) := by
  obtain ⟨s0, h0⟩ : ∃ s0, run (State.step demo) (State.init demo)
      [.setTimeout 0 [97] tenth, .call 0 0 [97] [] none, .push 0, .start 0] = some s0 := ⟨_, rfl⟩
  have hd : s0.dead = false := by cases h0; rfl
  have hclk : s0.clock = 0 := by cases h0; rfl
  have hrun := ticks demo N s0 hd
  have hl : testTimeout [97] (lazy N) = [.setTimeout 0 [97] tenth, .call 0 0 [97] [] none, .push 0, .start 0] ++
      (List.replicate N .tick ++ [.ret 0 [], .settleH 0, .deliverH 0, .receive 0]) := rfl
  obtain ⟨s, hs, hres⟩ : ∃ s, run (State.step demo) { s0 with clock := s0.clock + N }
      [.ret 0 [], .settleH 0, .deliverH 0, .receive 0] = some s ∧ s.result 0 = some (0, .ok (some [])) := by
    cases h0
    exact ⟨_, rfl, rfl⟩
  refine ⟨s, ?_, ?_, ?_, hres⟩
  · intro a ha
    simp only [lazy, List.mem_append, List.mem_cons, List.not_mem_nil, or_false] at ha
    rcases ha with (rfl | rfl) | ha | rfl | rfl | rfl | rfl
    · trivial
    · trivial
    · rw [(List.mem_replicate.mp ha).2]; trivial
    all_goals trivial
  · rw [hl, run_append, h0]
    show run _ s0 _ = _
    rw [run_append, hrun]
    exact hs
  · have steps : AllSteps (State.step demo) (State.init demo) (testTimeout [97] (lazy N))
        (fun t a => ((∃ c r, a = .ret c r) → N ≤ t.clock) ∧
          ((∃ c, a = .start c) → ∀ v, t.step demo a = some v → v.ret 0 = none ∧ v.startedAt 0 = some (0, tenth))) := by
      rw [hl]
      refine allSteps_append ?_ ?_
      · refine allSteps_cons ⟨(by rintro ⟨_, _, e⟩; cases e), (by rintro ⟨_, e⟩; cases e)⟩ rfl ?_
        refine allSteps_cons ⟨(by rintro ⟨_, _, e⟩; cases e), (by rintro ⟨_, e⟩; cases e)⟩ rfl ?_
        refine allSteps_cons ⟨(by rintro ⟨_, _, e⟩; cases e), (by rintro ⟨_, e⟩; cases e)⟩ rfl ?_
        refine allSteps_cons ⟨(by rintro ⟨_, _, e⟩; cases e), fun _ v hv => by cases hv; exact ⟨rfl, rfl⟩⟩ rfl ?_
        exact allSteps_nil
      · intro t ht
        rw [h0] at ht
        cases ht
        refine allSteps_append ?_ ?_
        · intro pre a post t he ht
          have : a ∈ List.replicate N Act.tick := by rw [he]; simp
          rw [(List.mem_replicate.mp this).2]
          exact ⟨(by rintro ⟨_, _, e⟩; cases e), (by rintro ⟨_, e⟩; cases e)⟩
        · intro t ht
          rw [hrun] at ht
          cases ht
          intro pre a post t he ht
          refine ⟨fun _ => ?_, ?_⟩
          · have := run_inv (I := fun v => N ≤ v.clock) (fun v a w h1 h2 => Nat.le_trans h1 (fair_keeps h2 0).2.2.2.2.2)
              pre _ _ (Nat.le_add_left N s0.clock) ht
            exact this
          · rintro ⟨c, rfl⟩
            have : Act.start c ∈ [Act.ret 0 [], .settleH 0, .deliverH 0, .receive 0] := by rw [he]; simp
            simp at this
    rintro pre s1 t0 d ⟨post, hp⟩ h1 e1 e2
    have key := run_inv_steps
      (I := fun v : State => (∀ t0 d, v.startedAt 0 = some (t0, d) → t0 = 0) ∧ (v.ret 0 ≠ none → N ≤ v.clock))
      (ok := fun t a => ((∃ c r, a = Act.ret c r) → N ≤ t.clock) ∧
          ((∃ c, a = .start c) → ∀ v, t.step demo a = some v → v.ret 0 = none ∧ v.startedAt 0 = some (0, tenth))) ?_ pre _ _
      (fun q a w t he ht => steps q a (w ++ post) t (by rw [← hp, he]; simp) ht) ?_ h1
    · rw [key.1 t0 d e1]
      have := key.2 e2
      omega
    · rintro v a t ⟨ok1, ok2⟩ ⟨i1, i2⟩ st
      have mono := (fair_keeps st 0).2.2.2.2.2
      cases a with
      | start c =>
        obtain ⟨g1, g2⟩ := ok2 ⟨c, rfl⟩ t st
        exact ⟨fun t0 d e => by rw [g2] at e; cases e; rfl, fun e => absurd g1 e⟩
      | ret c r =>
        have hN := ok1 ⟨c, r, rfl⟩
        refine ⟨?_, fun _ => Nat.le_trans hN mono⟩
        unfold State.step at st
        split at st
        · cases st
        simp only at st
        repeat' split at st
        all_goals cases st
        exact i1
      | _ =>
        have same : t.startedAt = v.startedAt ∧ t.ret = v.ret := by
          unfold State.step at st
          split at st
          · cases st
          simp only at st
          repeat' split at st
          all_goals cases st
          all_goals exact ⟨rfl, rfl⟩
        rw [same.1, same.2]
        exact ⟨i1, fun e => Nat.le_trans (i2 e) mono⟩
    · simp [State.init]

/-- **C160, the premise.**  Without a prompt runtime the test can fail: the method takes two seconds, the timer, which
has been due since the start, comes after the handler, and the call returns without an error. -/
theorem C160_unprompt : ∃ rest s, (∀ a ∈ rest, OnlyRuns a) ∧
    run (State.step demo) (State.init demo) (testTimeout [97] rest) = some s ∧
    (∀ pre s1 t0 d, pre <+: testTimeout [97] rest → run (State.step demo) (State.init demo) pre = some s1 →
      s1.startedAt 0 = some (t0, d) → s1.ret 0 ≠ none → t0 + 2000000000 ≤ s1.clock) ∧
    s.result 0 = some (0, .ok (some [])) := by
  obtain ⟨s, h⟩ := lazy_runs 2000000000
  exact ⟨_, s, h⟩

/-! ## Examples -/

/-- In this state time may pass: nothing can be done by the timers, the handlers with a result and the callers. -/
def AtRest (s : State) : Prop :=
  (∀ i, s.timer i = .none ∨ s.timer i = .over ∨ ∃ t, s.timer i = .sleeping t ∧ s.clock < t) ∧
  (∀ c, s.handler c = .idle ∨ ∃ i, s.handler c = .running i) ∧ ∀ c, s.chan c = none

theorem atRest_quiet {T : Nat → Target} {s : State} (h : AtRest s) :
    (∀ c i b, Finishing c i b → s.step T b = none) ∧ ∀ c, s.step T (.settleH c) = none := by
  obtain ⟨h1, h2, h3⟩ := h
  constructor
  · intro c i b hb
    unfold State.step
    cases hb with
    | wake => rcases h1 i with e | e | ⟨t, e, l⟩ <;> simp [e]; omega
    | settleT => rcases h1 i with e | e | ⟨t, e, l⟩ <;> simp [e]
    | deliverT => rcases h1 i with e | e | ⟨t, e, l⟩ <;> simp [e]
    | deliverH => rcases h2 c with e | ⟨i, e⟩ <;> simp [e]
    | receive => simp [h3]
  · intro c
    unfold State.step
    rcases h2 c with e | ⟨i, e⟩ <;> simp [e]

/-- An execution is prompt if the clock moves only in states at rest. -/
theorem sharp_of {T : Nat → Target} {acts : List Act}
    (h : AllSteps (State.step T) (State.init T) acts (fun s a => a = .tick → AtRest s)) : Sharp T acts :=
  ⟨fun pre a post t he ht e => (atRest_quiet (h pre a post t he ht e)).1,
    fun pre a post t he ht e => (atRest_quiet (h pre a post t he ht e)).2⟩

/-- A call of "a" with the default timeout, the method of which takes one nanosecond. -/
def quickRun : List Act := [.call 0 0 [97] [] none, .push 0, .start 0, .tick, .ret 0 [.nil], .settleH 0, .deliverH 0,
  .receive 0, .tick]

theorem quickRun_ok : Unshared demo quickRun ∧ Sharp demo quickRun ∧
    ((run (State.step demo) (State.init demo) (quickRun.take 5)).map fun s => (s.startedAt 0, s.ret 0, s.clock)) =
      some (some (0, cDefaultTimeout), some (some [.nil]), 1) ∧ 1 < 0 + sleepTime cDefaultTimeout ∧
    ((run (State.step demo) (State.init demo) quickRun).map fun s => (s.result 0, s.clock)) =
      some (some (0, .ok (some [.nil])), 2) := by
  refine ⟨?_, sharp_of ?_, rfl, by decide +kernel, rfl⟩
  · refine allSteps_cons (by intro _ _ _ _ _ e j hj; exact absurd hj (Nat.not_lt_zero _)) rfl ?_
    iterate 8 refine allSteps_cons (by intro _ _ _ _ _ e; cases e) rfl ?_
    exact allSteps_nil
  · iterate 3 refine allSteps_cons (by intro e; cases e) rfl ?_
    refine allSteps_cons (fun _ => ⟨?_, ?_, fun _ => rfl⟩) rfl ?_
    · intro i
      cases i with
      | zero => exact .inr (.inr ⟨_, rfl, by decide +kernel⟩)
      | succ i => exact .inl rfl
    · intro c
      cases c with
      | zero => exact .inr ⟨_, rfl⟩
      | succ i => exact .inl rfl
    iterate 4 refine allSteps_cons (by intro e; cases e) rfl ?_
    refine allSteps_cons (fun _ => ⟨?_, ?_, ?_⟩) rfl allSteps_nil
    · intro i
      cases i with
      | zero => exact .inr (.inr ⟨_, rfl, by decide +kernel⟩)
      | succ i => exact .inl rfl
    · intro c
      cases c <;> exact .inl rfl
    · intro c
      cases c <;> rfl

/-- The test with the timeout: the call times out at once, one nanosecond later the method is still running. -/
def slowRun : List Act := testTimeout [97] [.push 0, .start 0, .wake 0, .settleT 0, .deliverT 0, .receive 0, .tick]

example : Unshared demo slowRun ∧ Sharp demo slowRun ∧
    ((run (State.step demo) (State.init demo) slowRun).map fun s => (s.startedAt 0, s.ret 0, s.clock, s.result 0)) =
      some (some (0, tenth), none, 1, some (0, .timeout)) ∧ 0 + sleepTime tenth < 1 ∧ (demo 0).known [97] = true ∧
    (∀ pre s1 t0 d, pre <+: slowRun → run (State.step demo) (State.init demo) pre = some s1 →
      s1.startedAt 0 = some (t0, d) → s1.ret 0 ≠ none → t0 + 2000000000 ≤ s1.clock) := by
  refine ⟨?_, sharp_of ?_, rfl, by decide +kernel, rfl, ?_⟩
  · refine allSteps_cons (by intro _ _ _ _ _ e; cases e) rfl ?_
    refine allSteps_cons (by intro _ _ _ _ _ e j hj; exact absurd hj (Nat.not_lt_zero _)) rfl ?_
    iterate 7 refine allSteps_cons (by intro _ _ _ _ _ e; cases e) rfl ?_
    exact allSteps_nil
  · iterate 8 refine allSteps_cons (by intro e; cases e) rfl ?_
    refine allSteps_cons (fun _ => ⟨?_, ?_, ?_⟩) rfl allSteps_nil
    · intro i
      cases i with
      | zero => exact .inr (.inl rfl)
      | succ i => exact .inl rfl
    · intro c
      cases c with
      | zero => exact .inr ⟨_, rfl⟩
      | succ i => exact .inl rfl
    · intro c
      cases c <;> rfl
  · rintro pre s1 t0 d ⟨post, hp⟩ h1 _ e2
    exfalso
    have hs : ((run (State.step demo) (State.init demo) slowRun).map fun s => s.ret 0) = some none := rfl
    rw [← hp, run_append, h1] at hs
    cases e : run (State.step demo) s1 post with
    | none => simp [e] at hs
    | some s =>
      simp only [Option.bind_some, e, Option.map_some, Option.some.injEq] at hs
      have A := (inv_run demo h1)
      cases e3 : s1.ret 0 with
      | none => exact e2 e3
      | some r =>
        have := run_inv (I := fun v => AnsInv v ∧ RecInv v ∧ v.ret 0 = some r)
          (fun v a w I st => ⟨ansInv_step _ _ _ _ I.1 st, recInv_step _ _ _ _ I.1 I.2.1 st,
            (start_keeps I.1 I.2.1 st 0).2 _ I.2.2⟩) post s1 s ⟨A.1, A.2, e3⟩ e
        rw [hs] at this
        cases this.2.2

end Verif.Props
