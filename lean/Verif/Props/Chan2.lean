import Verif.Props.Chan1

/-!
# Calls: progress: C39, C40, C41
-/

namespace Verif.Props

open Verif Verif.Chan

/-- Where the answer of a settled request is, and who waits for whom. -/
structure LiveInv (s : State) : Prop where
  flight : ∀ i, s.done i = true → s.timer i = .sending ∨ (s.handler (s.req i).callee).sends = some i ∨
    (s.chan (s.req i).caller).map (·.1) = some i ∨ (s.result i).map (·.1) = some i
  over : ∀ i, s.timer i = .over → s.done i = true
  child : ∀ i p, i < s.n → (s.req i).parent = some p → s.result i = none → s.waits p = some i
  waits : ∀ i p, s.waits p = some i → i < s.n ∧ (s.req i).parent = some p ∧ s.result i = none
  parent : ∀ i p, i < s.n → (s.req i).parent = some p → p < s.n
  waiting : ∀ i p, s.waits p = some i → s.handler (s.req p).callee = .running p
  reentrant : ∀ i p, s.waits p = some i → (s.req i).callee = (s.req p).callee → s.timer i = .none

set_option maxHeartbeats 4000000 in
theorem liveInv_step (T : Nat → Target) (s : State) (a : Act) (t : State) (A : AnsInv s) (O : OwnInv t)
    (I : LiveInv s) (h : s.step T a = some t) : LiveInv t := by
  obtain ⟨h1, h2, h3, h4, h5, h6, h7⟩ := I
  obtain ⟨a1, a2, a3, a4, a5, a6, a7, a8, a9, a10, a11, a12⟩ := A
  have hb : ∀ c i, (s.handler c).sends = some i → (s.req i).callee = c :=
    fun c i e => (a3 c i (Handler.busy_of_sends e)).1
  have own := O.own
  unfold State.step at h
  split at h
  · cases h
  cases a with
  | tick => cases h; exact ⟨h1, h2, h3, h4, h5, h6, h7⟩
  | setTimeout c m t =>
    simp only at h
    split at h <;> cases h <;> exact ⟨h1, h2, h3, h4, h5, h6, h7⟩
  | call callee caller meth args parent =>
    simp only at h
    have hm : ∀ p, s.mayCall p → s.waits p = none ∧ s.handler (s.req p).callee = .running p := by
      intro p h
      refine ⟨h.2, ?_⟩
      have := h.1
      split at this
      · rename_i e; subst this; exact e
      · cases this
    repeat' split at h
    all_goals cases h
    all_goals (constructor <;> simp only [upd] <;> grind [Handler.busy, Handler.sends])
  | receive i =>
    simp only at h
    repeat' split at h
    all_goals cases h
    all_goals (constructor <;> simp only [upd] at own ⊢ <;> grind [Handler.busy, Handler.sends])
  | _ =>
    simp only at h
    repeat' split at h
    all_goals cases h
    all_goals (constructor <;> simp only [upd] <;> grind [Handler.busy, Handler.sends])

/-- All invariants of executions with unshared callers. -/
structure AllInv (s : State) : Prop where
  ans : AnsInv s
  recd : RecInv s
  own : OwnInv s
  live : LiveInv s

theorem allInv_step (T : Nat → Target) (s : State) (a : Act) (t : State)
    (ok : ∀ callee caller meth args parent, a = .call callee caller meth args parent →
      ∀ j, j < s.n → (s.req j).caller = caller → s.result j ≠ none)
    (I : AllInv s) (h : s.step T a = some t) : AllInv t :=
  have O := ownInv_step T s a t I.ans ok I.own h
  ⟨ansInv_step T s a t I.ans h, recInv_step T s a t I.ans I.recd h, O, liveInv_step T s a t I.ans O I.live h⟩

theorem allInv_init (T : Nat → Target) : AllInv (State.init T) := by
  refine ⟨ansInv_init T, recInv_init T, ?_, ?_⟩ <;> constructor <;> simp [State.init]

theorem allInv_run (T : Nat → Target) {acts : List Act} {s : State} (u : Unshared T acts)
    (h : run (State.step T) (State.init T) acts = some s) : AllInv s :=
  run_inv_steps (fun s a t ok I h => allInv_step T s a t ok I h) acts _ _ u (allInv_init T) h

/-- While a request of a caller is not returned, its channel can only hold the answer to this request. -/
theorem chan_own {s : State} (I : AllInv s) {i j : Nat} {a : Ans} (hi : i < s.n) (hr : s.result i = none)
    (hc : s.chan (s.req i).caller = some (j, a)) : j = i := by
  obtain ⟨c1, c2, c3⟩ := I.ans.chan _ j a hc
  have hjn : j < s.n := by
    refine Nat.lt_of_not_le fun hge => ?_
    have := (I.ans.fresh j hge).2.1
    rw [c1] at this; cases this
  refine I.own.single j i hjn hi c2 ?_ hr
  cases e : s.result j with
  | none => rfl
  | some y =>
    exfalso
    obtain ⟨k, b⟩ := y
    have := I.own.own j k b e
    subst this
    have := (I.ans.result _ _ _ e).2.2.2 a
    rw [c2] at this
    exact this hc

/-- The actions by which the runtime and the calling goroutine bring a started call to its end. -/
inductive Finishing (c i : Nat) : Act → Prop where
  | wake : Finishing c i (.wake i)
  | settleT : Finishing c i (.settleT i)
  | deliverT : Finishing c i (.deliverT i)
  | deliverH : Finishing c i (.deliverH c)
  | receive : Finishing c i (.receive i)

/-- How far a started call is from its end. -/
def rank (s : State) (i : Nat) : Nat :=
  match s.timer i with
  | .sleeping _ => if s.done i then (if s.lock i then 2 else 1) else 4
  | .woken => if s.done i then (if s.lock i then 2 else 1) else 3
  | .sending => 2
  | _ => if s.lock i then 2 else 1

/-- A started call that has not returned and whose deadline has passed can make a step towards its end. -/
theorem finishing_enabled (T : Nat → Target) {s : State} (I : AllInv s) (hd : s.dead = false) (i t0 : Nat) (d : BitVec 32)
    (hs : s.startedAt i = some (t0, d)) (hr : s.result i = none) (hclk : t0 + sleepTime d ≤ s.clock) :
    ∃ a t, Finishing (s.req i).callee i a ∧ s.step T a = some t ∧ t.dead = false ∧ t.req = s.req ∧
      t.startedAt = s.startedAt ∧ t.clock = s.clock ∧
      (t.result i ≠ none ∨ (t.result i = none ∧ rank t i < rank s i)) := by
  have hn : i < s.n := by
    refine Nat.lt_of_not_le fun hge => ?_
    have := (I.ans.fresh i hge).2.2.2.2.2.1
    rw [hs] at this; cases this
  have ht : s.timer i ≠ .none := fun e => by
    have := (I.ans.unstarted i e).2
    rw [hs] at this; cases this
  have hp : s.pushed i = true := by
    cases e : s.pushed i with
    | true => rfl
    | false => exact absurd (I.ans.unpushed i e).1 ht
  by_cases hdone : s.done i = true
  · rcases I.live.flight i hdone with h | h | h | h
    · -- the timer is sending
      have hl := (I.ans.lockT i h).2
      have hc : s.chan (s.req i).caller = none := by
        cases e : s.chan (s.req i).caller with
        | none => rfl
        | some x =>
          have := chan_own I hn hr (j := x.1) (a := x.2) e
          have := (I.ans.chan _ x.1 x.2 e).2.2
          simp_all
      have st : s.step T (.deliverT i) = some { s with
          timer := upd s.timer i .over, lock := upd s.lock i false
          chan := upd s.chan (s.req i).caller (some (i, .timeout)) } := by simp [State.step, hd, h, hc]
      refine ⟨.deliverT i, _, .deliverT, st, hd, rfl, rfl, rfl, ?_⟩
      right
      exact ⟨hr, by simp [rank, h]⟩
    · -- the handler is sending
      have hl := (I.ans.lockH _ i h).2.1
      have hc : s.chan (s.req i).caller = none := by
        cases e : s.chan (s.req i).caller with
        | none => rfl
        | some x =>
          have := chan_own I hn hr (j := x.1) (a := x.2) e
          have := (I.ans.chan _ x.1 x.2 e).2.2
          simp_all
      have hh : ∃ res, s.handler (s.req i).callee = .sending i res := by
        cases e : s.handler (s.req i).callee <;> simp_all [Handler.sends]
      obtain ⟨res, hh⟩ := hh
      have hns := (I.ans.lockH _ i h).2.2
      have st : s.step T (.deliverH (s.req i).callee) = some { s with
          handler := upd s.handler (s.req i).callee .idle, lock := upd s.lock i false
          chan := upd s.chan (s.req i).caller (some (i, .ok res)) } := by simp [State.step, hd, hh, hc]
      refine ⟨_, _, .deliverH, st, hd, rfl, rfl, rfl, ?_⟩
      right
      refine ⟨hr, ?_⟩
      simp only [rank, upd_same, hdone, hl]
      cases e : s.timer i <;> simp_all
    · -- the answer is in the channel
      cases e : s.chan (s.req i).caller with
      | none => simp [e] at h
      | some x =>
        have st : s.step T (.receive i) = some { s with
            result := upd s.result i (some x), chan := upd s.chan (s.req i).caller none
            waits := match (s.req i).parent with
              | some p => upd s.waits p none
              | none => s.waits } := by simp [State.step, hd, hr, e, hn, hp]; rfl
        refine ⟨_, _, .receive, st, hd, rfl, rfl, rfl, ?_⟩
        left; simp
    · rw [hr] at h; cases h
  · have hdone : s.done i = false := by simpa using hdone
    have hl : s.lock i = false := by
      cases e : s.lock i with
      | false => rfl
      | true =>
        rcases I.ans.locked i e with h | h
        · have := (I.ans.lockT i h).1; simp_all
        · have := (I.ans.lockH _ i h).1; simp_all
    cases e : s.timer i with
    | none => exact absurd e ht
    | sleeping u =>
      obtain ⟨t0', d', e1, e2⟩ := I.recd.sleeping i u e
      rw [hs] at e1
      cases e1
      have st : s.step T (.wake i) = some { s with timer := upd s.timer i .woken } := by
        simp [State.step, hd, e, e2, hclk]
      refine ⟨_, _, .wake, st, hd, rfl, rfl, rfl, ?_⟩
      right
      exact ⟨hr, by simp [rank, e, hdone]⟩
    | woken =>
      have st : s.step T (.settleT i) = some { s with
          timer := upd s.timer i .sending, done := upd s.done i true, lock := upd s.lock i true
          answers := s.answers ++ [(i, .timeout, s.clock)] } := by simp [State.step, hd, e, hl, hdone]
      refine ⟨_, _, .settleT, st, hd, rfl, rfl, rfl, ?_⟩
      right
      exact ⟨hr, by simp [rank, e, hdone]⟩
    | sending => have := (I.ans.lockT i e).1; simp_all
    | over => have := I.live.over i e; simp_all

/-! ## C39 -/

private theorem noCall {c i : Nat} {a : Act} (h : Finishing c i a) (s : State) :
    ∀ callee caller meth args parent, a = .call callee caller meth args parent →
      ∀ j, j < s.n → (s.req j).caller = caller → s.result j ≠ none := by
  intro _ _ _ _ _ e; subst e; cases h

theorem finish (T : Nat → Target) (k : Nat) : ∀ (s : State), AllInv s → s.dead = false → ∀ (i t0 : Nat) (d : BitVec 32),
    s.startedAt i = some (t0, d) → s.result i = none → t0 + sleepTime d ≤ s.clock → rank s i ≤ k →
    ∃ more t, (∀ a ∈ more, Finishing (s.req i).callee i a) ∧ run (State.step T) s more = some t ∧ AllInv t ∧
      t.result i ≠ none := by
  induction k with
  | zero =>
    intro s I hd i t0 d hs hr hc hk
    obtain ⟨a, t, h1, h2, h3, h4, h5, h6, h7⟩ := finishing_enabled T I hd i t0 d hs hr hc
    rcases h7 with h7 | h7
    · exact ⟨[a], t, by simpa using h1, by simp [run, h2], allInv_step T s a t (noCall h1 s) I h2, h7⟩
    · omega
  | succ k ih =>
    intro s I hd i t0 d hs hr hc hk
    obtain ⟨a, t, h1, h2, h3, h4, h5, h6, h7⟩ := finishing_enabled T I hd i t0 d hs hr hc
    have It := allInv_step T s a t (noCall h1 s) I h2
    rcases h7 with h7 | h7
    · exact ⟨[a], t, by simpa using h1, by simp [run, h2], It, h7⟩
    · obtain ⟨more, u, g1, g2, g3, g4⟩ := ih t It h3 i t0 d (by rw [h5]; exact hs) h7.1 (by rw [h6]; exact hc) (by omega)
      refine ⟨a :: more, u, ?_, by simp [run, h2, g2], g3, g4⟩
      intro b hb
      rcases List.mem_cons.mp hb with rfl | hb
      · exact h1
      · have := g1 b hb
        rw [h4] at this
        exact this

theorem ticks (T : Nat → Target) (k : Nat) : ∀ (s : State), s.dead = false →
    run (State.step T) s (List.replicate k .tick) = some { s with clock := s.clock + k } := by
  induction k with
  | zero => intro s _; rfl
  | succ k ih =>
    intro s hd
    have hstep : s.step T .tick = some { s with clock := s.clock + 1 } := by simp [State.step, hd]
    rw [List.replicate_succ, run, hstep]
    show run (State.step T) { s with clock := s.clock + 1 } _ = _
    rw [ih { s with clock := s.clock + 1 } hd]
    simp [Nat.add_comm, Nat.add_left_comm]

theorem allInv_clock {s : State} (I : AllInv s) (k : Nat) : AllInv { s with clock := s.clock + k } := by
  obtain ⟨A, R, O, L⟩ := I
  refine ⟨⟨A.fresh, A.inQueue, A.inHandler, A.unpushed, A.unstarted, A.queueNodup, A.lockH, A.lockT, A.locked, A.chan, A.result,
    A.once⟩, ⟨R.count, R.chan, R.result, R.sendH, R.sendT, R.retOK, R.retH, R.retR, R.retN, R.late, R.sleeping, ?_⟩,
    ⟨O.single, O.own⟩, ⟨L.flight, L.over, L.child, L.waits, L.parent, L.waiting, L.reentrant⟩⟩
  intro i h
  obtain ⟨t0, d, h1, h2⟩ := R.woken i h
  exact ⟨t0, d, h1, Nat.le_trans h2 (Nat.le_add_right _ _)⟩

/-- **C39.**  From every reachable state (callers not shared, process alive) a started call that has not returned
can be brought to its end by time passing and by actions of its own timer, its callee's channel send and the
calling goroutine only: without any action of the method body. -/
theorem C39_started_call_can_finish (T : Nat → Target) (acts : List Act) (s : State) (u : Unshared T acts)
    (h : run (State.step T) (State.init T) acts = some s) (hd : s.dead = false) (i : Nat)
    (hs : s.startedAt i ≠ none) (hr : s.result i = none) :
    ∃ k more t a, (∀ a ∈ more, Finishing (s.req i).callee i a) ∧
      run (State.step T) s (List.replicate k .tick ++ more) = some t ∧ t.result i = some (i, a) := by
  have I := allInv_run T u h
  cases e : s.startedAt i with
  | none => exact absurd e hs
  | some x =>
    obtain ⟨t0, d⟩ := x
    obtain ⟨more, t, h1, h2, h3, h4⟩ := finish T _ { s with clock := s.clock + (t0 + sleepTime d) }
      (allInv_clock I _) hd i t0 d e hr (Nat.le_add_left _ _) (Nat.le_refl _)
    cases e2 : t.result i with
    | none => exact absurd e2 h4
    | some y =>
      obtain ⟨j, a⟩ := y
      have hj := h3.own.own i j a e2
      subst hj
      refine ⟨t0 + sleepTime d, more, t, a, h1, ?_, e2⟩
      rw [run_append, ticks T _ s hd]
      exact h2

/-- A started call whose method never returns. -/
example : ((run (State.step demo) (State.init demo) [.setTimeout 0 [97] 0, .call 0 0 [97] [] none, .push 0, .start 0,
    .wake 0, .settleT 0, .deliverT 0, .receive 0]).map fun s => (s.result 0, s.ret 0)) =
      some (some (0, .timeout), none) := by
  rfl

/-! ## C40 -/

/-- Time passes only when timers, channel sends and the calling goroutines have done what they can; only the method
bodies and the callers' decisions to make a call take time. -/
def Prompt (T : Nat → Target) (acts : List Act) : Prop :=
  AllSteps (State.step T) (State.init T) acts (fun s a => a = .tick → ∀ c i b, Finishing c i b → s.step T b = none)

/-- **C40, partial.**  In executions in which the runtime is prompt and callers are not shared, a call has returned
when the timeout, counted from the start of its method, has elapsed.  Missing: counted from the call itself, which
is false. -/
theorem C40_bounded_after_start_partial (T : Nat → Target) (acts : List Act) (s : State) (u : Unshared T acts)
    (p : Prompt T acts) (h : run (State.step T) (State.init T) acts = some s) (i t0 : Nat) (d : BitVec 32)
    (hs : s.startedAt i = some (t0, d)) (hr : s.result i = none) : s.clock ≤ t0 + sleepTime d := by
  have key : AllInv s ∧ ∀ i t0 d, s.startedAt i = some (t0, d) → s.result i = none → s.clock ≤ t0 + sleepTime d := by
    refine run_inv_steps (I := fun s => AllInv s ∧ ∀ i t0 d, s.startedAt i = some (t0, d) → s.result i = none →
        s.clock ≤ t0 + sleepTime d)
      (ok := fun s a => (∀ callee caller meth args parent, a = .call callee caller meth args parent →
          ∀ j, j < s.n → (s.req j).caller = caller → s.result j ≠ none) ∧
        (a = .tick → ∀ c i b, Finishing c i b → s.step T b = none)) ?_ acts _ _
      (fun pre a post t he ht => ⟨u pre a post t he ht, p pre a post t he ht⟩)
      ⟨allInv_init T, by simp [State.init]⟩ h
    rintro s a t ⟨ok1, ok2⟩ ⟨I, hI⟩ hst
    refine ⟨allInv_step T s a t ok1 I hst, ?_⟩
    have hd : s.dead = false := by
      cases e : s.dead with
      | false => rfl
      | true => simp [State.step, e] at hst
    have fin := fun i t0 d => finishing_enabled T I hd i t0 d
    have st := hst
    unfold State.step at st
    rw [if_neg (by simp [hd])] at st
    cases a with
    | tick =>
      cases st
      intro i t0 d h1 h2
      have h3 := hI i t0 d h1 h2
      refine Nat.lt_of_not_le fun hge => ?_
      obtain ⟨b, t, g1, g2, _⟩ := fin i t0 d h1 h2 hge
      rw [ok2 rfl _ _ _ g1] at g2
      cases g2
    | start c =>
      simp only at st
      repeat' split at st
      all_goals cases st
      all_goals (simp only [upd]; grind)
    | receive i =>
      simp only at st
      repeat' split at st
      all_goals cases st
      all_goals (simp only [upd]; grind)
    | _ =>
      simp only at st
      repeat' split at st
      all_goals (cases st; try exact hI)
  exact key.2 i t0 d hs hr

/-- A target with the methods "a" and "b". -/
def demo2 : Nat → Target := fun _ => ⟨fun m => m == [97] || m == [98], fun _ _ => false⟩

theorem allSteps_cons {σ α : Type} {step : σ → α → Option σ} {ok : σ → α → Prop} {s t : σ} {a : α} {as : List α}
    (h1 : ok s a) (hs : step s a = some t) (h2 : AllSteps step t as ok) : AllSteps step s (a :: as) ok := by
  intro pre b post v he hv
  cases pre with
  | nil => cases he; cases hv; exact h1
  | cons x pre =>
    cases he
    simp only [run, hs] at hv
    exact h2 pre b post v rfl hv

theorem allSteps_nil {σ α : Type} {step : σ → α → Option σ} {ok : σ → α → Prop} {s : σ} :
    AllSteps step s [] ok := by
  intro pre b post v he
  simp at he

theorem allSteps_append {σ α : Type} {step : σ → α → Option σ} {ok : σ → α → Prop} {s : σ} {as bs : List α}
    (h1 : AllSteps step s as ok) (h2 : ∀ t, run step s as = some t → AllSteps step t bs ok) :
    AllSteps step s (as ++ bs) ok := by
  induction as generalizing s with
  | nil => exact h2 s rfl
  | cons a as ih =>
    intro pre b post v he hv
    cases pre with
    | nil =>
      cases he; cases hv
      exact h1 [] a as s rfl rfl
    | cons x pre =>
      simp only [List.cons_append, List.cons.injEq] at he
      obtain ⟨rfl, he⟩ := he
      simp only [run] at hv
      split at hv
      · cases hv
      rename_i t ht
      refine ih (s := t) ?_ ?_ pre b post v he hv
      · intro pre' b' post' v' he' hv'
        exact h1 (a :: pre') b' post' v' (by simp [he']) (by simp [run, ht, hv'])
      · intro u hu
        exact h2 u (by simp [run, ht, hu])

/-- The call of "a" has timed out, its method is still running; the call of "b" waits in the queue. -/
def behind : List Act := [.setTimeout 0 [97] 0, .call 0 0 [97] [] none, .push 0, .start 0, .call 0 1 [98] [] none,
  .push 1, .wake 0, .settleT 0, .deliverT 0, .receive 0]

/-- **C40 refuted.**  For every time `N` there is an execution, prompt and with unshared callers, in which a call of
a method with a timeout of one second has not returned `N` nanoseconds after it was made, because the method of
another call is still running, although that call has timed out long ago. -/
theorem C40_bounded_refuted (N : Nat) :
    ∃ acts s, run (State.step demo2) (State.init demo2) acts = some s ∧ Unshared demo2 acts ∧ Prompt demo2 acts ∧
      (s.req 1).calledAt = 0 ∧ s.pushed 1 = true ∧ s.timeoutOf 0 (s.req 1).meth = 0x3f800000 ∧ s.clock = N ∧
      s.result 1 = none ∧ s.startedAt 1 = none := by
  obtain ⟨s0, h0⟩ : ∃ s0, run (State.step demo2) (State.init demo2) behind = some s0 := ⟨_, rfl⟩
  have hd : s0.dead = false := by cases h0; rfl
  have hrun := ticks demo2 N s0 hd
  have hclk : s0.clock = 0 := by cases h0; rfl
  have hlast : (s0.req 1).calledAt = 0 ∧ s0.pushed 1 = true ∧ s0.timeoutOf 0 (s0.req 1).meth = 0x3f800000 ∧
      s0.result 1 = none ∧ s0.startedAt 1 = none := by
    cases h0; exact ⟨rfl, rfl, rfl, rfl, rfl⟩
  have htimer : ∀ i, s0.timer i = .over ∨ s0.timer i = .none := by
    intro i
    cases h0
    cases i with
    | zero => exact .inl rfl
    | succ i => exact .inr rfl
  have hchan : ∀ c, s0.chan c = none := by
    intro c
    cases h0
    cases c <;> rfl
  have hhandler : ∀ c, s0.handler c = .running 0 ∨ s0.handler c = .idle := by
    intro c
    cases h0
    cases c with
    | zero => exact .inl rfl
    | succ i => exact .inr rfl
  have quiet : ∀ k c i b, Finishing c i b → State.step demo2 { s0 with clock := s0.clock + k } b = none := by
    intro k c i b hb
    unfold State.step
    cases hb with
    | wake => rcases htimer i with e | e <;> simp [e]
    | settleT => rcases htimer i with e | e <;> simp [e]
    | deliverT => rcases htimer i with e | e <;> simp [e]
    | deliverH => rcases hhandler c with e | e <;> simp [e]
    | receive => simp [hchan]
  refine ⟨behind ++ List.replicate N .tick, { s0 with clock := s0.clock + N }, ?_, ?_, ?_, ?_⟩
  · rw [run_append, h0]; exact hrun
  · refine allSteps_append ?_ ?_
    · refine allSteps_cons (by intro _ _ _ _ _ e; cases e) rfl ?_
      refine allSteps_cons (by intro _ _ _ _ _ e j hj; exact absurd hj (Nat.not_lt_zero _)) rfl ?_
      refine allSteps_cons (by intro _ _ _ _ _ e; cases e) rfl ?_
      refine allSteps_cons (by intro _ _ _ _ _ e; cases e) rfl ?_
      refine allSteps_cons ?_ rfl ?_
      · intro _ _ _ _ _ e j hj hc
        cases e
        have : j = 0 := Nat.lt_one_iff.mp hj
        subst this
        exact absurd (show (0 : Nat) = 1 from hc) (by decide)
      refine allSteps_cons (by intro _ _ _ _ _ e; cases e) rfl ?_
      refine allSteps_cons (by intro _ _ _ _ _ e; cases e) rfl ?_
      refine allSteps_cons (by intro _ _ _ _ _ e; cases e) rfl ?_
      refine allSteps_cons (by intro _ _ _ _ _ e; cases e) rfl ?_
      refine allSteps_cons (by intro _ _ _ _ _ e; cases e) rfl ?_
      exact allSteps_nil
    · intro t _ pre a post v he _ callee caller meth args parent e
      have : a ∈ List.replicate N Act.tick := by rw [he]; simp
      rw [(List.mem_replicate.mp this).2] at e
      cases e
  · refine allSteps_append ?_ ?_
    · intro pre a post t he ht e
      subst e
      have : Act.tick ∈ behind := by rw [he]; simp
      simp [behind] at this
    · intro t ht
      rw [h0] at ht
      cases ht
      intro pre a post t he ht _ c i b hb
      have hp : pre = List.replicate pre.length .tick := by
        refine List.eq_replicate_iff.mpr ⟨rfl, fun x hx => ?_⟩
        have : x ∈ List.replicate N Act.tick := by rw [he]; simp [hx]
        exact (List.mem_replicate.mp this).2
      rw [hp, ticks demo2 _ _ hd] at ht
      cases ht
      exact quiet _ c i b hb
  · exact ⟨hlast.1, hlast.2.1, hlast.2.2.1, by simp [hclk], hlast.2.2.2.1, hlast.2.2.2.2⟩

/-! ## C41 -/

/-- The method of `i` is running on callee `c` and waits for the call `j` to the same callee, not yet started. -/
structure Stuck (c i j : Nat) (s : State) : Prop where
  running : s.handler c = .running i
  waits : s.waits i = some j
  callee : (s.req j).callee = c
  timer : s.timer j = .none

set_option maxHeartbeats 4000000 in
theorem stuck_step (T : Nat → Target) (c i j : Nat) (s : State) (a : Act) (t : State)
    (I : AllInv s) (K : Stuck c i j s) (h : s.step T a = some t) :
    Stuck c i j t ∧ t.log c = s.log c := by
  obtain ⟨k1, k2, k3, k4⟩ := K
  obtain ⟨w1, w2, w3⟩ := I.live.waits j i k2
  have hi : i < s.n := I.live.parent j i w1 w2
  have hc : (s.req i).callee = c := (I.ans.inHandler c i (by rw [k1]; rfl)).1
  have hdone := (I.ans.unstarted j k4).1
  have q : ∀ c' k, k ∈ s.queue c' → (s.req k).callee = c' := fun c' k hk => (I.ans.inQueue c' k hk).1
  have child := I.live.child
  unfold State.step at h
  split at h
  · cases h
  cases a with
  | call callee caller meth args parent =>
    have hm : ∀ p, s.mayCall p → s.waits p = none := fun p h => h.2
    simp only at h
    repeat' split at h
    all_goals cases h
    all_goals (refine ⟨?_, ?_⟩; (constructor <;> simp only [upd] <;> grind); simp)
  | receive k =>
    have hk : k = j → s.chan (s.req k).caller = none := by
      rintro rfl
      cases e : s.chan (s.req k).caller with
      | none => rfl
      | some x =>
        have h1 := (I.ans.chan _ x.1 x.2 e).1
        rw [chan_own I w1 w3 (j := x.1) (a := x.2) e, hdone] at h1
        cases h1
    simp only at h
    repeat' split at h
    all_goals cases h
    all_goals (refine ⟨?_, ?_⟩; (constructor <;> simp only [upd] <;> grind); simp)
  | start d =>
    simp only at h
    repeat' split at h
    all_goals cases h
    all_goals (refine ⟨?_, ?_⟩; (constructor <;> simp only [upd] <;> grind); simp only [upd]; grind)
  | _ =>
    simp only at h
    repeat' split at h
    all_goals cases h
    all_goals (refine ⟨?_, ?_⟩; (constructor <;> (try simp only [upd]) <;> grind); (first | rfl | (simp only [upd]; grind)))

/-- **C41 refuted, for all continuations.**  When the method of `i` is running on callee `c` and waits for a call
`j` on the same callee, then however the execution goes on (callers not shared): the call `j` never returns, the
method of `i` keeps running, and the handler of this callee does nothing any more. -/
theorem C41_reentrant_deadlock (T : Nat → Target) (acts more : List Act) (s t : State) (c i j : Nat)
    (u : Unshared T (acts ++ more)) (h : run (State.step T) (State.init T) acts = some s)
    (h' : run (State.step T) s more = some t) (hrun : s.handler c = .running i) (hw : s.waits i = some j)
    (hc : (s.req j).callee = c) :
    t.result j = none ∧ t.startedAt j = none ∧ t.handler c = .running i ∧ t.log c = s.log c := by
  have u1 : Unshared T acts := fun pre a post v he hv => u pre a (post ++ more) v (by simp [he]) hv
  have u2 : AllSteps (State.step T) s more (fun s a => ∀ callee caller meth args parent,
      a = .call callee caller meth args parent → ∀ j, j < s.n → (s.req j).caller = caller → s.result j ≠ none) :=
    fun pre a post v he hv => u (acts ++ pre) a post v (by simp [he]) (by rw [run_append, h]; exact hv)
  have I := allInv_run T u1 h
  have hci : (s.req i).callee = c := (I.ans.inHandler c i (by rw [hrun]; rfl)).1
  have key : AllInv t ∧ Stuck c i j t ∧ t.log c = s.log c := by
    refine run_inv_steps (I := fun t => AllInv t ∧ Stuck c i j t ∧ t.log c = s.log c) ?_ more s t u2
      ⟨I, ⟨hrun, hw, hc, I.live.reentrant j i hw (by rw [hc, hci])⟩, rfl⟩ h'
    rintro v a w ok ⟨J, K, L⟩ hst
    obtain ⟨K', L'⟩ := stuck_step T c i j v a w J K hst
    exact ⟨allInv_step T v a w ok J hst, K', by rw [L', L]⟩
  obtain ⟨J, K, L⟩ := key
  exact ⟨(J.live.waits j i K.waits).2.2, (J.ans.unstarted j K.timer).2, K.running, L⟩

/-- **C41, partial.**  A method that waits for a call whose method has been started (so on another callee, also when
that one in turn calls back) is released by the timeout at the latest.  Missing: calls on its own callee. -/
theorem C41_other_callee_partial (T : Nat → Target) (acts : List Act) (s : State) (u : Unshared T acts)
    (h : run (State.step T) (State.init T) acts = some s) (hd : s.dead = false) (i j : Nat)
    (hw : s.waits i = some j) (hs : s.startedAt j ≠ none) :
    (s.req j).callee ≠ (s.req i).callee ∧
    ∃ k more t a, (∀ a ∈ more, Finishing (s.req j).callee j a) ∧
      run (State.step T) s (List.replicate k .tick ++ more) = some t ∧ t.result j = some (j, a) ∧
      t.waits i ≠ some j := by
  have I := allInv_run T u h
  refine ⟨fun e => hs (I.ans.unstarted j (I.live.reentrant j i hw e)).2, ?_⟩
  obtain ⟨k, more, t, a, h1, h2, h3⟩ :=
    C39_started_call_can_finish T acts s u h hd j hs (I.live.waits j i hw).2.2
  refine ⟨k, more, t, a, h1, h2, h3, fun e => ?_⟩
  have J : AllInv t := by
    refine run_inv_on (A := fun a => ∀ callee caller meth args parent, a ≠ .call callee caller meth args parent)
      (fun v a w hA J hst => allInv_step T v a w (fun _ _ _ _ _ e => absurd e (hA _ _ _ _ _)) J hst) _ s t ?_ I h2
    intro a ha
    rcases List.mem_append.mp ha with ha | ha
    · rw [(List.mem_replicate.mp ha).2]; intros; simp
    · have := h1 a ha
      intro _ _ _ _ _ e
      subst e
      cases this
  have := (J.live.waits j i e).2.2
  rw [h3] at this
  cases this

/-- Feature 0 calls feature 1, which calls back feature 0: the inner call waits in the queue until the middle one
times out. -/
example : ((run (State.step demo) (State.init demo) [.setTimeout 1 [97] 0, .call 0 0 [97] [] none, .push 0, .start 0,
    .call 1 1 [97] [] (some 0), .push 1, .start 1, .call 0 2 [97] [] (some 1), .push 2, .wake 1, .settleT 1, .deliverT 1,
    .receive 1, .ret 0 [], .settleH 0, .deliverH 0, .receive 0, .start 0]).map fun s =>
      (s.result 1, s.result 0, s.waits 1, s.log 0)) =
    some (some (1, .timeout), some (0, .ok (some [])), some 2, [.started 0, .finished 0, .started 2]) := by
  rfl

/-- Such a state is reached when a method calls its own feature. -/
theorem C41_reentrant_refuted :
    ∃ acts s, run (State.step demo) (State.init demo) acts = some s ∧ Unshared demo acts ∧
      s.handler 0 = .running 0 ∧ s.waits 0 = some 1 ∧ (s.req 1).callee = 0 := by
  refine ⟨[.call 0 0 [97] [] none, .push 0, .start 0, .call 0 1 [97] [] (some 0), .push 1], _, rfl, ?_, rfl, rfl, rfl⟩
  refine allSteps_cons (by intro _ _ _ _ _ e j hj; exact absurd hj (Nat.not_lt_zero _)) rfl ?_
  refine allSteps_cons (by intro _ _ _ _ _ e; cases e) rfl ?_
  refine allSteps_cons (by intro _ _ _ _ _ e; cases e) rfl ?_
  refine allSteps_cons ?_ rfl ?_
  · intro _ _ _ _ _ e j hj hc
    cases e
    have : j = 0 := Nat.lt_one_iff.mp hj
    subst this
    exact absurd (show (0 : Nat) = 1 from hc) (by decide)
  refine allSteps_cons (by intro _ _ _ _ _ e; cases e) rfl ?_
  exact allSteps_nil

end Verif.Props
