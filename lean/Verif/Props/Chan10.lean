import Verif.Props.Chan9

/-!
# C161: the goroutine of a timeout lives as long as the timeout, also if the call has returned
-/

namespace Verif.Props

open Verif Verif.Chan

/-- The goroutine that waits for the timeout of a request is there.  /repo/chancall/callee.go:36, 63-78. -/
def Tracked (s : State) (i : Nat) : Prop := s.timer i ≠ .none ∧ s.timer i ≠ .over

/-- The timer of a started request, in relation to the clock. -/
structure TrackInv (s : State) : Prop where
  begun : ∀ i, s.timer i = .none ↔ s.startedAt i = none
  early : ∀ i t0 d, s.startedAt i = some (t0, d) → s.clock < t0 + sleepTime d → s.timer i = .sleeping (t0 + sleepTime d)

set_option maxHeartbeats 4000000 in
theorem trackInv_step (T : Nat → Target) (s : State) (a : Act) (t : State) (A : AnsInv s) (R : RecInv s) (I : TrackInv s)
    (h : s.step T a = some t) : TrackInv t := by
  obtain ⟨h1, h2⟩ := I
  have r1 := R.sleeping
  have r2 := R.woken
  have q := A.inQueue
  unfold State.step at h
  split at h
  · cases h
  cases a <;> simp only at h <;> (repeat' split at h) <;> cases h <;>
    (constructor <;> (try simp only [upd]) <;> grind)

theorem trackInv_run (T : Nat → Target) {acts : List Act} {s : State}
    (h : run (State.step T) (State.init T) acts = some s) : AnsInv s ∧ RecInv s ∧ TrackInv s :=
  run_inv (I := fun s => AnsInv s ∧ RecInv s ∧ TrackInv s)
    (fun s a t I h => ⟨ansInv_step T s a t I.1 h, recInv_step T s a t I.1 I.2.1 h, trackInv_step T s a t I.1 I.2.1 I.2.2 h⟩)
    acts _ _ ⟨ansInv_init T, recInv_init T, by constructor <;> simp [State.init]⟩ h

/-- **C161, no shorter.**  In every execution the goroutine of a timeout is there from the start of the method until the
end of the timeout, whatever has become of the call. -/
theorem C161_lives (T : Nat → Target) (acts : List Act) (s : State)
    (h : run (State.step T) (State.init T) acts = some s) (i t0 : Nat) (d : BitVec 32)
    (hs : s.startedAt i = some (t0, d)) (hc : s.clock < t0 + sleepTime d) : Tracked s i := by
  have := (trackInv_run T h).2.2.early i t0 d hs hc
  exact ⟨by rw [this]; simp, by rw [this]; simp⟩

/-- **C161, no longer.**  If callers are not shared and the runtime is prompt, it is gone after the end of the timeout;
and requests that have not been started have none. -/
theorem C161_gone (T : Nat → Target) (acts : List Act) (s : State) (u : Unshared T acts) (p : Sharp T acts)
    (h : run (State.step T) (State.init T) acts = some s) (i : Nat) (ht : Tracked s i) :
    ∃ t0 d, s.startedAt i = some (t0, d) ∧ s.clock ≤ t0 + sleepTime d := by
  have key : (AllInv s ∧ HeldInv s) ∧ TrackInv s ∧
      ∀ i t0 d, s.startedAt i = some (t0, d) → Tracked s i → s.clock ≤ t0 + sleepTime d := by
    refine run_inv_steps (I := fun s => (AllInv s ∧ HeldInv s) ∧ TrackInv s ∧
        ∀ i t0 d, s.startedAt i = some (t0, d) → Tracked s i → s.clock ≤ t0 + sleepTime d)
      (ok := okStep T) ?_ acts _ _ (okStep_all u p)
      ⟨⟨allInv_init T, by constructor <;> simp [State.init]⟩, by constructor <;> simp [State.init], by simp [State.init]⟩ h
    rintro s a t ok ⟨⟨I, H⟩, K, hI⟩ st
    refine ⟨⟨allInv_step T s a t ok.1 I st, heldInv_step T s a t I.ans H st⟩, trackInv_step T s a t I.ans I.recd K st, ?_⟩
    have hd := step_alive st
    cases a with
    | tick =>
      have hst : t = { s with clock := s.clock + 1 } := by
        have h2 := st
        unfold State.step at h2
        rw [if_neg (by simp [hd])] at h2
        cases h2
        rfl
      subst hst
      intro i t0 d e1 e2
      have e1 : s.startedAt i = some (t0, d) := e1
      have e2 : Tracked s i := e2
      show s.clock + 1 ≤ t0 + sleepTime d
      refine Nat.lt_of_not_le fun hge => ?_
      have no : s.lock i = true → False := by
        intro hl
        have hdone : s.done i = true := by
          rcases I.ans.locked i hl with e | e
          · exact (I.ans.lockT i e).1
          · exact (I.ans.lockH _ i e).1
        cases e : s.result i with
        | none =>
          obtain ⟨b, f, g⟩ := settled_goes T I hd i hdone e
          exact g (ok.2.1 rfl _ _ _ f)
        | some x =>
          obtain ⟨j, b⟩ := x
          have := I.own.own i j b e
          subst this
          have := (I.ans.result _ _ _ e).2.2.1
          rw [hl] at this; cases this
      cases e : s.timer i with
      | none => exact e2.1 e
      | over => exact e2.2 e
      | sending => exact no (I.ans.lockT i e).2
      | sleeping u =>
        obtain ⟨t0', d', e3, e4⟩ := I.recd.sleeping i u e
        rw [e1] at e3
        cases e3
        have := ok.2.1 rfl 0 i _ .wake
        simp [State.step, hd, e, e4] at this
        omega
      | woken =>
        cases hl : s.lock i with
        | true => exact no hl
        | false =>
          have := ok.2.1 rfl 0 i _ .settleT
          cases hdn : s.done i <;> simp [State.step, hd, e, hl, hdn] at this
    | start c =>
      have hclk : t.clock = s.clock := by
        unfold State.step at st
        split at st
        · cases st
        simp only at st
        repeat' split at st
        all_goals cases st
        all_goals rfl
      intro i t0 d e1 e2
      cases e : s.startedAt i with
      | some x =>
        obtain ⟨t0', d'⟩ := x
        have := (start_keeps I.ans I.recd st i).1 _ e
        rw [e1] at this
        cases this
        rw [hclk]
        refine hI i t0 d e ⟨fun h => ?_, fun h => ?_⟩
        · rw [(K.begun i).mp h] at e; cases e
        · refine e2.2 ?_
          have q := I.ans.inQueue
          unfold State.step at st
          split at st
          · cases st
          simp only at st
          repeat' split at st
          all_goals cases st
          all_goals (simp only [upd]; grind)
      | none =>
        have : t0 = s.clock := by
          unfold State.step at st
          split at st
          · cases st
          simp only at st
          repeat' split at st
          all_goals cases st
          all_goals (simp only [upd] at e1; grind)
        rw [hclk, this]
        exact Nat.le_add_right _ _
    | _ =>
      have same : t.startedAt = s.startedAt ∧ t.clock = s.clock ∧ ∀ i, Tracked t i → Tracked s i := by
        unfold State.step at st
        split at st
        · cases st
        simp only at st
        repeat' split at st
        all_goals cases st
        all_goals first
          | exact ⟨rfl, rfl, fun _ h => h⟩
          | (refine ⟨rfl, rfl, ?_⟩; simp only [Tracked, upd]; grind)
      intro i t0 d e1 e2
      rw [same.2.1]
      exact hI i t0 d (by rw [← same.1]; exact e1) (same.2.2 i e2)
  cases e : s.startedAt i with
  | none => exact absurd ((key.2.1.begun i).mpr e) ht.1
  | some x => exact ⟨x.1, x.2, rfl, key.2.2 i x.1 x.2 e ht⟩

/-- The timer of a request that is settled goes over without an answer. -/
theorem settled_over {T : Nat → Target} {s t : State} {i : Nat} (h : s.step T (.settleT i) = some t)
    (hd : s.done i = true) : t.timer i = .over := by
  unfold State.step at h
  split at h
  · cases h
  simp only at h
  repeat' split at h
  all_goals cases h
  all_goals simp_all

/-- **C161, the end.**  In every fair execution with unshared callers the goroutine of each timeout ends. -/
theorem C161_ends (T : Nat → Target) (E : Exec (State.step T) (State.init T)) (F : FairRun T E) (U : UnsharedRun T E)
    (n i : Nat) (h : Tracked (E.st n) i) : ∃ k, n ≤ k ∧ ∀ m, k ≤ m → ¬ Tracked (E.st m) i := by
  have I := fair_all U
  have started : (E.st n).startedAt i ≠ none := fun e => h.1 ((fair_timers n).iff i |>.mpr e)
  obtain ⟨k, a, hk, hr⟩ := C124_started T E F U n i started
  have keepR : ∀ m, k ≤ m → (E.st m).result i ≠ none :=
    E.stable (P := fun s => s.result i ≠ none) (by rw [hr]; simp)
      fun m _ e => by rw [(fair_keeps (E.next m) i).2.2.2.2.1 e]; exact e
  have fine : ∀ m, k ≤ m → (E.st m).done i = true ∧ (E.st m).lock i = false := by
    intro m hm
    cases e : (E.st m).result i with
    | none => exact absurd e (keepR m hm)
    | some x =>
      obtain ⟨j, b⟩ := x
      have := (I m).own.own i j b e
      subst this
      exact ⟨((I m).ans.result _ _ _ e).1, ((I m).ans.result _ _ _ e).2.2.1⟩
  have some' : ∀ m, k ≤ m → (E.st m).timer i ≠ .none := by
    intro m hm e
    have := ((I m).ans.unstarted i e).1
    rw [(fine m hm).1] at this; cases this
  have noSend : ∀ m, k ≤ m → (E.st m).timer i ≠ .sending := by
    intro m hm e
    have := ((I m).ans.lockT i e).2
    rw [(fine m hm).2] at this; cases this
  have over : ∀ m, k ≤ m → (E.st m).timer i = .over → ∀ m', m ≤ m' → (E.st m').timer i = .over := by
    intro m hm e
    refine E.stable (P := fun s => s.timer i = .over) e ?_
    intro m' hm' e'
    rcases fair_timer (I m').ans (E.next m') i (some' m' (by omega)) with ⟨g, -⟩ | ⟨w, g, -⟩ | ⟨g, -⟩ | ⟨g, -⟩
    · rw [g]; exact e'
    all_goals rw [e'] at g; cases g
  have woken : ∀ m, k ≤ m → (E.st m).timer i = .woken → ∃ m', m ≤ m' ∧ (E.st m').timer i = .over := by
    intro m hm e
    refine E.leads_by F.weak (P := fun s => s.timer i = .woken) (Q := fun s => s.timer i = .over) (.settleT i) trivial e
      ?_ ?_ ?_
    · intro m' hm' e'
      by_cases ea : E.act m' = .settleT i
      · have st := E.next m'
        rw [ea] at st
        exact .inr (settled_over st (fine m' (by omega)).1)
      · left
        have st := E.next m'
        generalize E.act m' = a at st ea
        generalize E.st (m' + 1) = t at st
        have q := (I m').ans.inQueue
        generalize E.st m' = s at st e' q
        unfold State.step at st
        split at st
        · cases st
        cases a <;> simp only at st <;> (repeat' split at st) <;> cases st <;> (try simp only [upd]) <;> grind
    · intro m' hm' e'
      obtain ⟨f1, f2⟩ := fine m' (by omega)
      simp [State.step, fair_alive, e', f1, f2]
    · intro m' hm' e' ea
      have st := E.next m'
      rw [ea] at st
      exact settled_over st (fine m' (by omega)).1
  have final : ∃ m, k ≤ m ∧ (E.st m).timer i = .over := by
    cases e : (E.st k).timer i with
    | none => exact absurd e (some' k (Nat.le_refl _))
    | over => exact ⟨k, Nat.le_refl _, e⟩
    | sending => exact absurd e (noSend k (Nat.le_refl _))
    | woken => exact woken k (Nat.le_refl _) e
    | sleeping u =>
      have wakes : ∃ m, k ≤ m ∧ (E.st m).timer i = .woken := by
        refine E.leads (P := fun s => s.timer i = .sleeping u) (Q := fun s => s.timer i = .woken) e ?_ ?_
        · intro m hm e'
          rcases fair_timer (I m).ans (E.next m) i (some' m hm) with ⟨g, -⟩ | ⟨w, -, g⟩ | ⟨g, -⟩ | ⟨g, -⟩
          · left; rw [g]; exact e'
          · exact .inr g
          all_goals rw [e'] at g; cases g
        · intro all
          obtain ⟨q, hq⟩ := F.time u
          have later : ∀ m, q ≤ m → u ≤ (E.st m).clock :=
            E.stable (P := fun s => u ≤ s.clock) hq
              fun m _ e => Nat.le_trans e (fair_keeps (E.next m) i).2.2.2.2.2
          obtain ⟨m, hm, ea⟩ := F.weak (.wake i) trivial (k + q) fun m hm => by
            simp [State.step, fair_alive, all m (by omega), later m (by omega)]
          have g := all (m + 1) (by omega)
          rcases fair_timer (I m).ans (E.next m) i (some' m (by omega)) with ⟨-, g', -⟩ | ⟨w, -, g'⟩ | ⟨g', -⟩ | ⟨g', -⟩
          · exact absurd ea g'
          · rw [g] at g'; cases g'
          all_goals rw [all m (by omega)] at g'; cases g'
      obtain ⟨m, hm, e2⟩ := wakes
      obtain ⟨m', hm', e3⟩ := woken m hm e2
      exact ⟨m', by omega, e3⟩
  obtain ⟨m, hm, e⟩ := final
  exact ⟨m, by omega, fun m' hm' ht => ht.2 (over m hm e m' hm')⟩

/-! ## Goroutines are left over -/

/-- One call, from its beginning to its end, without any time passing. -/
def oneCall (i : Nat) : List Act :=
  [.call 0 0 [97] [] none, .push i, .start 0, .ret 0 [], .settleH 0, .deliverH 0, .receive i]

/-- `N` calls, one after another. -/
def callsInTurn : Nat → List Act
  | 0 => []
  | n + 1 => callsInTurn n ++ oneCall n

/-- After `N` calls. -/
structure AfterCalls (N : Nat) (s : State) : Prop where
  n : s.n = N
  alive : s.dead = false
  idle : s.handler 0 = .idle
  empty : s.queue 0 = []
  free : s.chan 0 = none
  fresh : s.pushed N = false ∧ s.done N = false ∧ s.lock N = false ∧ s.result N = none ∧ s.waits N = none
  fresh' : ∀ i, N < i → s.pushed i = false ∧ s.done i = false ∧ s.lock i = false ∧ s.result i = none ∧ s.waits i = none
  default : s.timeouts 0 [97] = some cDefaultTimeout
  clock : s.clock = 0
  results : ∀ i, i < N → s.result i = some (i, .ok (some []))
  timers : ∀ i, i < N → s.timer i = .sleeping (sleepTime cDefaultTimeout)

theorem oneCall_runs (N : Nat) (s : State) (A : AfterCalls N s) :
    ∃ t, run (State.step demo) s (oneCall N) = some t ∧ AfterCalls (N + 1) t := by
  obtain ⟨h1, h2, h3, h4, h5, ⟨f1, f2, f3, f4, f5⟩, g, h6, h7, h8, h9⟩ := A
  subst h1
  have inv : (demo 0).invoke [97#8] [] = .runs := rfl
  have h6' : s.timeouts 0 [97#8] = some cDefaultTimeout := h6
  refine ⟨_, by
    simp [oneCall, run, State.step, h2, h3, h4, h5, f1, f2, f3, f4, f5, cQueue, inv, State.timeoutOf, h6', h7]; rfl, ?_⟩
  constructor
  · rfl
  · rfl
  · simp
  · simp
  · simp
  · have := g (s.n + 1) (by omega)
    simpa [upd] using this
  · intro i hi
    have := g i (by omega)
    have e : i ≠ s.n := by omega
    simpa [upd, e] using this
  · exact h6
  · first | exact h7 | rfl
  · intro i hi
    by_cases e : i = s.n
    · subst e; simp
    · simpa [upd, e] using h8 i (by omega)
  · intro i hi
    by_cases e : i = s.n
    · subst e; simp
    · simpa [upd, e] using h9 i (by omega)

theorem callsInTurn_runs (N : Nat) : ∃ t, run (State.step demo) (State.init demo) (callsInTurn N) = some t ∧ AfterCalls N t ∧
    Unshared demo (callsInTurn N) := by
  induction N with
  | zero =>
    refine ⟨_, rfl, ?_, allSteps_nil⟩
    constructor <;> simp [State.init, demo]
  | succ N ih =>
    obtain ⟨t, h1, A, u⟩ := ih
    obtain ⟨v, h2, B⟩ := oneCall_runs N t A
    refine ⟨v, by rw [callsInTurn, run_append, h1]; exact h2, B, ?_⟩
    refine allSteps_append u ?_
    intro t' ht'
    rw [h1] at ht'
    cases ht'
    intro pre a post w he hw callee caller meth args parent ea j hj _
    subst ea
    cases pre with
    | nil =>
      cases hw
      rw [A.n] at hj
      rw [A.results j hj]
      simp
    | cons x pre =>
      simp only [oneCall, List.cons_append, List.cons.injEq] at he
      have hm : Act.call callee caller meth args parent ∈
          [Act.push N, .start 0, .ret 0 [], .settleH 0, .deliverH 0, .receive N] := by rw [he.2]; simp
      simp at hm

theorem noTick (N : Nat) : Act.tick ∉ callsInTurn N := by
  induction N with
  | zero => simp [callsInTurn]
  | succ N ih => simp [callsInTurn, oneCall, ih]

/-- **C161, goroutines that are left.**  For every `N` there is an execution, prompt and with one goroutine making one
call after another, in which all of `N` calls have returned with the results of their methods, and the goroutines of all
`N` timeouts are still there. -/
theorem C161_left (N : Nat) : ∃ acts s, run (State.step demo) (State.init demo) acts = some s ∧ Unshared demo acts ∧
    Sharp demo acts ∧ s.n = N ∧ (∀ i, i < N → s.result i = some (i, .ok (some []))) ∧ ∀ i, i < N → Tracked s i := by
  obtain ⟨t, h, A, u⟩ := callsInTurn_runs N
  refine ⟨callsInTurn N, t, h, u, ⟨?_, ?_⟩, A.n, A.results, fun i hi => ?_⟩
  · intro pre a post v he _ e
    subst e
    exact absurd (by rw [he]; simp) (noTick N)
  · intro pre a post v he _ e
    subst e
    exact absurd (by rw [he]; simp) (noTick N)
  · have := A.timers i hi
    exact ⟨by rw [this]; simp, by rw [this]; simp⟩

/-! ## Examples -/

/-- The call of `quickRun` has returned, the goroutine of its timeout is there. -/
example : Unshared demo quickRun ∧ Sharp demo quickRun ∧ ∃ s, run (State.step demo) (State.init demo) quickRun = some s ∧
    s.startedAt 0 = some (0, cDefaultTimeout) ∧ s.clock < 0 + sleepTime cDefaultTimeout ∧ s.result 0 ≠ none ∧
    Tracked s 0 := by
  refine ⟨quickRun_ok.1, quickRun_ok.2.1, _, rfl, rfl, ?_, ?_, ?_, ?_⟩
  · show 2 < _
    decide +kernel
  all_goals (intro h; cases h)

/-- A fair execution in which, after seven steps, a goroutine of a timeout is there. -/
example : ∃ E : Exec (State.step demo) (State.init demo), FairRun demo E ∧ UnsharedRun demo E ∧ Tracked (E.st 7) 1 := by
  obtain ⟨s, h, q, hn, hi⟩ := twoCalls_quiet
  refine ⟨thenTicks h q, thenTicks_fair h q, thenTicks_unshared h q (unshared_of_nodup _ _ (by decide)), ?_⟩
  have h7 : run (State.step demo) (State.init demo) (twoCalls.take 7) = some ((thenTicks h q).st 7) :=
    lasso_run (b := fun _ => Act.tick) h 7 (by decide)
  have : ((thenTicks h q).st 7).timer 1 = .woken := final_of (·.timer 1) h7 (by rfl)
  exact ⟨by rw [this]; simp, by rw [this]; simp⟩

end Verif.Props
