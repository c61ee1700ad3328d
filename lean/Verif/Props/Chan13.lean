import Verif.Props.Chan12

/-!
# C164: a call waits for the methods of its callee and for nothing else
-/

namespace Verif.Props

open Verif Verif.Chan

/-- The number of calls of the callee `c` that have been made by the state `s` and whose methods have not returned in
`s1`. -/
def callsFor (s1 s : State) (c : Nat) : Nat :=
  (List.range s.n).countP fun j => decide ((s.req j).callee = c) && (s1.ret j).isNone

/-- As `callsFor`, only those whose methods have been started. -/
def begunFor (s1 s : State) (c : Nat) : Nat :=
  (List.range s.n).countP fun j => decide ((s.req j).callee = c) && (s1.ret j).isNone && (s.startedAt j).isSome

theorem countP_range_congr (f g : Nat → Bool) : ∀ n, (∀ j, j < n → f j = g j) →
    (List.range n).countP f = (List.range n).countP g := by
  intro n
  induction n with
  | zero => intro _; rfl
  | succ n ih =>
    intro h
    rw [List.range_succ, List.countP_append, List.countP_append, ih fun j hj => h j (by omega)]
    simp [List.countP_singleton, h n (by omega)]

theorem countP_range_one (f g : Nat → Bool) (k : Nat) (hf : f k = false) (hg : g k = true) : ∀ n, k < n →
    (∀ j, j < n → j ≠ k → f j = g j) → (List.range n).countP g = (List.range n).countP f + 1 := by
  intro n
  induction n with
  | zero => intro h; omega
  | succ n ih =>
    intro hk h
    rw [List.range_succ, List.countP_append, List.countP_append]
    by_cases e : k = n
    · subst e
      rw [countP_range_congr f g k fun j hj => h j (by omega) (by omega)]
      simp [List.countP_singleton, hf, hg]
    · rw [ih (by omega) fun j hj => h j (by omega)]
      simp only [List.countP_singleton, h n (by omega) (fun e' => e e'.symm)]
      omega

theorem begun_le (s1 s : State) (c : Nat) : begunFor s1 s c ≤ callsFor s1 s c := by
  unfold begunFor callsFor
  refine List.countP_mono_left fun j _ h => ?_
  simp only [Bool.and_eq_true] at h ⊢
  exact h.1

/-- A started call of `c` counts. -/
theorem begun_pos {s1 s : State} {c j : Nat} (hj : j < s.n) (h1 : (s.req j).callee = c) (h2 : s1.ret j = none)
    (h3 : s.startedAt j ≠ none) : 1 ≤ begunFor s1 s c := by
  unfold begunFor
  refine Nat.one_le_iff_ne_zero.mpr fun e => ?_
  have := List.countP_eq_zero.mp e j (List.mem_range.mpr hj)
  refine this ?_
  cases e : s.startedAt j with
  | none => exact absurd e h3
  | some x => simp [h1, h2]

/-- What holds of the call `i` of the callee `c` after `s1`. -/
structure Served (s1 : State) (c i D : Nat) (s : State) : Prop where
  all : AllInv s
  held : HeldInv s
  running : RunningInv s
  tim : TimerInv s
  made : i < s.n ∧ (s.req i).callee = c
  kept : ∀ j, s.ret j = none → s1.ret j = none
  len : (s.queue c).length ≤ cQueue
  used : s.dead = false → s.result i = none →
    (∀ j t0 d, s.handler c = .running j → s.startedAt j = some (t0, d) → t0 + D ≤ s1.clock + begunFor s1 s c * D) ∧
    ((∀ j, s.handler c ≠ .running j) → s.clock ≤ s1.clock + begunFor s1 s c * D)

theorem served_step (T : Nat → Target) (s1 : State) (c i D : Nat) (s : State) (a : Act) (t : State)
    (ok : okStepD T D s a) (S : Served s1 c i D s) (h : s.step T a = some t) : Served s1 c i D t := by
  obtain ⟨I, H, R, Q, ⟨m1, m2⟩, K, L, w⟩ := S
  obtain ⟨ok1, ok2, ok3, ok4⟩ := ok
  have hd := step_alive h
  have keep := fair_keeps h
  refine ⟨allInv_step T s a t ok1.1 I h, heldInv_step T s a t I.ans H h, runningInv_step T s a t I.ans R h,
    timerInv_step T s a t I.ans Q h, ⟨(keep i).1 m1, by rw [(keep i).2.1 m1]; exact m2⟩, ?_, ?_, ?_⟩
  · intro j hj
    refine K j ?_
    cases e : s.ret j with
    | none => rfl
    | some x => have := (start_keeps I.ans I.recd h j).2 _ e; rw [hj] at this; cases this
  · unfold State.step at h
    split at h
    · cases h
    cases a <;> simp only at h <;> (repeat' split at h) <;> cases h <;> (try simp only [upd]) <;>
      (try split) <;> (try assumption) <;> grind
  intro hdt hr
  have hr' : s.result i = none := by
    cases e : s.result i with
    | none => rfl
    | some x => have := (keep i).2.2.2.2.1 (by rw [e]; simp); rw [hr, e] at this; cases this
  obtain ⟨w1, w2⟩ := w hd hr'
  cases a with
  | tick =>
    have hrun : ∃ j, s.handler c = .running j := by
      have q := ok2 rfl
      cases hs : s.startedAt i with
      | some x =>
        refine ⟨i, ?_⟩
        rw [← m2]
        exact eager_open I H hd q i (by rw [hs]; simp) hr' (R hd i (by rw [hs]; simp))
      | none =>
        refine eager_running I hd q c (.inl ?_)
        intro hq
        cases hp : s.pushed i with
        | true =>
          have := Q.queued hd i hp ((Q.iff i).mpr hs)
          rw [m2, hq] at this; cases this
        | false =>
          have := q (.push i) trivial
          simp [State.step, hd, m1, hp, m2, hq, cQueue] at this
    obtain ⟨k, hk⟩ := hrun
    unfold State.step at h
    rw [if_neg (by simp [hd])] at h
    cases h
    exact ⟨w1, fun e => absurd hk (e k)⟩
  | start c' =>
    unfold State.step at h
    rw [if_neg (by simp [hd])] at h
    simp only at h
    split at h
    swap
    · cases h
    rename_i k rest hidle hqueue
    obtain ⟨k1, k2, k3, -⟩ := I.ans.inQueue c' k (by rw [hqueue]; exact List.mem_cons_self ..)
    have hk0 := (Q.iff k).mp k3
    have hkn : k < s.n := by
      refine Nat.lt_of_not_le fun hle => ?_
      have := (I.ans.fresh k hle).1
      rw [k2] at this; cases this
    have hkr : s1.ret k = none := K k (I.recd.retN k k3)
    by_cases ec : c' = c
    · subst ec
      have hw := w2 (by rw [hidle]; simp)
      have more : ∀ u : State, u.n = s.n → u.req = s.req →
          u.startedAt = upd s.startedAt k (some (s.clock, s.timeoutOf c' (s.req k).meth)) →
          begunFor s1 u c' = begunFor s1 s c' + 1 := by
        intro u e1 e2 e3
        unfold begunFor
        rw [e1, e2, e3]
        refine countP_range_one _ _ k ?_ ?_ _ hkn ?_
        · simp [hk0]
        · simp [k1, hkr]
        · intro j _ hj
          simp [upd_other _ _ hj]
      split at h
      · have hb := more t (by cases h; rfl) (by cases h; rfl) (by cases h; rfl)
        cases h
        refine ⟨?_, ?_⟩
        · intro j t0 d e1 e2
          rw [hb, Nat.succ_mul]
          simp only [upd_same, Handler.running.injEq] at e1
          subst e1
          simp only [upd_same, Option.some.injEq, Prod.mk.injEq] at e2
          omega
        · intro e
          exact absurd (by simp) (e k)
      · have hb := more t (by cases h; rfl) (by cases h; rfl) (by cases h; rfl)
        cases h
        refine ⟨?_, ?_⟩
        · intro j t0 d e1
          simp at e1
        · intro _
          rw [hb, Nat.succ_mul]
          simp only
          omega
      · cases h
        cases hdt
    · have ec' : c ≠ c' := fun e => ec e.symm
      have same : ∀ u : State, u.n = s.n → u.req = s.req →
          u.startedAt = upd s.startedAt k (some (s.clock, s.timeoutOf c' (s.req k).meth)) →
          begunFor s1 u c = begunFor s1 s c := by
        intro u e1 e2 e3
        unfold begunFor
        rw [e1, e2, e3]
        refine countP_range_congr _ _ _ fun j _ => ?_
        by_cases e : j = k
        · subst e
          simp [k1, ec]
        · simp [upd_other _ _ e]
      have other : ∀ j, s.handler c = .running j → j ≠ k := by
        rintro j e rfl
        exact (I.ans.inHandler c j (by rw [e]; rfl)).2.2 k3
      split at h
      · have hb := same t (by cases h; rfl) (by cases h; rfl) (by cases h; rfl)
        cases h
        refine ⟨?_, ?_⟩
        · intro j t0 d e1 e2
          rw [hb]
          simp only [upd_other _ _ ec'] at e1
          simp only [upd_other _ _ (other j e1)] at e2
          exact w1 j t0 d e1 e2
        · intro e
          rw [hb]
          simp only [upd_other _ _ ec'] at e
          exact w2 e
      · have hb := same t (by cases h; rfl) (by cases h; rfl) (by cases h; rfl)
        cases h
        refine ⟨?_, ?_⟩
        · intro j t0 d e1 e2
          rw [hb]
          simp only [upd_other _ _ ec'] at e1
          simp only [upd_other _ _ (other j e1)] at e2
          exact w1 j t0 d e1 e2
        · intro e
          rw [hb]
          simp only [upd_other _ _ ec'] at e
          exact w2 e
      · cases h
        cases hdt
  | ret c' res =>
    unfold State.step at h
    rw [if_neg (by simp [hd])] at h
    simp only at h
    repeat' split at h
    all_goals cases h
    rename_i k hk hwait
    by_cases ec : c' = c
    · subst ec
      refine ⟨by intro j t0 d e; simp at e, ?_⟩
      intro _
      cases hs : s.startedAt k with
      | none => exact absurd ((Q.iff k).mpr hs) (I.ans.inHandler c' k (by rw [hk]; rfl)).2.2
      | some x =>
        have h1 := w1 k x.1 x.2 hk hs
        have h2 := ok3 c' k x.1 x.2 hk hs
        show s.clock ≤ s1.clock + begunFor s1 s c' * D
        omega
    · have ec' : c ≠ c' := fun e => ec e.symm
      refine ⟨?_, ?_⟩
      · intro j t0 d e1 e2
        simp only [upd_other _ _ ec'] at e1
        exact w1 j t0 d e1 e2
      · intro e
        simp only [upd_other _ _ ec'] at e
        exact w2 e
  | call callee caller meth args parent =>
    have same : t.startedAt = s.startedAt ∧ t.clock = s.clock ∧ t.handler = s.handler ∧ t.n = s.n + 1 := by
      unfold State.step at h
      rw [if_neg (by simp [hd])] at h
      simp only at h
      repeat' split at h
      all_goals cases h
      all_goals exact ⟨rfl, rfl, rfl, rfl⟩
    obtain ⟨e1, e2, e3, e4⟩ := same
    have : begunFor s1 t c = begunFor s1 s c := by
      unfold begunFor
      rw [e4, e1, List.range_succ, List.countP_append]
      simp only [List.countP_singleton, (I.ans.fresh s.n (Nat.le_refl _)).2.2.2.2.2.1, Option.isSome_none, Bool.and_false]
      rw [if_neg (by simp), Nat.add_zero]
      exact countP_range_congr _ _ _ fun j hj => by rw [(keep j).2.1 hj]
    rw [this, e1, e2, e3]
    exact ⟨w1, w2⟩
  | _ =>
    have same : t.n = s.n ∧ t.req = s.req ∧ t.startedAt = s.startedAt ∧ t.clock = s.clock ∧
        ∀ j, t.handler c = .running j ↔ s.handler c = .running j := by
      unfold State.step at h
      rw [if_neg (by simp [hd])] at h
      simp only at h
      repeat' split at h
      all_goals cases h
      all_goals refine ⟨rfl, rfl, rfl, rfl, fun j => ?_⟩
      all_goals (try simp only [upd])
      all_goals (try split)
      all_goals simp_all
    obtain ⟨e1, e2, e3, e4, e5⟩ := same
    have : begunFor s1 t c = begunFor s1 s c := by
      unfold begunFor
      rw [e1, e2, e3]
    rw [this, e3, e4]
    simp only [e5, ne_eq]
    exact ⟨w1, w2⟩

/-- **C164.**  Callers are not shared, only methods take time, and none takes longer than `D`.  While a call that had been
made by `s1` has not returned, the time since `s1` is at most `D` for every call of the same callee whose method had not
returned in `s1`, itself included: also a goroutine that waits for room in the queue waits for nothing but these
methods. -/
theorem C164_waits (T : Nat → Target) (D : Nat) (pre post : List Act) (s1 s : State) (u : Unshared T (pre ++ post))
    (p : Eager T (pre ++ post)) (w : Within T D (pre ++ post))
    (h1 : run (State.step T) (State.init T) pre = some s1)
    (h : run (State.step T) (State.init T) (pre ++ post) = some s) (i : Nat) (hi : i < s1.n)
    (alive : s.dead = false) (hr : s.result i = none) :
    s.clock ≤ s1.clock + callsFor s1 s (s.req i).callee * D := by
  have ok := okStepD_all u p w
  have okpre : AllSteps (State.step T) (State.init T) pre (okStepD T D) :=
    fun q a v t he ht => ok q a (v ++ post) t (by rw [he]; simp) ht
  have okpost : AllSteps (State.step T) s1 post (okStepD T D) :=
    fun q a v t he ht => ok (pre ++ q) a v t (by rw [he]; simp) (by rw [run_append, h1]; exact ht)
  have O := run_inv_steps (I := Unreturned D) (ok := okStepD T D) (fun s a t ok I h => open_step T D s a t ok I h) _ _ _
    okpre ⟨allInv_init T, by constructor <;> simp [State.init], by intro _; simp [State.init],
      by simp [State.init]⟩ h1
  have Q := timerInv_run T h1
  have S1 : Served s1 (s1.req i).callee i D s1 := by
    refine ⟨O.all, O.held, O.running, Q, ⟨hi, rfl⟩, fun _ e => e, ?_, fun _ _ => ⟨?_, ?_⟩⟩
    · exact run_inv (I := fun s => ∀ c, (s.queue c).length ≤ cQueue) (fun _ _ _ I h => fair_length I h) _ _ _
        (fun _ => Nat.zero_le _) h1 _
    · intro j t0 d e1 e2
      have hb := O.all.ans.inHandler _ j (by rw [e1]; rfl)
      have hj : j < s1.n := by
        refine Nat.lt_of_not_le fun hle => ?_
        have := (O.all.ans.fresh j hle).1
        rw [hb.2.1] at this; cases this
      have h2 := begun_pos (s1 := s1) hj hb.1 (O.all.recd.retR _ j e1) (by rw [e2]; simp)
      have h3 := started_past T h1 j t0 d e2
      have h4 := Nat.mul_le_mul_right D h2
      omega
    · intro _
      exact Nat.le_add_right _ _
  have hrun := h
  rw [run_append, h1] at hrun
  have S := run_inv_steps (I := Served s1 (s1.req i).callee i D) (ok := okStepD T D)
    (fun s a t ok I h => served_step T s1 _ i D s a t ok I h) post _ _ okpost S1 hrun
  rw [S.made.2]
  have hle := Nat.mul_le_mul_right D (begun_le s1 s (s1.req i).callee)
  obtain ⟨h2, h3⟩ := S.used alive hr
  cases e : s.handler (s1.req i).callee with
  | running j =>
    cases hs : s.startedAt j with
    | none => exact absurd ((S.tim.iff j).mpr hs) (S.all.ans.inHandler _ j (by rw [e]; rfl)).2.2
    | some x =>
      have h4 := h2 j x.1 x.2 e hs
      have h5 := w (pre ++ post) s _ j x.1 x.2 ⟨[], by simp⟩ h e hs
      omega
  | idle => have := h3 (by rw [e]; simp); omega
  | returned j r => have := h3 (by rw [e]; simp); omega
  | sending j r => have := h3 (by rw [e]; simp); omega

/-- The bound is met: in `waitRun` the third call is made at the time 0, when the method of the first is running and the
second is in the queue, and has not returned when the clock shows 3. -/
example : ∃ pre post s1 s, Unshared demo (pre ++ post) ∧ Eager demo (pre ++ post) ∧ Within demo 1 (pre ++ post) ∧
    run (State.step demo) (State.init demo) pre = some s1 ∧ 2 < s1.n ∧ s1.pushed 2 = false ∧ s1.clock = 0 ∧
    run (State.step demo) (State.init demo) (pre ++ post) = some s ∧ s.dead = false ∧ s.result 2 = none ∧
    callsFor s1 s (s.req 2).callee = 3 ∧ s.clock = 3 := by
  obtain ⟨u, e, w, -⟩ := waitRun_ok
  have split : waitRun = (waitRun.take 6 ++ (waitRun.drop 6).take 14) ++ waitRun.drop 20 := by rfl
  refine ⟨waitRun.take 6, (waitRun.drop 6).take 14, _, _, ?_, ?_, ?_, rfl, by decide +kernel, by decide +kernel,
    by decide +kernel, rfl, by decide +kernel, by decide +kernel, by decide +kernel, by decide +kernel⟩
  · exact fun q a v t he ht => u q a (v ++ waitRun.drop 20) t (split.trans (by rw [he]; simp)) ht
  · exact fun q a v t he ht => e q a (v ++ waitRun.drop 20) t (split.trans (by rw [he]; simp)) ht
  · intro q s c j t0 d hq
    exact w q s c j t0 d (hq.trans ⟨waitRun.drop 20, split.symm⟩)

end Verif.Props
