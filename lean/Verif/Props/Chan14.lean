import Verif.Props.Chan13

/-!
# C165: with goroutines served in order a call waits only for calls made before it
-/

namespace Verif.Props

open Verif Verif.Chan

/-- Goroutines that wait for room in the queue of a callee get it in the order of their calls, as Go serves the senders
that wait for a channel. -/
def InOrder (T : Nat → Target) (acts : List Act) : Prop :=
  AllSteps (State.step T) (State.init T) acts (fun s a => ∀ k, a = .push k → ∀ j, j < k →
    (s.req j).callee = (s.req k).callee → s.pushed j = true)

/-- The queue of a callee is in the order of the calls. -/
structure LineInv (s : State) : Prop where
  before : ∀ j k, j < k → (s.req j).callee = (s.req k).callee → s.pushed k = true → s.pushed j = true
  sorted : ∀ c, (s.queue c).Pairwise (· < ·)
  busy : ∀ c j k, (s.handler c).busy = some j → k ∈ s.queue c → j < k

set_option maxHeartbeats 4000000 in
theorem lineInv_step (T : Nat → Target) (s : State) (a : Act) (t : State) (A : AnsInv s)
    (ok : ∀ k, a = .push k → ∀ j, j < k → (s.req j).callee = (s.req k).callee → s.pushed j = true) (I : LineInv s)
    (h : s.step T a = some t) : LineInv t := by
  obtain ⟨h1, h2, h3⟩ := I
  have q := A.inQueue
  have b := A.inHandler
  have f := A.fresh
  unfold State.step at h
  split at h
  · cases h
  cases a with
  | push k =>
    simp only at h
    split at h
    swap
    · cases h
    rename_i hk
    cases h
    have ok := ok k rfl
    have lt : ∀ j, (s.req j).callee = (s.req k).callee → s.pushed j = true → j < k := by
      intro j e1 e2
      refine Nat.lt_of_not_le fun hle => ?_
      rcases Nat.lt_or_eq_of_le hle with hlt | rfl
      · have := h1 k j hlt e1.symm e2; rw [hk.2.1] at this; cases this
      · rw [hk.2.1] at e2; cases e2
    refine ⟨?_, ?_, ?_⟩
    · intro j m; simp only [upd]; grind
    · intro c
      simp only [upd]
      split
      · rename_i e
        subst e
        refine List.pairwise_append.mpr ⟨h2 _, List.pairwise_singleton _ _, ?_⟩
        intro x hx y hy
        rw [List.mem_singleton] at hy
        subst hy
        exact lt x (q _ x hx).1 (q _ x hx).2.1
      · exact h2 c
    · intro c j m hj
      simp only [upd]
      split
      · rename_i e
        subst e
        intro hm
        rcases List.mem_append.mp hm with hm | hm
        · exact h3 _ j m hj hm
        · rw [List.mem_singleton] at hm
          subst hm
          exact lt j (b _ j hj).1 (b _ j hj).2.1
      · exact h3 c j m hj
  | start c' =>
    simp only at h
    split at h
    swap
    · cases h
    rename_i k rest hidle hqueue
    have hs := h2 c'
    rw [hqueue] at hs
    have hs := List.pairwise_cons.mp hs
    split at h <;> cases h <;> refine ⟨h1, ?_, ?_⟩ <;> (try simp only [upd]) <;> grind [Handler.busy]
  | call callee caller meth args parent =>
    simp only at h
    repeat' split at h
    all_goals cases h
    all_goals refine ⟨?_, h2, h3⟩
    all_goals (simp only [upd]; grind)
  | _ =>
    simp only at h
    repeat' split at h
    all_goals cases h
    all_goals refine ⟨h1, h2, ?_⟩
    all_goals (try simp only [upd])
    all_goals grind [Handler.busy]

/-- The number of calls of the callee of `i`, up to `i`, whose methods have not returned in `s1`. -/
def callsTo (s1 : State) (i : Nat) : Nat :=
  (List.range (i + 1)).countP fun j => decide ((s1.req j).callee = (s1.req i).callee) && (s1.ret j).isNone

/-- As `callsTo`, only those whose methods have been started in `s`. -/
def begunTo (s1 : State) (i : Nat) (s : State) : Nat :=
  (List.range (i + 1)).countP fun j =>
    decide ((s1.req j).callee = (s1.req i).callee) && (s1.ret j).isNone && (s.startedAt j).isSome

theorem begunTo_le (s1 : State) (i : Nat) (s : State) : begunTo s1 i s ≤ callsTo s1 i := by
  unfold begunTo callsTo
  refine List.countP_mono_left fun j _ h => ?_
  simp only [Bool.and_eq_true] at h ⊢
  exact h.1

theorem begunTo_mono {s1 s t : State} {i : Nat} (h : ∀ j x, s.startedAt j = some x → t.startedAt j = some x) :
    begunTo s1 i s ≤ begunTo s1 i t := by
  unfold begunTo
  refine List.countP_mono_left fun j _ e => ?_
  simp only [Bool.and_eq_true] at e ⊢
  refine ⟨e.1, ?_⟩
  cases e2 : s.startedAt j with
  | none => rw [e2] at e; cases e.2
  | some x => rw [h j x e2]; rfl

/-- What holds of the call `i` after `s1`. -/
structure ServedTo (s1 : State) (i D : Nat) (s : State) : Prop where
  all : AllInv s
  held : HeldInv s
  running : RunningInv s
  tim : TimerInv s
  line : LineInv s
  made : i < s.n
  reqs : ∀ j, j ≤ i → s.req j = s1.req j
  kept : ∀ j, s.ret j = none → s1.ret j = none
  used : s.dead = false → s.result i = none →
    (s.ret i = none →
      (∀ j t0 d, s.handler (s1.req i).callee = .running j → s.startedAt j = some (t0, d) →
        t0 + D ≤ s1.clock + begunTo s1 i s * D) ∧
      ((∀ j, s.handler (s1.req i).callee ≠ .running j) → s.clock ≤ s1.clock + begunTo s1 i s * D)) ∧
    (s.ret i ≠ none → s.clock ≤ s1.clock + begunTo s1 i s * D)

/-- The condition on the steps: those of C163, and the order. -/
def okStepO (T : Nat → Target) (D : Nat) (s : State) (a : Act) : Prop :=
  okStepD T D s a ∧ ∀ k, a = .push k → ∀ j, j < k → (s.req j).callee = (s.req k).callee → s.pushed j = true

theorem servedTo_step (T : Nat → Target) (s1 : State) (i D : Nat) (s : State) (a : Act) (t : State)
    (ok : okStepO T D s a) (S : ServedTo s1 i D s) (h : s.step T a = some t) : ServedTo s1 i D t := by
  obtain ⟨I, H, R, Q, N, m1, E, K, w⟩ := S
  obtain ⟨⟨ok1, ok2, ok3, ok4⟩, ok5⟩ := ok
  have hd := step_alive h
  have keep := fair_keeps h
  have starts := start_keeps I.ans I.recd h
  have m2 : (s.req i).callee = (s1.req i).callee := by rw [E i (Nat.le_refl _)]
  generalize hc : (s1.req i).callee = c at *
  refine ⟨allInv_step T s a t ok1.1 I h, heldInv_step T s a t I.ans H h, runningInv_step T s a t I.ans R h,
    timerInv_step T s a t I.ans Q h, lineInv_step T s a t I.ans ok5 N h, (keep i).1 m1,
    fun j hj => by rw [(keep j).2.1 (by omega), E j hj], ?_, ?_⟩
  · intro j hj
    refine K j ?_
    cases e : s.ret j with
    | none => rfl
    | some x => have := (starts j).2 _ e; rw [hj] at this; cases this
  rw [hc]
  intro hdt hr
  have hr' : s.result i = none := by
    cases e : s.result i with
    | none => rfl
    | some x => have := (keep i).2.2.2.2.1 (by rw [e]; simp); rw [hr, e] at this; cases this
  obtain ⟨w1, w3⟩ := w hd hr'
  have mono : begunTo s1 i s * D ≤ begunTo s1 i t * D :=
    Nat.mul_le_mul_right D (begunTo_mono fun j x => (starts j).1 x)
  cases a with
  | tick =>
    have q := ok2 rfl
    have hstart : s.startedAt i ≠ none → s.handler c = .running i := by
      intro hs
      rw [← m2]
      exact eager_open I H hd q i hs hr' (R hd i hs)
    have hrun : ∃ j, s.handler c = .running j := by
      cases hs : s.startedAt i with
      | some x => exact ⟨i, hstart (by rw [hs]; simp)⟩
      | none =>
        refine eager_running I hd q c (.inl ?_)
        intro hq
        cases hp : s.pushed i with
        | true =>
          have := Q.queued hd i hp ((Q.iff i).mpr hs)
          rw [m2, hq] at this; cases this
        | false =>
          have := q (.push i) trivial
          simp [State.step, hd, m1, hp, m2, hq, cQueue] at this
    obtain ⟨k, hk⟩ := hrun
    have hret : s.ret i = none := by
      cases hs : s.startedAt i with
      | some x => exact I.recd.retR c i (hstart (by rw [hs]; simp))
      | none => exact I.recd.retN i ((Q.iff i).mpr hs)
    unfold State.step at h
    rw [if_neg (by simp [hd])] at h
    cases h
    exact ⟨fun _ => ⟨(w1 hret).1, fun e => absurd hk (e k)⟩, fun e => absurd hret e⟩
  | start c' =>
    have hclk : t.clock = s.clock := by
      unfold State.step at h
      split at h
      · cases h
      simp only at h
      repeat' split at h
      all_goals cases h
      all_goals rfl
    cases hret : s.ret i with
    | some x =>
      have hx := (starts i).2 _ hret
      have := w3 (by rw [hret]; simp)
      exact ⟨fun e => (by rw [hx] at e; cases e), fun _ => (by rw [hclk]; omega)⟩
    | none =>
    obtain ⟨w1, w2⟩ := w1 hret
    unfold State.step at h
    rw [if_neg (by simp [hd])] at h
    simp only at h
    split at h
    swap
    · cases h
    rename_i k rest hidle hqueue
    have hkq : k ∈ s.queue c' := by rw [hqueue]; exact List.mem_cons_self ..
    obtain ⟨k1, k2, k3, -⟩ := I.ans.inQueue c' k hkq
    have hk0 := (Q.iff k).mp k3
    have hkr : s1.ret k = none := K k (I.recd.retN k k3)
    by_cases ec : c' = c
    · subst ec
      have hw := w2 (by rw [hidle]; simp)
      have hki : k ≤ i := by
        cases hs : s.startedAt i with
        | some x =>
          have := R hd i (by rw [hs]; simp) hret
          rw [m2, hidle] at this; cases this
        | none =>
          cases hp : s.pushed i with
          | true =>
            have hq := Q.queued hd i hp ((Q.iff i).mpr hs)
            rw [m2, hqueue] at hq
            have hsort := N.sorted c'
            rw [hqueue] at hsort
            rcases List.mem_cons.mp hq with e | e
            · omega
            · exact Nat.le_of_lt ((List.pairwise_cons.mp hsort).1 i e)
          | false =>
            refine Nat.le_of_not_lt fun hlt => ?_
            have := N.before i k hlt (m2.trans k1.symm) k2
            rw [hp] at this; cases this
      have more : t.startedAt = upd s.startedAt k (some (s.clock, s.timeoutOf c' (s.req k).meth)) →
          begunTo s1 i t = begunTo s1 i s + 1 := by
        intro e3
        unfold begunTo
        rw [e3]
        refine countP_range_one _ _ k ?_ ?_ _ (by omega) ?_
        · simp [hk0]
        · simp [← E k hki, k1, hkr, hc]
        · intro j _ hj
          simp [upd_other _ _ hj]
      split at h
      · have hb := more (by cases h; rfl)
        cases h
        refine ⟨fun _ => ⟨?_, ?_⟩, fun e => absurd hret e⟩
        · intro j t0 d e1 e2
          rw [hb, Nat.succ_mul]
          simp only [upd_same, Handler.running.injEq] at e1
          subst e1
          simp only [upd_same, Option.some.injEq, Prod.mk.injEq] at e2
          omega
        · intro e
          exact absurd (by simp) (e k)
      · have hb := more (by cases h; rfl)
        cases h
        rw [hb, Nat.succ_mul]
        refine ⟨fun _ => ⟨?_, ?_⟩, ?_⟩
        · intro j t0 d e1
          simp at e1
        · intro _
          simp only
          omega
        · intro _
          simp only
          omega
      · cases h
        cases hdt
    · have ec' : c ≠ c' := fun e => ec e.symm
      have hik : i ≠ k := by
        rintro rfl
        exact ec' (m2.symm.trans k1)
      have other : ∀ j, s.handler c = .running j → j ≠ k := by
        rintro j e rfl
        exact (I.ans.inHandler c j (by rw [e]; rfl)).2.2 k3
      split at h
      · cases h
        refine ⟨fun _ => ⟨?_, ?_⟩, fun e => absurd hret e⟩
        · intro j t0 d e1 e2
          simp only [upd_other _ _ ec'] at e1
          simp only [upd_other _ _ (other j e1)] at e2
          have := w1 j t0 d e1 e2
          omega
        · intro e
          simp only [upd_other _ _ ec'] at e
          have := w2 e
          simp only
          omega
      · cases h
        refine ⟨fun _ => ⟨?_, ?_⟩, fun e => absurd (by simp only [upd_other _ _ hik]; exact hret) e⟩
        · intro j t0 d e1 e2
          simp only [upd_other _ _ ec'] at e1
          simp only [upd_other _ _ (other j e1)] at e2
          have := w1 j t0 d e1 e2
          omega
        · intro e
          simp only [upd_other _ _ ec'] at e
          have := w2 e
          simp only
          omega
      · cases h
        cases hdt
  | ret c' res =>
    unfold State.step at h
    rw [if_neg (by simp [hd])] at h
    simp only at h
    repeat' split at h
    all_goals cases h
    rename_i k hk hwait
    have hb := I.ans.inHandler c' k (by rw [hk]; rfl)
    by_cases ec : c' = c
    · subst ec
      have main : s.ret i = none → s.clock ≤ s1.clock + begunTo s1 i s * D := by
        intro hret
        cases hs : s.startedAt k with
        | none => exact absurd ((Q.iff k).mpr hs) hb.2.2
        | some x =>
          have h1 := (w1 hret).1 k x.1 x.2 hk hs
          have h2 := ok3 c' k x.1 x.2 hk hs
          omega
      have all : s.clock ≤ s1.clock + begunTo s1 i s * D := by
        cases hret : s.ret i with
        | none => exact main hret
        | some x => exact w3 (by rw [hret]; simp)
      refine ⟨fun _ => ⟨by intro j t0 d e; simp at e, fun _ => all⟩, fun _ => all⟩
    · have ec' : c ≠ c' := fun e => ec e.symm
      have hik : i ≠ k := by
        rintro rfl
        exact ec' (m2.symm.trans hb.1)
      refine ⟨fun e => ?_, fun e => ?_⟩
      · simp only [upd_other _ _ hik] at e
        obtain ⟨w1, w2⟩ := w1 e
        refine ⟨?_, ?_⟩
        · intro j t0 d e1 e2
          simp only [upd_other _ _ ec'] at e1
          exact w1 j t0 d e1 e2
        · intro e
          simp only [upd_other _ _ ec'] at e
          exact w2 e
      · simp only [upd_other _ _ hik] at e
        exact w3 e
  | _ =>
    have same : t.ret = s.ret ∧ t.startedAt = s.startedAt ∧ t.clock = s.clock ∧
        ∀ j, t.handler c = .running j ↔ s.handler c = .running j := by
      unfold State.step at h
      rw [if_neg (by simp [hd])] at h
      simp only at h
      repeat' split at h
      all_goals cases h
      all_goals refine ⟨rfl, rfl, rfl, fun j => ?_⟩
      all_goals (try simp only [upd])
      all_goals (try split)
      all_goals simp_all
    obtain ⟨e1, e3, e4, e5⟩ := same
    have : begunTo s1 i t = begunTo s1 i s := by
      unfold begunTo
      rw [e3]
    rw [this, e1, e3, e4]
    simp only [e5, ne_eq]
    exact ⟨w1, w3⟩

/-- **C165.**  As in C164, and goroutines get room in the queue of a callee in the order of their calls.  Then the time
since `s1` is at most `D` for every call of the same callee made no later than the call itself whose method had not
returned in `s1`; calls made later do not delay it. -/
theorem C165_in_order (T : Nat → Target) (D : Nat) (pre post : List Act) (s1 s : State) (u : Unshared T (pre ++ post))
    (p : Eager T (pre ++ post)) (w : Within T D (pre ++ post)) (o : InOrder T (pre ++ post))
    (h1 : run (State.step T) (State.init T) pre = some s1)
    (h : run (State.step T) (State.init T) (pre ++ post) = some s) (i : Nat) (hi : i < s1.n)
    (alive : s.dead = false) (hr : s.result i = none) :
    s.clock ≤ s1.clock + callsTo s1 i * D := by
  have ok : AllSteps (State.step T) (State.init T) (pre ++ post) (okStepO T D) :=
    fun q a v t he ht => ⟨okStepD_all u p w q a v t he ht, o q a v t he ht⟩
  have okpre : AllSteps (State.step T) (State.init T) pre (okStepO T D) :=
    fun q a v t he ht => ok q a (v ++ post) t (by rw [he]; simp) ht
  have okpost : AllSteps (State.step T) s1 post (okStepO T D) :=
    fun q a v t he ht => ok (pre ++ q) a v t (by rw [he]; simp) (by rw [run_append, h1]; exact ht)
  obtain ⟨O, N⟩ := run_inv_steps (I := fun s => Unreturned D s ∧ LineInv s) (ok := okStepO T D)
    (fun s a t ok I h => ⟨open_step T D s a t ok.1 I.1 h, lineInv_step T s a t I.1.all.ans ok.2 I.2 h⟩) _ _ _
    okpre ⟨⟨allInv_init T, by constructor <;> simp [State.init], by intro _; simp [State.init],
      by simp [State.init]⟩, by constructor <;> simp [State.init]⟩ h1
  have Q := timerInv_run T h1
  have S1 : ServedTo s1 i D s1 := by
    refine ⟨O.all, O.held, O.running, Q, N, hi, fun _ _ => rfl, fun _ e => e, fun hd _ =>
      ⟨fun hret => ⟨?_, fun _ => Nat.le_add_right _ _⟩, fun _ => Nat.le_add_right _ _⟩⟩
    intro j t0 d e1 e2
    have hb := O.all.ans.inHandler _ j (by rw [e1]; rfl)
    have hji : j ≤ i := by
      cases hs : s1.startedAt i with
      | some x =>
        have := O.running hd i (by rw [hs]; simp) hret
        rw [e1] at this; cases this
        exact Nat.le_refl _
      | none =>
        cases hp : s1.pushed i with
        | true => exact Nat.le_of_lt (N.busy _ j i (by rw [e1]; rfl) (Q.queued hd i hp ((Q.iff i).mpr hs)))
        | false =>
          refine Nat.le_of_not_lt fun hlt => ?_
          have := N.before i j hlt hb.1.symm hb.2.1
          rw [hp] at this; cases this
    have h2 : 1 ≤ begunTo s1 i s1 := by
      refine Nat.one_le_iff_ne_zero.mpr fun e => ?_
      refine List.countP_eq_zero.mp e j (List.mem_range.mpr (by omega)) ?_
      simp [hb.1, O.all.recd.retR _ j e1, e2]
    have h3 := started_past T h1 j t0 d e2
    have h4 := Nat.mul_le_mul_right D h2
    omega
  have hrun := h
  rw [run_append, h1] at hrun
  have S := run_inv_steps (I := ServedTo s1 i D) (ok := okStepO T D)
    (fun s a t ok I h => servedTo_step T s1 i D s a t ok I h) post _ _ okpost S1 hrun
  have hle := Nat.mul_le_mul_right D (begunTo_le s1 i s)
  obtain ⟨h2, h3⟩ := S.used alive hr
  cases hret : s.ret i with
  | some x => have := h3 (by rw [hret]; simp); omega
  | none =>
  obtain ⟨h2, h3⟩ := h2 hret
  cases e : s.handler (s1.req i).callee with
  | running j =>
    cases hs : s.startedAt j with
    | none => exact absurd ((S.tim.iff j).mpr hs) (S.all.ans.inHandler _ j (by rw [e]; rfl)).2.2
    | some x =>
      have h4 := h2 j x.1 x.2 e hs
      have h5 := w (pre ++ post) s _ j x.1 x.2 ⟨[], by simp⟩ h e hs
      omega
  | idle => have := h3 (by rw [e]; simp); omega
  | returned j r => have := h3 (by rw [e]; simp); omega
  | sending j r => have := h3 (by rw [e]; simp); omega

theorem waitRun_inOrder : InOrder demo waitRun := by
  intro q a v t he ht k hk
  subst hk
  have at' : waitRun[q.length]? = some (.push k) := by rw [he]; simp
  have hq : q = waitRun.take q.length := by rw [he]; simp
  have hlt : q.length < 25 := by
    have : waitRun.length = q.length + (v.length + 1) := by rw [he]; simp
    have : waitRun.length = 25 := rfl
    omega
  have where' : ∀ n : Fin 25, (match waitRun[n.1]? with
      | some (.push k) => decide (((run (State.step demo) (State.init demo) (waitRun.take n.1)).map fun s =>
          (List.range k).all fun j => s.pushed j) = some true)
      | _ => true) = true := by decide +kernel
  have := where' ⟨q.length, hlt⟩
  simp only [at', decide_eq_true_eq] at this
  rw [← hq, ht] at this
  simp only [Option.map_some, Option.some.injEq, List.all_eq_true, List.mem_range] at this
  intro j hj _
  exact this j hj

/-- The bound is met by the third call of `waitRun`. -/
example : ∃ pre post s1 s, Unshared demo (pre ++ post) ∧ Eager demo (pre ++ post) ∧ Within demo 1 (pre ++ post) ∧
    InOrder demo (pre ++ post) ∧
    run (State.step demo) (State.init demo) pre = some s1 ∧ 2 < s1.n ∧ s1.pushed 2 = false ∧ s1.clock = 0 ∧
    run (State.step demo) (State.init demo) (pre ++ post) = some s ∧ s.dead = false ∧ s.result 2 = none ∧
    callsTo s1 2 = 3 ∧ s.clock = 3 := by
  obtain ⟨u, e, w, -⟩ := waitRun_ok
  have split : waitRun = (waitRun.take 6 ++ (waitRun.drop 6).take 14) ++ waitRun.drop 20 := by rfl
  refine ⟨waitRun.take 6, (waitRun.drop 6).take 14, _, _, ?_, ?_, ?_, ?_, rfl, by decide +kernel, by decide +kernel,
    by decide +kernel, rfl, by decide +kernel, by decide +kernel, by decide +kernel, by decide +kernel⟩
  · exact fun q a v t he ht => u q a (v ++ waitRun.drop 20) t (split.trans (by rw [he]; simp)) ht
  · exact fun q a v t he ht => e q a (v ++ waitRun.drop 20) t (split.trans (by rw [he]; simp)) ht
  · intro q s c j t0 d hq
    exact w q s c j t0 d (hq.trans ⟨waitRun.drop 20, split.symm⟩)
  · exact fun q a v t he ht => waitRun_inOrder q a (v ++ waitRun.drop 20) t (split.trans (by rw [he]; simp)) ht

end Verif.Props
