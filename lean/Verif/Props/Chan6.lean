import Verif.Fair
import Verif.Props.Chan5

/-!
# C124: calls return in every fair execution
-/

namespace Verif.Props

open Verif Verif.Chan

/-- What the goroutines of the package and the calling goroutines do by themselves: everything except making calls,
returning from methods, setting timeouts and the passing of time. -/
def Runs : Act → Prop
  | .call .. => False
  | .ret .. => False
  | .setTimeout .. => False
  | .tick => False
  | _ => True

/-- Goroutines that can go on do: weak fairness of the scheduler.  Goroutines that wait for room in a queue get it when
there is room again and again (Go serves the senders that wait for a channel in order).  Time does not stand still. -/
structure FairRun (T : Nat → Target) (E : Exec (State.step T) (State.init T)) : Prop where
  weak : E.WeaklyFair Runs
  room : E.StronglyFair (fun a => ∃ i, a = .push i)
  time : ∀ t, ∃ n, t ≤ (E.st n).clock

/-- No caller object is used for a call before the earlier calls made on it have returned. -/
def UnsharedRun (T : Nat → Target) (E : Exec (State.step T) (State.init T)) : Prop :=
  ∀ n callee caller meth args parent, E.act n = .call callee caller meth args parent →
    ∀ j, j < (E.st n).n → ((E.st n).req j).caller = caller → (E.st n).result j ≠ none

/-! ## What single steps keep -/

theorem fair_keeps {T : Nat → Target} {s t : State} {a : Act} (h : s.step T a = some t) (i : Nat) :
    (i < s.n → i < t.n) ∧ (i < s.n → t.req i = s.req i) ∧ (s.pushed i = true → t.pushed i = true) ∧
    (s.done i = true → t.done i = true) ∧ (s.result i ≠ none → t.result i = s.result i) ∧ s.clock ≤ t.clock := by
  unfold State.step at h
  split at h
  · cases h
  cases a <;> simp only at h <;> (repeat' split at h) <;> cases h <;>
    refine ⟨?_, ?_, ?_, ?_, ?_, ?_⟩ <;> (try simp only [upd]) <;> grind

/-- Timers go through their phases. -/
theorem fair_timer {T : Nat → Target} {s t : State} {a : Act} (A : AnsInv s) (h : s.step T a = some t) (i : Nat)
    (hs : s.timer i ≠ .none) :
    t.timer i = s.timer i ∧ a ≠ .wake i ∧ a ≠ .settleT i ∧ a ≠ .deliverT i ∨
    (∃ u, s.timer i = .sleeping u ∧ t.timer i = .woken) ∨
    (s.timer i = .woken ∧ t.done i = true) ∨ (s.timer i = .sending ∧ t.timer i = .over) := by
  have q := A.inQueue
  unfold State.step at h
  split at h
  · cases h
  cases a with
  | start c =>
    simp only at h
    split at h
    · rename_i k rest hi hq
      have hk := (q c k (by rw [hq]; exact List.mem_cons_self ..)).2.2.1
      have e : i ≠ k := fun e => hs (by rw [e]; exact hk)
      split at h <;> cases h <;> exact .inl ⟨upd_other _ _ e, by simp, by simp, by simp⟩
    · cases h
  | wake j =>
    simp only at h
    repeat' split at h
    all_goals cases h
    by_cases e : i = j
    · subst e; exact .inr (.inl ⟨_, by assumption, upd_same ..⟩)
    · exact .inl ⟨upd_other _ _ e, by simp [Ne.symm e], by simp, by simp⟩
  | settleT j =>
    simp only at h
    repeat' split at h
    all_goals cases h
    all_goals
      by_cases e : i = j
      · subst e; exact .inr (.inr (.inl ⟨by assumption, by first | exact upd_same .. | assumption⟩))
      · exact .inl ⟨upd_other _ _ e, by simp, by simp [Ne.symm e], by simp⟩
  | deliverT j =>
    simp only at h
    repeat' split at h
    all_goals cases h
    by_cases e : i = j
    · subst e; exact .inr (.inr (.inr ⟨by assumption, upd_same ..⟩))
    · exact .inl ⟨upd_other _ _ e, by simp, by simp, by simp [Ne.symm e]⟩
  | _ =>
    simp only at h
    repeat' split at h
    all_goals cases h
    all_goals exact .inl ⟨rfl, by simp, by simp, by simp⟩

/-- Handlers go through their phases. -/
theorem fair_handler {T : Nat → Target} {s t : State} {a : Act} (h : s.step T a = some t) (c : Nat) :
    t.handler c = s.handler c ∧ a ≠ .settleH c ∧ a ≠ .deliverH c ∧ (a ≠ .start c ∨ t.dead = true) ∨
    (s.handler c = .idle ∧ a = .start c) ∨
    (∃ i r, s.handler c = .running i ∧ t.handler c = .returned i r) ∨
    (∃ i r, s.handler c = .returned i r ∧ (t.handler c = .idle ∨ t.handler c = .sending i r ∧ s.done i = false)) ∨
    (∃ i r, s.handler c = .sending i r ∧ t.handler c = .idle) := by
  unfold State.step at h
  split at h
  · cases h
  cases a with
  | start d =>
    simp only at h
    split at h
    · rename_i k rest hi hq
      by_cases e : c = d
      · subst e; exact .inr (.inl ⟨hi, rfl⟩)
      · split at h <;> cases h <;>
          exact .inl ⟨by first | rfl | exact upd_other _ _ e, by simp, by simp, .inl (by simp [Ne.symm e])⟩
    · cases h
  | ret d res =>
    simp only at h
    repeat' split at h
    all_goals cases h
    by_cases e : c = d
    · subst e; exact .inr (.inr (.inl ⟨_, _, by assumption, upd_same ..⟩))
    · exact .inl ⟨upd_other _ _ e, by simp, by simp, .inl (by simp)⟩
  | settleH d =>
    simp only at h
    repeat' split at h
    all_goals cases h
    · by_cases e : c = d
      · subst e; exact .inr (.inr (.inr (.inl ⟨_, _, by assumption, .inl (upd_same ..)⟩)))
      · exact .inl ⟨upd_other _ _ e, by simp [Ne.symm e], by simp, .inl (by simp)⟩
    · by_cases e : c = d
      · subst e
        exact .inr (.inr (.inr (.inl ⟨_, _, by assumption, .inr ⟨upd_same .., Bool.eq_false_iff.mpr (by assumption)⟩⟩)))
      · exact .inl ⟨upd_other _ _ e, by simp [Ne.symm e], by simp, .inl (by simp)⟩
  | deliverH d =>
    simp only at h
    repeat' split at h
    all_goals cases h
    by_cases e : c = d
    · subst e; exact .inr (.inr (.inr (.inr ⟨_, _, by assumption, upd_same ..⟩)))
    · exact .inl ⟨upd_other _ _ e, by simp, by simp [Ne.symm e], .inl (by simp)⟩
  | _ =>
    simp only at h
    repeat' split at h
    all_goals cases h
    all_goals exact .inl ⟨rfl, by simp, by simp, .inl (by simp)⟩

/-- Queues are only appended to until the callee takes the first request. -/
theorem fair_queue {T : Nat → Target} {s t : State} {a : Act} (h : s.step T a = some t) (c : Nat) :
    (a ≠ .start c ∧ ∃ z, t.queue c = s.queue c ++ z) ∨
    (a = .start c ∧ ∃ i rest, s.queue c = i :: rest ∧ t.queue c = rest ∧ t.startedAt i ≠ none) := by
  unfold State.step at h
  split at h
  · cases h
  cases a with
  | start d =>
    simp only at h
    split at h
    · rename_i k rest hi hq
      by_cases e : c = d
      · subst e
        exact .inr ⟨rfl, k, rest, hq, by split at h <;> cases h <;> simp⟩
      · exact .inl ⟨by simp [Ne.symm e], [], by split at h <;> cases h <;> simp [upd_other _ _ e]⟩
    · cases h
  | push i =>
    simp only at h
    split at h
    · cases h
      refine .inl ⟨by simp, ?_⟩
      by_cases e : c = (s.req i).callee
      · subst e; exact ⟨[i], upd_same ..⟩
      · exact ⟨[], by simp [upd_other _ _ e]⟩
    · cases h
  | _ =>
    simp only at h
    repeat' split at h
    all_goals cases h
    all_goals exact .inl ⟨by simp, [], by simp⟩

theorem fair_length {T : Nat → Target} {s t : State} {a : Act} (I : ∀ c, (s.queue c).length ≤ cQueue)
    (h : s.step T a = some t) : ∀ c, (t.queue c).length ≤ cQueue := by
  unfold State.step at h
  split at h
  · cases h
  cases a <;> simp only at h <;> (repeat' split at h) <;> cases h <;> intro c <;> have := I c <;>
    (try simp only [upd]) <;> grind

/-! ## Phases of calls -/

section
variable {T : Nat → Target} {E : Exec (State.step T) (State.init T)}

theorem fair_all (U : UnsharedRun T E) : ∀ n, AllInv (E.st n) :=
  E.inv (fun s a t ok I h => allInv_step T s a t ok I h) (fun n => U n) (allInv_init T)

theorem fair_timers (n : Nat) : TimerInv (E.st n) := timerInv_run T (E.reach n)

theorem fair_lengths (n : Nat) (c : Nat) : ((E.st n).queue c).length ≤ cQueue :=
  E.inv (I := fun s => ∀ c, (s.queue c).length ≤ cQueue) (ok := fun _ _ => True)
    (fun _ _ _ _ I h => fair_length I h) (fun _ => trivial) (fun _ => Nat.zero_le _) n c

theorem fair_alive (n : Nat) : (E.st n).dead = false := by
  have := E.next n
  unfold State.step at this
  split at this
  · cases this
  · rename_i h; exact Bool.eq_false_iff.mpr h

/-- Once true, these stay true. -/
theorem fair_later {n m : Nat} (hm : n ≤ m) (i : Nat) :
    (i < (E.st n).n → i < (E.st m).n) ∧ (i < (E.st n).n → (E.st m).req i = (E.st n).req i) ∧
    ((E.st n).pushed i = true → (E.st m).pushed i = true) ∧ ((E.st n).done i = true → (E.st m).done i = true) ∧
    ((E.st n).result i ≠ none → (E.st m).result i = (E.st n).result i) ∧ (E.st n).clock ≤ (E.st m).clock := by
  induction m with
  | zero =>
    have : n = 0 := by omega
    subst this
    exact ⟨id, fun _ => rfl, id, id, fun _ => rfl, Nat.le_refl _⟩
  | succ m ih =>
    by_cases e : n = m + 1
    · subst e; exact ⟨id, fun _ => rfl, id, id, fun _ => rfl, Nat.le_refl _⟩
    · obtain ⟨a1, a2, a3, a4, a5, a6⟩ := ih (by omega)
      obtain ⟨b1, b2, b3, b4, b5, b6⟩ := fair_keeps (E.next m) i
      exact ⟨fun h => b1 (a1 h), fun h => (b2 (a1 h)).trans (a2 h), fun h => b3 (a3 h), fun h => b4 (a4 h),
        fun h => (b5 (by rw [a5 h]; exact h)).trans (a5 h), Nat.le_trans a6 b6⟩

/-- While the answer of a request is on its way, the channel it goes to is empty. -/
theorem fair_empty {s : State} (I : AllInv s) {i : Nat} (hn : i < s.n) (hl : s.lock i = true) :
    s.chan (s.req i).caller = none := by
  cases hr : s.result i with
  | some x =>
    obtain ⟨j, a⟩ := x
    have := I.own.own i j a hr
    subst this
    have := (I.ans.result _ _ _ hr).2.2.1
    rw [hl] at this; cases this
  | none =>
    cases hc : s.chan (s.req i).caller with
    | none => rfl
    | some x =>
      obtain ⟨j, a⟩ := x
      have := chan_own I hn hr hc
      subst this
      have := (I.ans.chan _ _ _ hc).2.2
      rw [hl] at this; cases this

theorem fair_exists {s : State} (I : AnsInv s) {i : Nat} (h : s.timer i ≠ .none) : i < s.n :=
  Nat.lt_of_not_le fun hge => h (I.fresh i hge).2.2.1

/-- The timer of a started request is settled, or the request is. -/
theorem fair_done (F : FairRun T E) (U : UnsharedRun T E) {n i : Nat} (h : (E.st n).timer i ≠ .none) :
    ∃ m, n ≤ m ∧ (E.st m).done i = true := by
  have I := fair_all U
  have woken : ∀ n, (E.st n).timer i = .woken → ∃ m, n ≤ m ∧ (E.st m).done i = true := by
    intro n h
    by_cases hd : (E.st n).done i = true
    · exact ⟨n, Nat.le_refl _, hd⟩
    refine E.leads_by F.weak (P := fun s => s.timer i = .woken ∧ s.done i = false) (Q := fun s => s.done i = true)
      (.settleT i) trivial ⟨h, Bool.eq_false_iff.mpr hd⟩ ?_ ?_ ?_
    · rintro m - ⟨h1, h2⟩
      rcases fair_timer (I m).ans (E.next m) i (by rw [h1]; simp) with ⟨e, -⟩ | ⟨u, e, -⟩ | ⟨-, e⟩ | ⟨e, -⟩
      · by_cases hd : (E.st (m + 1)).done i = true
        · exact .inr hd
        · exact .inl ⟨e.trans h1, Bool.eq_false_iff.mpr hd⟩
      · rw [h1] at e; cases e
      · exact .inr e
      · rw [h1] at e; cases e
    · rintro m - ⟨h1, h2⟩
      have hl : (E.st m).lock i = false := by
        cases hl : (E.st m).lock i with
        | false => rfl
        | true =>
          rcases (I m).ans.locked i hl with e | e
          · have := ((I m).ans.lockT i e).1; rw [h2] at this; cases this
          · have := ((I m).ans.lockH _ i e).1; rw [h2] at this; cases this
      simp [State.step, fair_alive, h1, h2, hl]
    · rintro m - ⟨h1, h2⟩ ea
      rcases fair_timer (I m).ans (E.next m) i (by rw [h1]; simp) with ⟨-, -, e, -⟩ | ⟨u, e, -⟩ | ⟨-, e⟩ | ⟨e, -⟩
      · exact absurd ea e
      · rw [h1] at e; cases e
      · exact e
      · rw [h1] at e; cases e
  cases ht : (E.st n).timer i with
  | none => exact absurd ht h
  | woken => exact woken n ht
  | sending => exact ⟨n, Nat.le_refl _, ((I n).ans.lockT i ht).1⟩
  | over => exact ⟨n, Nat.le_refl _, (I n).live.over i ht⟩
  | sleeping u =>
    obtain ⟨n', hn'⟩ := F.time u
    have step : ∀ m, (E.st m).timer i = .sleeping u → (E.st (m + 1)).timer i = .sleeping u ∧ E.act m ≠ .wake i ∨
        (E.st (m + 1)).timer i = .woken := by
      intro m hm
      rcases fair_timer (I m).ans (E.next m) i (by rw [hm]; simp) with ⟨e, e', -⟩ | ⟨u, -, e⟩ | ⟨e, -⟩ | ⟨e, -⟩
      · exact .inl ⟨e.trans hm, e'⟩
      · exact .inr e
      · rw [hm] at e; cases e
      · rw [hm] at e; cases e
    obtain ⟨m, hm, hw⟩ := E.leads (P := fun s => s.timer i = .sleeping u) (Q := fun s => s.timer i = .woken) ht
      (fun m _ hm => (step m hm).imp (·.1) id) (by
        intro hall
        obtain ⟨m, hm, e⟩ := F.weak (.wake i) trivial (max n n') (fun m hm => by
          have h1 := hall m (by omega)
          have h2 : u ≤ (E.st m).clock := Nat.le_trans hn' (fair_later (by omega) i).2.2.2.2.2
          simp [State.step, fair_alive, h1, h2])
        refine ⟨m + 1, by omega, ?_⟩
        rcases step m (hall m (by omega)) with ⟨-, h⟩ | h
        · exact absurd e h
        · exact h)
    obtain ⟨m', hm', hd⟩ := woken m hw
    exact ⟨m', by omega, hd⟩

/-- Who is sending the answer of a settled request was doing so before. -/
theorem fair_sends {s t : State} {a : Act} (A : AnsInv s) (h : s.step T a = some t) {i : Nat} (hd : s.done i = true) :
    (t.timer i = .sending → s.timer i = .sending) ∧
    (∀ c, (t.handler c).sends = some i → (s.handler c).sends = some i) := by
  constructor
  · intro ht
    cases hs : s.timer i with
    | none => have := (A.unstarted i hs).1; rw [hd] at this; cases this
    | sending => rfl
    | sleeping u =>
      rcases fair_timer A h i (by rw [hs]; simp) with ⟨e, -⟩ | ⟨u, -, e⟩ | ⟨e, -⟩ | ⟨e, -⟩
      · rw [e, hs] at ht; cases ht
      · rw [ht] at e; cases e
      · rw [hs] at e; cases e
      · rw [hs] at e; cases e
    | woken =>
      unfold State.step at h
      split at h
      · cases h
      cases a <;> simp only at h <;> (repeat' split at h) <;> cases h <;> (try simp only [upd] at ht) <;> grind
    | over =>
      rcases fair_timer A h i (by rw [hs]; simp) with ⟨e, -⟩ | ⟨u, e, -⟩ | ⟨e, -⟩ | ⟨e, -⟩
      · rw [e, hs] at ht; cases ht
      all_goals rw [hs] at e; cases e
  · intro c hc
    rcases fair_handler h c with ⟨e, -⟩ | ⟨e, e'⟩ | ⟨k, r, -, e⟩ | ⟨k, r, -, e | ⟨e, e'⟩⟩ | ⟨k, r, -, e⟩
    · rw [← e]; exact hc
    · subst e'
      unfold State.step at h
      split at h
      · cases h
      simp only at h
      repeat' split at h
      all_goals cases h
      all_goals first
        | exact hc
        | (simp only [upd_same] at hc; cases hc)
    · rw [e] at hc; cases hc
    · rw [e] at hc; cases hc
    · rw [e] at hc; cases hc; rw [hd] at e'; cases e'
    · rw [e] at hc; cases hc

/-- A settled request is answered. -/
theorem fair_answered (F : FairRun T E) (U : UnsharedRun T E) {n i : Nat} (h : (E.st n).done i = true) :
    ∃ m, n ≤ m ∧ (E.st m).result i ≠ none := by
  have I := fair_all U
  have ex : ∀ m, (E.st m).done i = true → i < (E.st m).n := by
    intro m hd
    refine Nat.lt_of_not_le fun hge => ?_
    have := ((I m).ans.fresh i hge).2.1
    rw [hd] at this; cases this
  have inChan : ∀ n, (E.st n).done i = true → ((E.st n).chan ((E.st n).req i).caller).map (·.1) = some i →
      ∃ m, n ≤ m ∧ (E.st m).result i ≠ none := by
    intro n hd hc
    by_cases hr : (E.st n).result i = none
    swap
    · exact ⟨n, Nat.le_refl _, hr⟩
    refine E.leads_by F.weak
      (P := fun s => s.done i = true ∧ s.result i = none ∧ (s.chan (s.req i).caller).map (·.1) = some i)
      (Q := fun s => s.result i ≠ none) (.receive i) trivial ⟨hd, hr, hc⟩ ?_ ?_ ?_
    · rintro m - ⟨h1, h2, h3⟩
      by_cases hr : (E.st (m + 1)).result i = none
      swap
      · exact .inr hr
      have hd' := (fair_keeps (E.next m) i).2.2.2.1 h1
      have hs := fair_sends (I m).ans (E.next m) h1
      have hl : (E.st m).lock i = false := by
        cases hc : (E.st m).chan ((E.st m).req i).caller with
        | none => rw [hc] at h3; cases h3
        | some x =>
          obtain ⟨j, a⟩ := x
          rw [hc] at h3; cases h3
          exact ((I m).ans.chan _ _ _ hc).2.2
      rcases (I (m + 1)).live.flight i hd' with e | e | e | e
      · have := ((I m).ans.lockT i (hs.1 e)).2; rw [hl] at this; cases this
      · have := ((I m).ans.lockH _ i (hs.2 _ e)).2.1; rw [hl] at this; cases this
      · exact .inl ⟨hd', hr, e⟩
      · rw [hr] at e; cases e
    · rintro m - ⟨h1, h2, h3⟩
      have hp : (E.st m).pushed i = true := by
        cases hp : (E.st m).pushed i with
        | true => rfl
        | false => have := ((I m).ans.unpushed i hp).2; rw [h1] at this; cases this
      cases hc : (E.st m).chan ((E.st m).req i).caller with
      | none => rw [hc] at h3; cases h3
      | some x => simp [State.step, fair_alive, ex m h1, hp, h2, hc]
    · rintro m - ⟨h1, h2, h3⟩ ea
      have := E.next m
      rw [ea] at this
      unfold State.step at this
      split at this
      · cases this
      simp only at this
      repeat' split at this
      all_goals cases hst : E.st (m + 1)
      all_goals rw [hst] at this
      all_goals cases this
      all_goals simp
  have leave : ∀ n, (E.st n).done i = true → (E.st n).timer i = .sending ∨
      ((E.st n).handler ((E.st n).req i).callee).sends = some i → ∃ m, n ≤ m ∧ (E.st m).result i ≠ none := by
    intro n hd hs
    have key : ∃ m, n ≤ m ∧ ((E.st m).done i = true ∧ (((E.st m).chan ((E.st m).req i).caller).map (·.1) = some i ∨
        (E.st m).result i ≠ none)) := by
      rcases hs with hs | hs
      · refine E.leads_by F.weak (P := fun s => s.timer i = .sending)
          (Q := fun s => s.done i = true ∧ ((s.chan (s.req i).caller).map (·.1) = some i ∨ s.result i ≠ none))
          (.deliverT i) trivial hs ?_ ?_ ?_
        · intro m _ h1
          have hd := ((I m).ans.lockT i h1).1
          have hd' := (fair_keeps (E.next m) i).2.2.2.1 hd
          rcases (I (m + 1)).live.flight i hd' with e | e | e | e
          · exact .inl e
          · exact absurd h1 ((I m).ans.lockH _ i ((fair_sends (I m).ans (E.next m) hd).2 _ e)).2.2
          · exact .inr ⟨hd', .inl e⟩
          · exact .inr ⟨hd', .inr fun h => by rw [h] at e; cases e⟩
        · intro m _ h1
          obtain ⟨hd, hl⟩ := (I m).ans.lockT i h1
          simp [State.step, fair_alive, h1, fair_empty (I m) (ex m hd) hl]
        · intro m _ h1 ea
          have hd := ((I m).ans.lockT i h1).1
          have hd' := (fair_keeps (E.next m) i).2.2.2.1 hd
          have ht : (E.st (m + 1)).timer i = .over := by
            rcases fair_timer (I m).ans (E.next m) i (by rw [h1]; simp) with ⟨-, -, -, e⟩ | ⟨u, e, -⟩ | ⟨e, -⟩ | ⟨-, e⟩
            · exact absurd ea e
            · rw [h1] at e; cases e
            · rw [h1] at e; cases e
            · exact e
          rcases (I (m + 1)).live.flight i hd' with e | e | e | e
          · rw [ht] at e; cases e
          · exact absurd h1 ((I m).ans.lockH _ i ((fair_sends (I m).ans (E.next m) hd).2 _ e)).2.2
          · exact ⟨hd', .inl e⟩
          · exact ⟨hd', .inr fun h => by rw [h] at e; cases e⟩
      · generalize hc : ((E.st n).req i).callee = c at hs
        have call : ∀ m, ((E.st m).handler c).sends = some i → ((E.st m).req i).callee = c :=
          fun m e => ((I m).ans.inHandler c i (Handler.busy_of_sends e)).1
        refine E.leads_by F.weak (P := fun s => (s.handler c).sends = some i)
          (Q := fun s => s.done i = true ∧ ((s.chan (s.req i).caller).map (·.1) = some i ∨ s.result i ≠ none))
          (.deliverH c) trivial hs ?_ ?_ ?_
        · intro m _ h1
          have hd := ((I m).ans.lockH _ i h1).1
          have hd' := (fair_keeps (E.next m) i).2.2.2.1 hd
          rcases (I (m + 1)).live.flight i hd' with e | e | e | e
          · exact absurd ((fair_sends (I m).ans (E.next m) hd).1 e) ((I m).ans.lockH _ i h1).2.2
          · rw [(fair_keeps (E.next m) i).2.1 (ex m hd), call m h1] at e; exact .inl e
          · exact .inr ⟨hd', .inl e⟩
          · exact .inr ⟨hd', .inr fun h => by rw [h] at e; cases e⟩
        · intro m _ h1
          obtain ⟨hd, hl, -⟩ := (I m).ans.lockH _ i h1
          cases hh : (E.st m).handler c <;> rw [hh] at h1 <;> cases h1
          simp [State.step, fair_alive, hh, fair_empty (I m) (ex m hd) hl]
        · intro m _ h1 ea
          have hd := ((I m).ans.lockH _ i h1).1
          have hd' := (fair_keeps (E.next m) i).2.2.2.1 hd
          have ht : (E.st (m + 1)).handler c = .idle := by
            rcases fair_handler (E.next m) c with ⟨-, -, e, -⟩ | ⟨-, e⟩ | ⟨k, r, e, -⟩ | ⟨k, r, e, -⟩ | ⟨k, r, -, e⟩
            · exact absurd ea e
            · rw [ea] at e; cases e
            · rw [e] at h1; cases h1
            · rw [e] at h1; cases h1
            · exact e
          rcases (I (m + 1)).live.flight i hd' with e | e | e | e
          · exact absurd ((fair_sends (I m).ans (E.next m) hd).1 e) ((I m).ans.lockH _ i h1).2.2
          · rw [(fair_keeps (E.next m) i).2.1 (ex m hd), call m h1, ht] at e; cases e
          · exact ⟨hd', .inl e⟩
          · exact ⟨hd', .inr fun h => by rw [h] at e; cases e⟩
    obtain ⟨m, hm, hd, hc | hr⟩ := key
    · obtain ⟨m', hm', h⟩ := inChan m hd hc
      exact ⟨m', by omega, h⟩
    · exact ⟨m, hm, hr⟩
  rcases (I n).live.flight i h with e | e | e | e
  · exact leave n h (.inl e)
  · exact leave n h (.inr e)
  · exact inChan n h e
  · exact ⟨n, Nat.le_refl _, fun hr => by rw [hr] at e; cases e⟩

/-- The callee runs one method for ever. -/
def RunsForever (E : Exec (State.step T) (State.init T)) (c : Nat) : Prop :=
  ∃ n q, ∀ m, n ≤ m → (E.st m).handler c = .running q

/-- A callee that is not stuck is idle again and again. -/
theorem fair_idle (F : FairRun T E) (U : UnsharedRun T E) {c : Nat} (hs : ¬ RunsForever E c) (n : Nat) :
    ∃ m, n ≤ m ∧ (E.st m).handler c = .idle := by
  have I := fair_all U
  have sending : ∀ n i r, (E.st n).handler c = .sending i r → ∃ m, n ≤ m ∧ (E.st m).handler c = .idle := by
    intro n i r h
    refine E.leads_by F.weak (P := fun s => s.handler c = .sending i r) (Q := fun s => s.handler c = .idle) (.deliverH c)
      trivial h ?_ ?_ ?_
    · intro m _ h1
      rcases fair_handler (E.next m) c with ⟨e, -⟩ | ⟨e, -⟩ | ⟨k, r, e, -⟩ | ⟨k, r, e, -⟩ | ⟨k, r, -, e⟩
      · exact .inl (e.trans h1)
      · rw [h1] at e; cases e
      · rw [h1] at e; cases e
      · rw [h1] at e; cases e
      · exact .inr e
    · intro m _ h1
      have hb : ((E.st m).handler c).sends = some i := by rw [h1]; rfl
      have hl := ((I m).ans.lockH c i hb).2.1
      have hn := fair_exists (I m).ans ((I m).ans.inHandler c i (Handler.busy_of_sends hb)).2.2
      simp [State.step, fair_alive, h1, fair_empty (I m) hn hl]
    · intro m _ h1 ea
      rcases fair_handler (E.next m) c with ⟨-, -, e, -⟩ | ⟨e, -⟩ | ⟨k, r, e, -⟩ | ⟨k, r, e, -⟩ | ⟨k, r, -, e⟩
      · exact absurd ea e
      · rw [h1] at e; cases e
      · rw [h1] at e; cases e
      · rw [h1] at e; cases e
      · exact e
  have returned : ∀ n i r, (E.st n).handler c = .returned i r → ∃ m, n ≤ m ∧ (E.st m).handler c = .idle := by
    intro n i r h
    have step : ∀ m, (E.st m).handler c = .returned i r →
        ((E.st (m + 1)).handler c = .returned i r ∧ E.act m ≠ .settleH c) ∨
        ((E.st (m + 1)).handler c = .idle ∨ (E.st (m + 1)).handler c = .sending i r) := by
      intro m h1
      rcases fair_handler (E.next m) c with ⟨e, e', -⟩ | ⟨e, -⟩ | ⟨k, r, e, -⟩ | ⟨k, r, e, e'⟩ | ⟨k, r, e, -⟩
      · exact .inl ⟨e.trans h1, e'⟩
      · rw [h1] at e; cases e
      · rw [h1] at e; cases e
      · rw [h1] at e; cases e; exact .inr (e'.imp id (·.1))
      · rw [h1] at e; cases e
    have key : ∃ m, n ≤ m ∧ ((E.st m).handler c = .idle ∨ (E.st m).handler c = .sending i r) := by
      refine E.leads (P := fun s => s.handler c = .returned i r)
        (Q := fun s => s.handler c = .idle ∨ s.handler c = .sending i r) h (fun m _ h1 => (step m h1).imp (·.1) id) ?_
      intro hall
      have hb : ((E.st n).handler c).busy = some i := by rw [h]; rfl
      obtain ⟨n1, hn1, hd⟩ := fair_done F U ((I n).ans.inHandler c i hb).2.2
      obtain ⟨n2, hn2, hr⟩ := fair_answered F U hd
      obtain ⟨m, hm, e⟩ := F.weak (.settleH c) trivial n2 (fun m hm => by
        have h1 := hall m (by omega)
        have hr' : (E.st m).result i ≠ none := by rw [(fair_later hm i).2.2.2.2.1 hr]; exact hr
        have hl : (E.st m).lock i = false := by
          cases hx : (E.st m).result i with
          | none => exact absurd hx hr'
          | some x =>
            obtain ⟨j, a⟩ := x
            have := (I m).own.own i j a hx
            subst this
            exact ((I m).ans.result _ _ _ hx).2.2.1
        have hd' := (fair_later (E := E) (show n1 ≤ m by omega) i).2.2.2.1 hd
        simp [State.step, fair_alive, h1, hl, hd'])
      refine ⟨m + 1, by omega, ?_⟩
      rcases step m (hall m (by omega)) with ⟨-, h⟩ | h
      · exact absurd e h
      · exact h
    obtain ⟨m, hm, e | e⟩ := key
    · exact ⟨m, hm, e⟩
    · obtain ⟨m', hm', h⟩ := sending m i r e
      exact ⟨m', by omega, h⟩
  cases h : (E.st n).handler c with
  | idle => exact ⟨n, Nat.le_refl _, h⟩
  | sending i r => exact sending n i r h
  | returned i r => exact returned n i r h
  | running i =>
    obtain ⟨m, hm, r, h⟩ := E.leads (P := fun s => s.handler c = .running i)
      (Q := fun s => ∃ r, s.handler c = .returned i r) h (by
        intro m _ h1
        rcases fair_handler (E.next m) c with ⟨e, -⟩ | ⟨e, -⟩ | ⟨k, r, e, e'⟩ | ⟨k, r, e, -⟩ | ⟨k, r, e, -⟩
        · exact .inl (e.trans h1)
        · rw [h1] at e; cases e
        · rw [h1] at e; cases e; exact .inr ⟨r, e'⟩
        · rw [h1] at e; cases e
        · rw [h1] at e; cases e) (fun hall => absurd ⟨n, i, hall⟩ hs)
    obtain ⟨m', hm', h⟩ := returned m i r h
    exact ⟨m', by omega, h⟩

/-- A callee that is not stuck takes the first request of its queue. -/
theorem fair_start (F : FairRun T E) (U : UnsharedRun T E) {c : Nat} (hs : ¬ RunsForever E c) {n i : Nat} {rest : List Nat}
    (h : (E.st n).queue c = i :: rest) :
    ∃ m z, n ≤ m ∧ E.act m = .start c ∧ (E.st (m + 1)).queue c = rest ++ z ∧ (E.st (m + 1)).startedAt i ≠ none := by
  have key : ∃ m, n ≤ m ∧ E.act m = .start c := by
    refine Classical.byContradiction fun hno => ?_
    have hq : ∀ m, n ≤ m → ∃ z, (E.st m).queue c = i :: z := by
      refine E.stable (P := fun s => ∃ z, s.queue c = i :: z) ⟨rest, h⟩ ?_
      rintro m hm ⟨z, hz⟩
      rcases fair_queue (E.next m) c with ⟨-, z', e⟩ | ⟨e, -⟩
      · exact ⟨z ++ z', by rw [e, hz]; rfl⟩
      · exact absurd ⟨m, hm, e⟩ hno
    obtain ⟨m0, hm0, h0⟩ := fair_idle F U hs n
    have hi : ∀ m, m0 ≤ m → (E.st m).handler c = .idle := by
      refine E.stable (P := fun s => s.handler c = .idle) h0 ?_
      intro m hm h1
      rcases fair_handler (E.next m) c with ⟨e, -⟩ | ⟨-, e⟩ | ⟨k, r, e, -⟩ | ⟨k, r, e, -⟩ | ⟨k, r, e, -⟩
      · exact e.trans h1
      · exact absurd ⟨m, by omega, e⟩ hno
      all_goals rw [h1] at e; cases e
    obtain ⟨m, hm, e⟩ := F.weak (.start c) trivial m0 (fun m hm => by
      obtain ⟨z, hz⟩ := hq m (by omega)
      simp only [State.step, fair_alive, hi m hm, hz]
      simp only [Bool.false_eq_true, if_false]
      split <;> simp)
    exact hno ⟨m, by omega, e⟩
  have first : ∃ m, (n ≤ m ∧ E.act m = .start c) ∧ ∀ k, n ≤ k → k < m → E.act k ≠ .start c := by
    obtain ⟨m, hm⟩ := key
    induction m using Nat.strongRecOn with
    | ind m ih =>
      by_cases hex : ∃ k, n ≤ k ∧ k < m ∧ E.act k = .start c
      · obtain ⟨k, h1, h2, h3⟩ := hex
        exact ih k h2 ⟨h1, h3⟩
      · exact ⟨m, hm, fun k h1 h2 h3 => hex ⟨k, h1, h2, h3⟩⟩
  obtain ⟨m, ⟨hm, ea⟩, hf⟩ := first
  have hq : ∀ k, n ≤ k → k ≤ m → ∃ z, (E.st k).queue c = i :: (rest ++ z) := by
    intro k
    induction k with
    | zero =>
      intro h1 _
      have : n = 0 := by omega
      subst this
      exact ⟨[], by simpa using h⟩
    | succ k ih =>
      intro h1 h2
      by_cases e : n = k + 1
      · subst e; exact ⟨[], by simpa using h⟩
      · obtain ⟨z, hz⟩ := ih (by omega) (by omega)
        rcases fair_queue (E.next k) c with ⟨-, z', e⟩ | ⟨e, -⟩
        · exact ⟨z ++ z', by rw [e, hz]; simp⟩
        · exact absurd e (hf k (by omega) (by omega))
  obtain ⟨z, hz⟩ := hq m hm (Nat.le_refl _)
  rcases fair_queue (E.next m) c with ⟨e, -⟩ | ⟨-, j, r, h1, h2, h3⟩
  · exact absurd ea e
  · rw [hz] at h1
    cases h1
    exact ⟨m, z, hm, ea, h2, h3⟩

/-- On a callee that is not stuck, what is in the queue is started. -/
theorem fair_started (F : FairRun T E) (U : UnsharedRun T E) {c : Nat} (hs : ¬ RunsForever E c) (i : Nat) :
    ∀ (pre : List Nat) (post : List Nat) (n : Nat), (E.st n).queue c = pre ++ i :: post →
      ∃ m, n ≤ m ∧ (E.st m).startedAt i ≠ none := by
  intro pre
  induction pre with
  | nil =>
    intro post n h
    obtain ⟨m, z, hm, -, -, h⟩ := fair_start F U hs h
    exact ⟨m + 1, by omega, h⟩
  | cons x pre ih =>
    intro post n h
    obtain ⟨m, z, hm, -, h, -⟩ := fair_start F U hs h
    obtain ⟨m', hm', h⟩ := ih (post ++ z) (m + 1) (by rw [h]; simp)
    exact ⟨m', by omega, h⟩

/-- A call on a callee that is not stuck is started. -/
theorem fair_served (F : FairRun T E) (U : UnsharedRun T E) {n i : Nat} (hn : i < (E.st n).n)
    (hs : ¬ RunsForever E ((E.st n).req i).callee) : ∃ m, n ≤ m ∧ (E.st m).startedAt i ≠ none := by
  have I := fair_all U
  have rq : ∀ m, n ≤ m → (E.st m).req i = (E.st n).req i := fun m hm => (fair_later hm i).2.1 hn
  generalize hc : ((E.st n).req i).callee = c at hs
  have pushed : ∀ m, n ≤ m → (E.st m).pushed i = true → ∃ k, m ≤ k ∧ (E.st k).startedAt i ≠ none := by
    intro m hm hp
    by_cases h0 : (E.st m).startedAt i = none
    · have hq := (fair_timers m).queued (fair_alive m) i hp ((fair_timers m).iff i |>.mpr h0)
      rw [rq m hm, hc] at hq
      obtain ⟨pre, post, h⟩ := List.append_of_mem hq
      exact fair_started F U hs i pre post m h
    · exact ⟨m, Nat.le_refl _, h0⟩
  have key : ∃ m, n ≤ m ∧ (E.st m).pushed i = true := by
    refine Classical.byContradiction fun hno => ?_
    have hp : ∀ m, n ≤ m → (E.st m).pushed i = false := fun m hm => Bool.eq_false_iff.mpr fun h => hno ⟨m, hm, h⟩
    obtain ⟨m, hm, ea⟩ := F.room (.push i) ⟨i, rfl⟩ n (by
      intro k hk
      have room : ∃ m, k ≤ m ∧ ((E.st m).queue c).length < cQueue := by
        by_cases hl : ((E.st k).queue c).length < cQueue
        · exact ⟨k, Nat.le_refl _, hl⟩
        · cases hq : (E.st k).queue c with
          | nil => rw [hq] at hl; exact absurd (by decide) hl
          | cons x rest =>
            obtain ⟨m, z, hm, ea, h1, -⟩ := fair_start F U hs hq
            refine ⟨m + 1, by omega, ?_⟩
            rcases fair_queue (E.next m) c with ⟨e, -⟩ | ⟨-, j, r, h2, h3, -⟩
            · exact absurd ea e
            · have := fair_lengths (E := E) m c
              rw [h2] at this
              rw [h3]
              exact Nat.lt_of_succ_le this
      obtain ⟨m, hm, hr⟩ := room
      refine ⟨m, hm, ?_⟩
      have h1 := (fair_later (E := E) (show n ≤ m by omega) i).1 hn
      have h2 := hp m (by omega)
      have h3 := rq m (by omega)
      simp [State.step, fair_alive, h1, h2, h3, hc, hr])
    have := E.next m
    rw [ea] at this
    unfold State.step at this
    split at this
    · cases this
    simp only at this
    split at this
    · have h := hp (m + 1) (by omega)
      rw [← Option.some.inj this] at h
      simp at h
    · cases this
  obtain ⟨m, hm, hp⟩ := key
  obtain ⟨k, hk, h⟩ := pushed m hm hp
  exact ⟨k, by omega, h⟩

/-- Once started, a call returns. -/
theorem fair_returns (F : FairRun T E) (U : UnsharedRun T E) {n i : Nat} (h : (E.st n).startedAt i ≠ none) :
    ∃ m a, n ≤ m ∧ (E.st m).result i = some (i, a) := by
  obtain ⟨m, hm, hd⟩ := fair_done F U (fun e => h ((fair_timers n).iff i |>.mp e))
  obtain ⟨k, hk, hr⟩ := fair_answered F U hd
  cases e : (E.st k).result i with
  | none => exact absurd e hr
  | some x =>
    obtain ⟨j, a⟩ := x
    have := (fair_all U k).own.own i j a e
    subst this
    exact ⟨k, a, by omega, e⟩

end

/-! ## C124 -/

/-- **C124, calls that have been started.**  In every execution that goes on for ever, in which goroutines that can go on
do so and time passes (caller objects not shared): every call whose method has been started returns, whatever the method
does. -/
theorem C124_started (T : Nat → Target) (E : Exec (State.step T) (State.init T)) (F : FairRun T E) (U : UnsharedRun T E)
    (n i : Nat) (h : (E.st n).startedAt i ≠ none) : ∃ m a, n ≤ m ∧ (E.st m).result i = some (i, a) :=
  fair_returns F U h

/-- **C124, all calls.**  If moreover all methods return, every call returns. -/
theorem C124_returns (T : Nat → Target) (E : Exec (State.step T) (State.init T)) (F : FairRun T E) (U : UnsharedRun T E)
    (hb : ∀ n c q, (E.st n).handler c = .running q → ∃ m, n ≤ m ∧ (E.st m).handler c ≠ .running q)
    (n i : Nat) (hn : i < (E.st n).n) : ∃ m a, n ≤ m ∧ (E.st m).result i = some (i, a) := by
  obtain ⟨m, hm, h⟩ := fair_served F U hn (by
    rintro ⟨n', q, h⟩
    obtain ⟨m, hm, e⟩ := hb n' _ q (h n' (Nat.le_refl _))
    exact e (h m hm))
  obtain ⟨k, a, hk, h⟩ := fair_returns F U h
  exact ⟨k, a, by omega, h⟩

theorem fair_prefix {T : Nat → Target} {E : Exec (State.step T) (State.init T)} (U : UnsharedRun T E) (n : Nat) :
    Unshared T ((List.range n).map E.act) := by
  intro pre a post v he hv
  have hlen : pre.length + (post.length + 1) = n := by simpa using (congrArg List.length he).symm
  have hpre : pre = (List.range pre.length).map E.act := by
    have h1 := congrArg (List.take pre.length) he
    rw [List.take_left' rfl, ← List.map_take, List.take_range] at h1
    rw [Nat.min_eq_left (by omega)] at h1; exact h1.symm
  have ha : a = E.act pre.length := by
    have h1 := congrArg (fun l => l[pre.length]?) he
    simp only [List.getElem?_append_right (Nat.le_refl _), Nat.sub_self, List.getElem?_cons_zero, List.getElem?_map] at h1
    rw [List.getElem?_range (by omega)] at h1
    exact (Option.some.inj h1).symm
  rw [hpre, E.reach] at hv
  cases hv
  subst ha
  intro callee caller meth args parent e
  exact U _ callee caller meth args parent e

theorem fair_suffix {T : Nat → Target} {E : Exec (State.step T) (State.init T)} {n m : Nat} (h : n ≤ m) :
    ∃ more, (List.range m).map E.act = (List.range n).map E.act ++ more ∧
      run (State.step T) (E.st n) more = some (E.st m) := by
  refine ⟨((List.range m).map E.act).drop n, ?_, ?_⟩
  · have := List.take_append_drop n ((List.range m).map E.act)
    rw [← List.map_take, List.take_range, Nat.min_eq_left h] at this
    exact this.symm
  · have h1 := E.reach m
    rw [← List.take_append_drop n ((List.range m).map E.act), run_append, ← List.map_take, List.take_range,
      Nat.min_eq_left h, E.reach n] at h1
    exact h1

/-- Among finitely many numbers, what holds of each from some point on holds of all from some point on. -/
theorem eventually_all (P : Nat → Nat → Prop) (K : Nat) (h : ∀ c, c < K → ∃ n, ∀ m, n ≤ m → P c m) :
    ∃ n, ∀ m, n ≤ m → ∀ c, c < K → P c m := by
  induction K with
  | zero => exact ⟨0, fun _ _ c hc => absurd hc (Nat.not_lt_zero _)⟩
  | succ K ih =>
    obtain ⟨n, hn⟩ := ih fun c hc => h c (by omega)
    obtain ⟨n', hn'⟩ := h K (Nat.lt_succ_self _)
    refine ⟨max n n', fun m hm c hc => ?_⟩
    by_cases e : c = K
    · subst e; exact hn' m (by omega)
    · exact hn m (by omega) c (by omega)

/-- **C124, exactly which calls.**  Suppose there are finitely many callees, and no method runs for ever by itself: one that
never returns waits for ever for one of its own calls.  Then in every fair execution a call returns if and only if it is
not at some point left, before it is started, to a set of callees that wait for one another: each of the set runs a method
that waits for a call on one of the set whose method has not been started. -/
theorem C124_exact (T : Nat → Target) (E : Exec (State.step T) (State.init T)) (F : FairRun T E) (U : UnsharedRun T E)
    (K : Nat) (hK : ∀ n i, i < (E.st n).n → ((E.st n).req i).callee < K)
    (hb : ∀ n c q, (∀ m, n ≤ m → (E.st m).handler c = .running q) → ∃ k j, ∀ m, k ≤ m → (E.st m).waits q = some j)
    (n i : Nat) (hn : i < (E.st n).n) :
    (∃ m a, n ≤ m ∧ (E.st m).result i = some (i, a)) ↔
      ¬ ∃ (m : Nat) (S : Nat → Prop), n ≤ m ∧ (E.st m).startedAt i = none ∧ S ((E.st m).req i).callee ∧
        ∀ c, S c → ∃ d, S d ∧ Blocks (E.st m) c d := by
  constructor
  · rintro ⟨m, a, hm, hr⟩ ⟨k, S, hk, h0, hi, hS⟩
    obtain ⟨more, e, h⟩ := fair_suffix (E := E) (show k ≤ max k m by omega)
    have := (C115_circle T _ more _ _ (by rw [← e]; exact fair_prefix U _) (E.reach k) h S hS).2 i
      (by rw [(fair_later (E := E) (show k ≤ max k m by omega) i).2.1 ((fair_later hk i).1 hn)]; exact hi) h0
    have h1 := (fair_later (E := E) (show m ≤ max k m by omega) i).2.2.2.2.1 (by rw [hr]; simp)
    rw [this.2, hr] at h1
    cases h1
  · intro hno
    refine Classical.byContradiction fun hnr => ?_
    have hstuck : ∀ k j, j < (E.st k).n → (¬ ∃ m a, k ≤ m ∧ (E.st m).result j = some (j, a)) →
        RunsForever E ((E.st k).req j).callee := by
      intro k j hj hne
      refine Classical.byContradiction fun hs => hne ?_
      obtain ⟨m, hm, h⟩ := fair_served F U hj hs
      obtain ⟨m', a, hm', h⟩ := fair_returns F U h
      exact ⟨m', a, by omega, h⟩
    have I := fair_all U
    have hS : ∀ c, c < K → ∃ n, ∀ m, n ≤ m → RunsForever E c → ∃ d, RunsForever E d ∧ Blocks (E.st m) c d := by
      intro c _
      by_cases hs : RunsForever E c
      swap
      · exact ⟨0, fun _ _ h => absurd h hs⟩
      obtain ⟨n', q, hq⟩ := hs
      obtain ⟨k, j, hw⟩ := hb n' c q hq
      have hj := (I k).live.waits j q (hw k (Nat.le_refl _))
      have never : ∀ m, k ≤ m → (E.st m).result j = none := fun m hm => ((I m).live.waits j q (hw m hm)).2.2
      refine ⟨max n' k, fun m hm _ => ⟨((E.st k).req j).callee, hstuck k j hj.1 ?_, q, j, hq m (by omega),
        hw m (by omega), ?_, ?_⟩⟩
      · rintro ⟨m, a, hm, h⟩
        rw [never m hm] at h; cases h
      · refine Classical.byContradiction fun h => ?_
        obtain ⟨m', a, hm', h⟩ := fair_returns F U h
        rw [never m' (by omega)] at h; cases h
      · rw [(fair_later (E := E) (show k ≤ m by omega) j).2.1 hj.1]
    obtain ⟨M, hM⟩ := eventually_all _ K hS
    refine hno ⟨max n M, fun c => c < K ∧ RunsForever E c, by omega, ?_, ⟨hK _ _ ((fair_later (by omega) i).1 hn), ?_⟩, ?_⟩
    · refine Classical.byContradiction fun h => ?_
      obtain ⟨m', a, hm', h⟩ := fair_returns F U h
      exact hnr ⟨m', a, by omega, h⟩
    · refine hstuck _ i ((fair_later (by omega) i).1 hn) ?_
      rintro ⟨m, a, hm, h⟩
      exact hnr ⟨m, a, by omega, h⟩
    · rintro c ⟨hc, hs⟩
      obtain ⟨d, h1, h2⟩ := hM (max n M) (by omega) c hc hs
      refine ⟨d, ⟨?_, h1⟩, h2⟩
      obtain ⟨q, j, -, hw, -, hd⟩ := h2
      rw [← hd]
      exact hK _ _ ((I _).live.waits j q hw).1

/-! ## Examples -/

/-- Nothing is left to do for the goroutines of the package: they wait for calls, and methods run. -/
structure Quiet (s : State) : Prop where
  alive : s.dead = false
  handlers : ∀ c, (∃ q, s.handler c = .running q) ∨ s.handler c = .idle ∧ s.queue c = []
  pushed : ∀ i, i < s.n → s.pushed i = true
  timers : ∀ i, s.timer i = .none ∨ s.timer i = .over
  chans : ∀ c, s.chan c = none

theorem Quiet.none {T : Nat → Target} {s : State} (h : Quiet s) (a : Act) (ha : Runs a) : s.step T a = none := by
  unfold State.step
  rw [h.alive]
  simp only [Bool.false_eq_true, if_false]
  cases a with
  | push i =>
    simp only
    rw [if_neg]
    rintro ⟨h1, h2, -⟩
    rw [h.pushed i h1] at h2; cases h2
  | start c =>
    rcases h.handlers c with ⟨q, e⟩ | ⟨e, e'⟩
    · simp [e]
    · simp [e, e']
  | settleH c =>
    rcases h.handlers c with ⟨q, e⟩ | ⟨e, e'⟩ <;> simp [e]
  | deliverH c =>
    rcases h.handlers c with ⟨q, e⟩ | ⟨e, e'⟩ <;> simp [e]
  | wake i => rcases h.timers i with e | e <;> simp [e]
  | settleT i => rcases h.timers i with e | e <;> simp [e]
  | deliverT i => rcases h.timers i with e | e <;> simp [e]
  | receive i =>
    simp only
    split
    · rw [h.chans]
      cases s.result i <;> rfl
    · rfl
  | _ => exact absurd ha id

/-- The state later, when only time has passed. -/
def State.later (s : State) (s' : State) : Prop := ∃ k, s' = { s with clock := k }

/-- The execution that comes to a quiet state, after which only time passes. -/
def thenTicks {T : Nat → Target} {acts : List Act} {s : State} (h : run (State.step T) (State.init T) acts = some s)
    (q : Quiet s) : Exec (State.step T) (State.init T) :=
  Exec.ofLasso _ _ acts (fun _ => .tick) h (P := State.later s) ⟨s.clock, rfl⟩ (by
    rintro s' _ ⟨k, rfl⟩
    exact ⟨{ s with clock := k + 1 }, by simp [State.step, q.alive], k + 1, rfl⟩)

theorem thenTicks_tail {T : Nat → Target} {acts : List Act} {s : State}
    (h : run (State.step T) (State.init T) acts = some s) (q : Quiet s) (n : Nat) (hn : acts.length ≤ n) :
    (∃ k, (thenTicks h q).st n = { s with clock := k }) ∧ (thenTicks h q).act n = .tick :=
  (Exec.ofLasso_tail (P := State.later s) h _ _).2 n hn

theorem thenTicks_fair {T : Nat → Target} {acts : List Act} {s : State}
    (h : run (State.step T) (State.init T) acts = some s) (q : Quiet s) : FairRun T (thenTicks h q) := by
  have none : ∀ a, Runs a → ∀ n, acts.length ≤ n → ((thenTicks h q).st n).step T a = none := by
    intro a ha n hn
    obtain ⟨⟨k, e⟩, -⟩ := thenTicks_tail h q n hn
    rw [e]
    exact Quiet.none (s := { s with clock := k }) ⟨q.alive, q.handlers, q.pushed, q.timers, q.chans⟩ a ha
  refine ⟨?_, ?_, ?_⟩
  · intro a ha n hen
    exact absurd (none a ha (max n acts.length) (by omega)) (hen _ (by omega))
  · rintro a ⟨i, rfl⟩ n hen
    obtain ⟨m, hm, hne⟩ := hen (max n acts.length) (by omega)
    exact absurd (none (.push i) trivial m (by omega)) hne
  · intro t
    refine ⟨acts.length + t, ?_⟩
    induction t with
    | zero => omega
    | succ t ih =>
      have h1 := (thenTicks_tail h q (acts.length + t) (by omega)).2
      have h2 := (thenTicks h q).next (acts.length + t)
      rw [h1] at h2
      unfold State.step at h2
      split at h2
      · cases h2
      · have := Option.some.inj h2
        show t + 1 ≤ ((thenTicks h q).st (acts.length + t + 1)).clock
        rw [← this]
        exact Nat.succ_le_succ ih

theorem thenTicks_unshared {T : Nat → Target} {acts : List Act} {s : State}
    (h : run (State.step T) (State.init T) acts = some s) (q : Quiet s) (u : Unshared T acts) :
    UnsharedRun T (thenTicks h q) := by
  intro n callee caller meth args parent e
  by_cases hn : n < acts.length
  · have e' : acts[n]?.getD .tick = .call callee caller meth args parent := e
    rw [List.getElem?_eq_getElem hn] at e'
    have hr := lasso_run (b := fun _ => Act.tick) h n (by omega)
    refine u (acts.take n) acts[n] (acts.drop (n + 1)) ((thenTicks h q).st n) ?_ hr callee caller meth args parent e'
    rw [← List.drop_eq_getElem_cons hn, List.take_append_drop]
  · rw [(thenTicks_tail h q n (by omega)).2] at e; cases e

/-- What holds at the end of an execution, by evaluation. -/
theorem final_of {T : Nat → Target} {acts : List Act} {s : State} {β : Type} (f : State → β) {y : β}
    (h : run (State.step T) (State.init T) acts = some s)
    (e : (run (State.step T) (State.init T) acts).map f = some y) : f s = y := by
  rw [h] at e; exact Option.some.inj e

/-- Two calls on one callee: the method returns before the first has timed out, and after the second has. -/
def twoCalls : List Act :=
  [.setTimeout 0 [97] 0, .call 0 0 [97] [] none, .call 0 1 [97] [] none, .push 1, .push 0, .start 0, .wake 1, .ret 0 [],
    .settleH 0, .deliverH 0, .receive 1, .settleT 1, .start 0, .wake 0, .settleT 0, .deliverT 0, .receive 0, .ret 0 [],
    .settleH 0]

theorem twoCalls_quiet : ∃ s, run (State.step demo) (State.init demo) twoCalls = some s ∧ Quiet s ∧ s.n = 2 ∧
    ∀ c, s.handler c = .idle := by
  obtain ⟨s, h⟩ : ∃ s, run (State.step demo) (State.init demo) twoCalls = some s :=
    Option.isSome_iff_exists.mp (by decide +kernel)
  have hn : s.n = 2 := final_of (·.n) h (by decide +kernel)
  have hi : ∀ c, s.handler c = .idle := by
    intro c
    match c with
    | 0 => exact final_of (·.handler 0) h (by rfl)
    | c + 1 => exact final_of (·.handler (c + 1)) h (by rfl)
  refine ⟨s, h, ⟨final_of (·.dead) h (by decide +kernel), fun c => .inr ⟨hi c, ?_⟩, fun i hi => ?_, fun i => ?_,
    fun c => ?_⟩, hn, hi⟩
  · match c with
    | 0 => exact final_of (·.queue 0) h (by decide +kernel)
    | c + 1 => exact final_of (·.queue (c + 1)) h (by rfl)
  · rw [hn] at hi
    match i, hi with
    | 0, _ => exact final_of (·.pushed 0) h (by decide +kernel)
    | 1, _ => exact final_of (·.pushed 1) h (by decide +kernel)
  · match i with
    | 0 => exact .inr (final_of (·.timer 0) h (by decide +kernel))
    | 1 => exact .inr (final_of (·.timer 1) h (by decide +kernel))
    | i + 2 => exact .inl (final_of (·.timer (i + 2)) h (by rfl))
  · match c with
    | 0 => exact final_of (·.chan 0) h (by rfl)
    | 1 => exact final_of (·.chan 1) h (by rfl)
    | c + 2 => exact final_of (·.chan (c + 2)) h (by rfl)

/-- A fair execution in which calls are made and all methods return. -/
example : ∃ E : Exec (State.step demo) (State.init demo), FairRun demo E ∧ UnsharedRun demo E ∧ (E.st 19).n = 2 ∧
    ∀ n c q, (E.st n).handler c = .running q → ∃ m, n ≤ m ∧ (E.st m).handler c ≠ .running q := by
  obtain ⟨s, h, q, hn, hi⟩ := twoCalls_quiet
  obtain ⟨k, e⟩ := (thenTicks_tail h q 19 (by decide)).1
  refine ⟨thenTicks h q, thenTicks_fair h q, thenTicks_unshared h q (unshared_of_nodup _ _ (by decide)),
    by rw [e]; exact hn, ?_⟩
  intro n c p _
  obtain ⟨k, e⟩ := (thenTicks_tail h q (max n 19) (by show 19 ≤ _; omega)).1
  refine ⟨max n 19, by omega, ?_⟩
  rw [e]
  intro h
  have := hi c
  rw [this] at h
  cases h

/-- Two features that call each other at the same time: the outer calls time out. -/
def crossingOn : List Act :=
  [.setTimeout 0 [97] 0, .setTimeout 1 [97] 0] ++ crossing ++ [.wake 0, .wake 1, .settleT 0, .settleT 1, .deliverT 0,
    .deliverT 1, .receive 0, .receive 1]

theorem crossingOn_quiet : ∃ s, run (State.step demo) (State.init demo) crossingOn = some s ∧ Quiet s ∧ s.n = 4 ∧
    s.handler 0 = .running 0 ∧ s.handler 1 = .running 1 ∧ (∀ c, 2 ≤ c → s.handler c = .idle) ∧
    s.waits 0 = some 2 ∧ s.waits 1 = some 3 ∧
    (∀ i, i < 4 → (s.req i).callee < 2) ∧ s.result 2 = none ∧ s.startedAt 2 = none ∧ s.startedAt 3 = none ∧
    (s.req 2).callee = 1 ∧ (s.req 3).callee = 0 := by
  obtain ⟨s, h⟩ : ∃ s, run (State.step demo) (State.init demo) crossingOn = some s :=
    Option.isSome_iff_exists.mp (by decide +kernel)
  have hn : s.n = 4 := final_of (·.n) h (by decide +kernel)
  have h0 : s.handler 0 = .running 0 := final_of (·.handler 0) h (by rfl)
  have h1 : s.handler 1 = .running 1 := final_of (·.handler 1) h (by rfl)
  have h2 : ∀ c, s.handler (c + 2) = .idle := fun c => final_of (·.handler (c + 2)) h (by rfl)
  refine ⟨s, h, ⟨final_of (·.dead) h (by decide +kernel), fun c => ?_, fun i hi => ?_, fun i => ?_, fun c => ?_⟩, hn,
    h0, h1, ?_, final_of (·.waits 0) h (by decide +kernel), final_of (·.waits 1) h (by decide +kernel), ?_,
    final_of (·.result 2) h (by rfl), final_of (·.startedAt 2) h (by decide +kernel),
    final_of (·.startedAt 3) h (by decide +kernel), final_of (fun s => (s.req 2).callee) h (by decide +kernel),
    final_of (fun s => (s.req 3).callee) h (by decide +kernel)⟩
  · match c with
    | 0 => exact .inl ⟨0, h0⟩
    | 1 => exact .inl ⟨1, h1⟩
    | c + 2 => exact .inr ⟨h2 c, final_of (·.queue (c + 2)) h (by rfl)⟩
  · rw [hn] at hi
    match i, hi with
    | 0, _ => exact final_of (·.pushed 0) h (by decide +kernel)
    | 1, _ => exact final_of (·.pushed 1) h (by decide +kernel)
    | 2, _ => exact final_of (·.pushed 2) h (by decide +kernel)
    | 3, _ => exact final_of (·.pushed 3) h (by decide +kernel)
  · match i with
    | 0 => exact .inr (final_of (·.timer 0) h (by decide +kernel))
    | 1 => exact .inr (final_of (·.timer 1) h (by decide +kernel))
    | i + 2 => exact .inl (final_of (·.timer (i + 2)) h (by rfl))
  · match c with
    | 0 => exact final_of (·.chan 0) h (by rfl)
    | 1 => exact final_of (·.chan 1) h (by rfl)
    | c + 2 => exact final_of (·.chan (c + 2)) h (by rfl)
  · intro c hc
    obtain ⟨d, rfl⟩ : ∃ d, c = d + 2 := ⟨c - 2, by omega⟩
    exact h2 d
  · intro i hi
    match i, hi with
    | 0, _ => rw [show (s.req 0).callee = 0 from final_of (fun s => (s.req 0).callee) h (by decide +kernel)]; decide
    | 1, _ => rw [show (s.req 1).callee = 1 from final_of (fun s => (s.req 1).callee) h (by decide +kernel)]; decide
    | 2, _ => rw [show (s.req 2).callee = 1 from final_of (fun s => (s.req 2).callee) h (by decide +kernel)]; decide
    | 3, _ => rw [show (s.req 3).callee = 0 from final_of (fun s => (s.req 3).callee) h (by decide +kernel)]; decide

/-- **C124, why methods have to return.**  There is a fair execution, caller objects not shared, with two features, no method
of which runs for ever by itself, in which a call never returns: the two call each other at the same time. -/
theorem C124_unreturned :
    ∃ E : Exec (State.step demo) (State.init demo), FairRun demo E ∧ UnsharedRun demo E ∧
      (∀ n i, i < (E.st n).n → ((E.st n).req i).callee < 2) ∧
      (∀ n c q, (∀ m, n ≤ m → (E.st m).handler c = .running q) → ∃ k j, ∀ m, k ≤ m → (E.st m).waits q = some j) ∧
      2 < (E.st 20).n ∧ ∀ m, (E.st m).result 2 = none := by
  obtain ⟨s, h, q, hn, h0, h1, h2, w0, w1, rq, r2, s2, s3, c2, c3⟩ := crossingOn_quiet
  have tail : ∀ n, 20 ≤ n → ∃ k, (thenTicks h q).st n = { s with clock := k } :=
    fun n hn => (thenTicks_tail h q n hn).1
  refine ⟨thenTicks h q, thenTicks_fair h q, thenTicks_unshared h q (unshared_of_nodup _ _ (by decide)), ?_, ?_, ?_, ?_⟩
  · intro n i hi
    obtain ⟨k, e⟩ := tail (max n 20) (by omega)
    have l := fair_later (E := thenTicks h q) (show n ≤ max n 20 by omega) i
    rw [← l.2.1 hi, e]
    have := l.1 hi
    rw [e] at this
    exact rq i (hn ▸ this)
  · intro n c p hall
    obtain ⟨k, e⟩ := tail (max n 20) (by omega)
    have hc := hall (max n 20) (by omega)
    rw [e] at hc
    have hc' : s.handler c = .running p := hc
    have : p = 0 ∨ p = 1 := by
      match c with
      | 0 => rw [h0] at hc'; cases hc'; exact .inl rfl
      | 1 => rw [h1] at hc'; cases hc'; exact .inr rfl
      | c + 2 => rw [h2 (c + 2) (by omega)] at hc'; cases hc'
    rcases this with rfl | rfl
    · refine ⟨20, 2, fun m hm => ?_⟩
      obtain ⟨k, e⟩ := tail m hm
      rw [e]; exact w0
    · refine ⟨20, 3, fun m hm => ?_⟩
      obtain ⟨k, e⟩ := tail m hm
      rw [e]; exact w1
  · obtain ⟨k, e⟩ := tail 20 (by omega)
    rw [e]
    show 2 < s.n
    omega
  · intro m
    obtain ⟨k, e⟩ := tail (max m 20) (by omega)
    cases hr : ((thenTicks h q).st m).result 2 with
    | none => rfl
    | some x =>
      have := (fair_later (E := thenTicks h q) (show m ≤ max m 20 by omega) 2).2.2.2.2.1 (by rw [hr]; simp)
      rw [hr, e] at this
      rw [show s.result 2 = some x from this] at r2
      cases r2

end Verif.Props
