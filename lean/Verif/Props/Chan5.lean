import Verif.Props.Chan2

/-!
# C115: which calls among features can return
-/

namespace Verif.Props

open Verif Verif.Chan

/-- The method that callee `c` is running waits for a call on callee `d` whose method has not been started. -/
def Blocks (s : State) (c d : Nat) : Prop :=
  ∃ i j, s.handler c = .running i ∧ s.waits i = some j ∧ s.startedAt j = none ∧ (s.req j).callee = d

/-! ## Timers and queues -/

/-- Started requests have a timer, the other ones that have been pushed are in the queue. -/
structure TimerInv (s : State) : Prop where
  iff : ∀ i, s.timer i = .none ↔ s.startedAt i = none
  queued : s.dead = false → ∀ i, s.pushed i = true → s.timer i = .none → i ∈ s.queue (s.req i).callee

set_option maxHeartbeats 4000000 in
theorem timerInv_step (T : Nat → Target) (s : State) (a : Act) (t : State) (A : AnsInv s) (I : TimerInv s)
    (h : s.step T a = some t) : TimerInv t := by
  obtain ⟨h1, h2⟩ := I
  have hd : s.dead = false := by
    cases e : s.dead with
    | false => rfl
    | true => simp [State.step, e] at h
  have h2 := h2 hd
  have f := A.fresh
  have q := A.inQueue
  unfold State.step at h
  split at h
  · cases h
  cases a with
  | call callee caller meth args parent =>
    simp only at h
    repeat' split at h
    all_goals cases h
    all_goals (constructor <;> simp only [upd] <;> grind)
  | receive i =>
    simp only at h
    repeat' split at h
    all_goals cases h
    all_goals (constructor <;> simp only [upd] <;> grind)
  | start c =>
    simp only at h
    repeat' split at h
    all_goals cases h
    all_goals (constructor <;> simp only [upd] <;> grind)
  | _ =>
    simp only at h
    repeat' split at h
    all_goals cases h
    all_goals (constructor <;> (try simp only [upd]) <;> grind)

theorem timerInv_init (T : Nat → Target) : TimerInv (State.init T) := by
  constructor <;> simp [State.init]

theorem timerInv_run (T : Nat → Target) {acts : List Act} {s : State}
    (h : run (State.step T) (State.init T) acts = some s) : TimerInv s :=
  (run_inv (I := fun s => AnsInv s ∧ TimerInv s)
    (fun s a t I h => ⟨ansInv_step T s a t I.1 h, timerInv_step T s a t I.1 I.2 h⟩) acts _ _
    ⟨ansInv_init T, timerInv_init T⟩ h).2

/-! ## Circles -/

/-- The method of `i` is running on callee `c` and waits for the call `j` to callee `d`, not yet started. -/
structure Waiting (c i j d : Nat) (s : State) : Prop where
  running : s.handler c = .running i
  waits : s.waits i = some j
  callee : (s.req j).callee = d
  timer : s.timer j = .none

set_option maxHeartbeats 4000000 in
theorem waiting_step (T : Nat → Target) (c i j d : Nat) (s : State) (a : Act) (t : State)
    (I : AllInv s) (K : Waiting c i j d s) (hd : ∃ k, s.handler d = .running k) (h : s.step T a = some t) :
    Waiting c i j d t ∧ t.log c = s.log c := by
  obtain ⟨k1, k2, k3, k4⟩ := K
  obtain ⟨k, hd⟩ := hd
  obtain ⟨w1, w2, w3⟩ := I.live.waits j i k2
  have hi : i < s.n := I.live.parent j i w1 w2
  have hc : (s.req i).callee = c := (I.ans.inHandler c i (by rw [k1]; rfl)).1
  have hdone := (I.ans.unstarted j k4).1
  have q : ∀ c' k, k ∈ s.queue c' → (s.req k).callee = c' := fun c' k hk => (I.ans.inQueue c' k hk).1
  have child := I.live.child
  unfold State.step at h
  split at h
  · cases h
  cases a with
  | call callee caller meth args parent =>
    have hm : ∀ p, s.mayCall p → s.waits p = none := fun p h => h.2
    simp only at h
    repeat' split at h
    all_goals cases h
    all_goals (refine ⟨?_, ?_⟩; (constructor <;> simp only [upd] <;> grind); simp)
  | receive k =>
    have hk : k = j → s.chan (s.req k).caller = none := by
      rintro rfl
      cases e : s.chan (s.req k).caller with
      | none => rfl
      | some x =>
        have h1 := (I.ans.chan _ x.1 x.2 e).1
        rw [chan_own I w1 w3 (j := x.1) (a := x.2) e, hdone] at h1
        cases h1
    simp only at h
    repeat' split at h
    all_goals cases h
    all_goals (refine ⟨?_, ?_⟩; (constructor <;> simp only [upd] <;> grind); simp)
  | start e =>
    simp only at h
    repeat' split at h
    all_goals cases h
    all_goals (refine ⟨?_, ?_⟩; (constructor <;> simp only [upd] <;> grind); simp only [upd]; grind)
  | _ =>
    simp only at h
    repeat' split at h
    all_goals cases h
    all_goals (refine ⟨?_, ?_⟩; (constructor <;> (try simp only [upd]) <;> grind); (first | rfl | (simp only [upd]; grind)))

/-- Every callee of the set runs a method that waits for a call on a callee of the set, not yet started. -/
def Closed (S : Nat → Prop) (s : State) : Prop := ∀ c, S c → ∃ i j d, S d ∧ Waiting c i j d s

/-- Requests are started only by idle callees. -/
theorem started_step {T : Nat → Target} {s t : State} {a : Act} (A : AnsInv s) (h : s.step T a = some t) (i : Nat)
    (h1 : s.startedAt i = none) (h2 : t.startedAt i ≠ none) : s.handler (t.req i).callee = .idle := by
  unfold State.step at h
  split at h
  · cases h
  cases a with
  | start c =>
    simp only at h
    split at h
    · rename_i k rest hi hq
      have hk := (A.inQueue c k (by rw [hq]; exact List.mem_cons_self ..)).1
      split at h
      all_goals
        cases h
        by_cases e : i = k
        · subst e; simp only; rw [hk]; exact hi
        · simp only [upd_other _ _ e] at h2; exact absurd h1 h2
    · cases h
  | _ =>
    simp only at h
    repeat' split at h
    all_goals cases h
    all_goals exact absurd h1 h2

theorem closed_step (T : Nat → Target) (S : Nat → Prop) (s : State) (a : Act) (t : State) (I : AllInv s)
    (K : Closed S s) (h : s.step T a = some t) :
    Closed S t ∧ (∀ c, S c → t.handler c = s.handler c ∧ t.log c = s.log c) ∧
      ∀ i, S (t.req i).callee → s.startedAt i = none → t.startedAt i = none := by
  have key : ∀ c, S c → ∃ i j d, S d ∧ Waiting c i j d s ∧ Waiting c i j d t ∧ t.log c = s.log c := by
    intro c hc
    obtain ⟨i, j, d, hd, w⟩ := K c hc
    obtain ⟨i', j', d', -, w'⟩ := K d hd
    obtain ⟨g1, g2⟩ := waiting_step T c i j d s a t I w ⟨_, w'.running⟩ h
    exact ⟨i, j, d, hd, w, g1, g2⟩
  refine ⟨fun c hc => ?_, fun c hc => ?_, fun i hi h1 => ?_⟩
  · obtain ⟨i, j, d, h1, -, h2, -⟩ := key c hc
    exact ⟨i, j, d, h1, h2⟩
  · obtain ⟨i, j, d, -, h1, h2, h3⟩ := key c hc
    exact ⟨by rw [h1.running, h2.running], h3⟩
  · refine Classical.byContradiction fun h2 => ?_
    have := started_step I.ans h i h1 h2
    obtain ⟨i', j, d, -, w⟩ := K _ hi
    rw [w.running] at this
    cases this

/-- **C115, first half.**  Suppose every callee of a set runs a method that waits for a call on a callee of the set whose
method has not been started (features that call one another in a circle, or one that calls itself).  Then, however the
execution goes on (callers not shared), these callees do nothing any more, and no call on one of them that has not been
started is ever started or returns; this includes the calls made later. -/
theorem C115_circle (T : Nat → Target) (acts more : List Act) (s t : State) (u : Unshared T (acts ++ more))
    (h : run (State.step T) (State.init T) acts = some s) (h' : run (State.step T) s more = some t)
    (S : Nat → Prop) (hS : ∀ c, S c → ∃ d, S d ∧ Blocks s c d) :
    (∀ c, S c → t.handler c = s.handler c ∧ t.log c = s.log c) ∧
    ∀ i, S (t.req i).callee → s.startedAt i = none → t.startedAt i = none ∧ t.result i = none := by
  have u1 : Unshared T acts := fun pre a post v he hv => u pre a (post ++ more) v (by simp [he]) hv
  have u2 : AllSteps (State.step T) s more (fun s a => ∀ callee caller meth args parent,
      a = .call callee caller meth args parent → ∀ j, j < s.n → (s.req j).caller = caller → s.result j ≠ none) :=
    fun pre a post v he hv => u (acts ++ pre) a post v (by simp [he]) (by rw [run_append, h]; exact hv)
  have I := allInv_run T u1 h
  have Ti := timerInv_run T h
  have K : Closed S s := by
    intro c hc
    obtain ⟨d, hd, i, j, h1, h2, h3, h4⟩ := hS c hc
    exact ⟨i, j, d, hd, h1, h2, h4, (Ti.iff j).mpr h3⟩
  have key : AllInv t ∧ Closed S t ∧ (∀ c, S c → t.handler c = s.handler c ∧ t.log c = s.log c) ∧
      ∀ i, S (t.req i).callee → s.startedAt i = none → t.startedAt i = none := by
    refine run_inv_steps (I := fun t => AllInv t ∧ Closed S t ∧ (∀ c, S c → t.handler c = s.handler c ∧ t.log c = s.log c) ∧
      ∀ i, S (t.req i).callee → s.startedAt i = none → t.startedAt i = none) ?_ more s t u2
      ⟨I, K, fun _ _ => ⟨rfl, rfl⟩, fun _ _ h => h⟩ h'
    rintro v a w ok ⟨J, L, M, N⟩ hst
    obtain ⟨g1, g2, g3⟩ := closed_step T S v a w J L hst
    refine ⟨allInv_step T v a w ok J hst, g1, fun c hc => ⟨(g2 c hc).1.trans (M c hc).1, (g2 c hc).2.trans (M c hc).2⟩, ?_⟩
    intro i hi h0
    refine g3 i hi ?_
    by_cases e : i < v.n
    · refine N i ?_ h0
      have : w.req i = v.req i := by
        unfold State.step at hst
        split at hst
        · cases hst
        cases a with
        | call callee caller meth args parent =>
          simp only at hst
          repeat' split at hst
          all_goals cases hst
          all_goals exact upd_other _ _ (by omega)
        | _ =>
          simp only at hst
          repeat' split at hst
          all_goals cases hst
          all_goals rfl
      rw [← this]; exact hi
    · exact (J.ans.fresh i (Nat.le_of_not_lt e)).2.2.2.2.2.1
  refine ⟨key.2.2.1, fun i hi h0 => ⟨key.2.2.2 i hi h0, ?_⟩⟩
  cases e : t.result i with
  | none => rfl
  | some x =>
    exfalso
    obtain ⟨j, a⟩ := x
    have hj := key.1.own.own i j a e
    subst hj
    have hd := (key.1.ans.result _ _ _ e).1
    have Tt : TimerInv t := timerInv_run T (acts := acts ++ more) (by rw [run_append, h]; exact h')
    have := (key.1.ans.unstarted j ((Tt.iff j).mpr (key.2.2.2 j hi h0))).1
    rw [hd] at this; cases this

/-! ## No circles -/

/-- An action that is not a call; methods in `B` do not return. -/
def Allowed (B : Nat → Prop) (s : State) (a : Act) : Prop :=
  (∀ callee caller meth args parent, a ≠ .call callee caller meth args parent) ∧
  ∀ c res i, a = .ret c res → s.handler c = .running i → ¬ B i

/-- `t` can be reached from `s` by such actions. -/
inductive Goes (T : Nat → Target) (B : Nat → Prop) : State → State → Prop where
  | refl (s : State) : Goes T B s s
  | step {s t u : State} (a : Act) : Allowed B s a → s.step T a = some t → Goes T B t u → Goes T B s u

theorem Goes.trans {T : Nat → Target} {B : Nat → Prop} {s t u : State} (h : Goes T B s t) (h' : Goes T B t u) :
    Goes T B s u := by
  induction h with
  | refl s => exact h'
  | step a ha hs _ ih => exact .step a ha hs (ih h')

theorem Goes.one {T : Nat → Target} {B : Nat → Prop} {s t : State} (a : Act) (ha : Allowed B s a)
    (h : s.step T a = some t) : Goes T B s t := .step a ha h (.refl t)

/-- The state is sound, no request waiting to be started will panic, and methods in `B` have been started. -/
structure Fine (T : Nat → Target) (B : Nat → Prop) (s : State) : Prop where
  inv : AllInv s
  tim : TimerInv s
  alive : s.dead = false
  panics : ∀ i, i < s.n → s.startedAt i = none → (T (s.req i).callee).invoke (s.req i).meth (s.req i).args ≠ .panics
  begun : ∀ i, B i → s.startedAt i ≠ none

/-- What a step other than a call leaves as it is. -/
theorem keeps_step {T : Nat → Target} {s t : State} {a : Act}
    (ha : ∀ callee caller meth args parent, a ≠ .call callee caller meth args parent) (h : s.step T a = some t) :
    t.n = s.n ∧ t.req = s.req ∧ (∀ p q, t.waits p = some q → s.waits p = some q) ∧
      (∀ i, s.startedAt i ≠ none → t.startedAt i ≠ none) ∧ (∀ i, s.result i ≠ none → t.result i ≠ none) := by
  unfold State.step at h
  split at h
  · cases h
  cases a with
  | call callee caller meth args parent => exact absurd rfl (ha _ _ _ _ _)
  | receive i =>
    simp only at h
    repeat' split at h
    all_goals cases h
    all_goals
      refine ⟨rfl, rfl, ?_, fun _ h => h, ?_⟩
      · intro p q e
        first
          | exact e
          | (simp only [upd] at e; split at e; cases e; exact e)
      · intro j hj
        simp only [upd]
        split
        · simp
        · exact hj
  | start c =>
    simp only at h
    repeat' split at h
    all_goals cases h
    all_goals
      refine ⟨rfl, rfl, fun _ _ h => h, ?_, fun _ h => h⟩
      intro j hj
      simp only [upd]
      split
      · simp
      · exact hj
  | _ =>
    simp only at h
    repeat' split at h
    all_goals cases h
    all_goals exact ⟨rfl, rfl, fun _ _ h => h, fun _ h => h, fun _ h => h⟩

theorem alive_step {T : Nat → Target} {B : Nat → Prop} {s t : State} {a : Act} (F : Fine T B s) (h : s.step T a = some t) :
    t.dead = false := by
  have hd := F.alive
  unfold State.step at h
  rw [if_neg (by simp [hd])] at h
  cases a with
  | start c =>
    simp only at h
    split at h
    · rename_i i rest hi hq
      have hm := F.inv.ans.inQueue c i (by rw [hq]; exact List.mem_cons_self ..)
      have hn : i < s.n := by
        refine Nat.lt_of_not_le fun hge => ?_
        have := (F.inv.ans.fresh i hge).1
        rw [hm.2.1] at this; cases this
      have hp := F.panics i hn ((F.tim.iff i).mp hm.2.2.1)
      rw [hm.1] at hp
      split at h
      · cases h; exact hd
      · cases h; exact hd
      · rename_i e; exact absurd e hp
    · cases h
  | _ =>
    simp only at h
    repeat' split at h
    all_goals cases h
    all_goals exact hd

theorem fine_step {T : Nat → Target} {B : Nat → Prop} {s t : State} {a : Act} (F : Fine T B s) (ha : Allowed B s a)
    (h : s.step T a = some t) : Fine T B t := by
  obtain ⟨k1, k2, k3, k4, k5⟩ := keeps_step ha.1 h
  refine ⟨allInv_step T s a t (fun _ _ _ _ _ e => absurd e (ha.1 _ _ _ _ _)) F.inv h, timerInv_step T s a t F.inv.ans F.tim h,
    alive_step F h, ?_, fun i hi => k4 i (F.begun i hi)⟩
  rw [k1, k2]
  intro i hi h0
  refine F.panics i hi ?_
  refine Classical.byContradiction fun e => k4 i e h0

theorem Goes.fine {T : Nat → Target} {B : Nat → Prop} {s t : State} (h : Goes T B s t) (F : Fine T B s) : Fine T B t := by
  induction h with
  | refl s => exact F
  | step a ha hs _ ih => exact ih (fine_step F ha hs)

theorem Goes.keeps {T : Nat → Target} {B : Nat → Prop} {s t : State} (h : Goes T B s t) :
    t.n = s.n ∧ t.req = s.req ∧ (∀ p q, t.waits p = some q → s.waits p = some q) ∧
      (∀ i, s.startedAt i ≠ none → t.startedAt i ≠ none) ∧ (∀ i, s.result i ≠ none → t.result i ≠ none) := by
  induction h with
  | refl s => exact ⟨rfl, rfl, fun _ _ h => h, fun _ h => h, fun _ h => h⟩
  | step a ha hs _ ih =>
    obtain ⟨k1, k2, k3, k4, k5⟩ := keeps_step ha.1 hs
    obtain ⟨l1, l2, l3, l4, l5⟩ := ih
    exact ⟨l1.trans k1, l2.trans k2, fun p q e => k3 p q (l3 p q e), fun i e => l4 i (k4 i e), fun i e => l5 i (k5 i e)⟩

/-- What callee `c` is running can return. -/
def Free (B : Nat → Prop) (s : State) (c : Nat) : Prop := ∀ i, s.handler c = .running i → s.waits i = none ∧ ¬ B i

theorem caller_empty {s : State} (I : AllInv s) {i : Nat} (hn : i < s.n) (hl : s.lock i = true) :
    s.chan (s.req i).caller = none ∧ s.result i = none := by
  have hr : s.result i = none := by
    cases e : s.result i with
    | none => rfl
    | some x =>
      have := I.own.own i x.1 x.2 e
      have h2 := (I.ans.result i x.1 x.2 e).2.2.1
      rw [this, hl] at h2; cases h2
  refine ⟨?_, hr⟩
  cases e : s.chan (s.req i).caller with
  | none => rfl
  | some x =>
    have h1 := chan_own I hn hr (j := x.1) (a := x.2) e
    have h2 := (I.ans.chan _ x.1 x.2 e).2.2
    rw [h1, hl] at h2; cases h2

theorem started_lt {s : State} (I : AllInv s) {c i : Nat} (h : (s.handler c).busy = some i) : i < s.n := by
  refine Nat.lt_of_not_le fun hge => ?_
  have := (I.ans.inHandler c i h).2.1
  rw [(I.ans.fresh i hge).1] at this; cases this

/-- The handler sends its answer. -/
theorem idle_sending {T : Nat → Target} {B : Nat → Prop} {s : State} (F : Fine T B s) {c i : Nat}
    {res : Option (List Codec.Val)} (h : s.handler c = .sending i res) :
    ∃ t, Goes T B s t ∧ t.handler c = .idle ∧ t.queue = s.queue ∧ t.pushed = s.pushed := by
  have hn := started_lt F.inv (c := c) (i := i) (by rw [h]; rfl)
  have hl := (F.inv.ans.lockH c i (by rw [h]; rfl)).2.1
  have hc := (caller_empty F.inv hn hl).1
  have st : s.step T (.deliverH c) = some { s with
      handler := upd s.handler c .idle, lock := upd s.lock i false
      chan := upd s.chan (s.req i).caller (some (i, .ok res)) } := by simp [State.step, F.alive, h, hc]
  exact ⟨_, .one _ ⟨by intros; simp, by intro _ _ _ e; cases e⟩ st, upd_same .., rfl, rfl⟩

theorem idle_returned {T : Nat → Target} {B : Nat → Prop} {s : State} (F : Fine T B s) {c i : Nat}
    {res : Option (List Codec.Val)} (h : s.handler c = .returned i res) :
    ∃ t, Goes T B s t ∧ t.handler c = .idle ∧ t.queue = s.queue ∧ t.pushed = s.pushed := by
  have settle : ∀ s : State, Fine T B s → s.handler c = .returned i res → s.lock i = false →
      ∃ t, Goes T B s t ∧ t.handler c = .idle ∧ t.queue = s.queue ∧ t.pushed = s.pushed := by
    intro s F h hl
    by_cases hdone : s.done i = true
    · have st : s.step T (.settleH c) = some { s with handler := upd s.handler c .idle } := by
        simp [State.step, F.alive, h, hl, hdone]
      exact ⟨_, .one _ ⟨by intros; simp, by intro _ _ _ e; cases e⟩ st, upd_same .., rfl, rfl⟩
    · have st : s.step T (.settleH c) = some { s with
          handler := upd s.handler c (.sending i res), done := upd s.done i true, lock := upd s.lock i true
          answers := s.answers ++ [(i, .ok res, s.clock)] } := by
        simp [State.step, F.alive, h, hl, hdone]
      have al : Allowed B s (.settleH c) := ⟨by intros; simp, by intro _ _ _ e; cases e⟩
      obtain ⟨t, g, h1, h2, h3⟩ := idle_sending (fine_step F al st) (c := c) (i := i) (res := res) (upd_same ..)
      exact ⟨t, .step _ al st g, h1, h2, h3⟩
  by_cases hl : s.lock i = true
  · have hn := started_lt F.inv (c := c) (i := i) (by rw [h]; rfl)
    have hcal := (F.inv.ans.inHandler c i (by rw [h]; rfl)).1
    have ht : s.timer i = .sending := by
      rcases F.inv.ans.locked i hl with e | e
      · exact e
      · rw [hcal, h] at e; cases e
    have hc := (caller_empty F.inv hn hl).1
    have st : s.step T (.deliverT i) = some { s with
        timer := upd s.timer i .over, lock := upd s.lock i false
        chan := upd s.chan (s.req i).caller (some (i, .timeout)) } := by simp [State.step, F.alive, ht, hc]
    have al : Allowed B s (.deliverT i) := ⟨by intros; simp, by intro _ _ _ e; cases e⟩
    obtain ⟨t, g, h1, h2, h3⟩ := settle _ (fine_step F al st) h (upd_same ..)
    exact ⟨t, .step _ al st g, h1, h2, h3⟩
  · exact settle s F h (by simpa using hl)

/-- A free callee can become idle. -/
theorem idle_again {T : Nat → Target} {B : Nat → Prop} {s : State} (F : Fine T B s) {c : Nat} (hf : Free B s c) :
    ∃ t, Goes T B s t ∧ t.handler c = .idle ∧ t.queue = s.queue ∧ t.pushed = s.pushed := by
  cases h : s.handler c with
  | idle => exact ⟨s, .refl s, h, rfl, rfl⟩
  | sending i res => exact idle_sending F h
  | returned i res => exact idle_returned F h
  | running i =>
    obtain ⟨h1, h2⟩ := hf i h
    have st : s.step T (.ret c []) = some { s with
        handler := upd s.handler c (.returned i (some [])), ret := upd s.ret i (some (some []))
        log := upd s.log c (s.log c ++ [HEv.finished i]) } := by simp [State.step, F.alive, h, h1]
    have al : Allowed B s (.ret c []) := by
      refine ⟨by intros; simp, ?_⟩
      intro c' res i' e e'
      cases e
      rw [h] at e'
      cases e'
      exact h2
    obtain ⟨t, g, h1, h2, h3⟩ := idle_returned (fine_step F al st) (c := c) (i := i) (res := some []) (upd_same ..)
    exact ⟨t, .step _ al st g, h1, h2, h3⟩

/-- A request whose method has just returned and that has not been answered gets this answer. -/
theorem answer_returned {T : Nat → Target} {B : Nat → Prop} {s : State} (F : Fine T B s) {c i : Nat}
    {res : Option (List Codec.Val)} (h : s.handler c = .returned i res) (hdone : s.done i = false) :
    ∃ t, Goes T B s t ∧ t.handler c = .idle ∧ t.queue = s.queue ∧ t.pushed = s.pushed ∧ t.result i = some (i, .ok res) := by
  have hn := started_lt F.inv (c := c) (i := i) (by rw [h]; rfl)
  have hcal := F.inv.ans.inHandler c i (by rw [h]; rfl)
  have hl : s.lock i = false := by
    cases e : s.lock i with
    | false => rfl
    | true =>
      rcases F.inv.ans.locked i e with h' | h'
      · have := (F.inv.ans.lockT i h').1; rw [hdone] at this; cases this
      · rw [hcal.1, h] at h'; cases h'
  have st : s.step T (.settleH c) = some { s with
      handler := upd s.handler c (.sending i res), done := upd s.done i true, lock := upd s.lock i true
      answers := s.answers ++ [(i, .ok res, s.clock)] } := by
    simp [State.step, F.alive, h, hl, hdone]
  have al : Allowed B s (.settleH c) := ⟨by intros; simp, by intro _ _ _ e; cases e⟩
  have F1 := fine_step F al st
  have hc1 := caller_empty F1.inv (i := i) hn (upd_same ..)
  generalize hs1 : ({ s with
      handler := upd s.handler c (.sending i res), done := upd s.done i true, lock := upd s.lock i true
      answers := s.answers ++ [(i, .ok res, s.clock)] } : State) = s1 at st F1 hc1
  have e1 : s1.handler c = .sending i res := by rw [← hs1]; exact upd_same ..
  have st2 : s1.step T (.deliverH c) = some { s1 with
      handler := upd s1.handler c .idle, lock := upd s1.lock i false
      chan := upd s1.chan (s1.req i).caller (some (i, .ok res)) } := by simp [State.step, F1.alive, e1, hc1.1]
  have al2 : Allowed B s1 (.deliverH c) := ⟨by intros; simp, by intro _ _ _ e; cases e⟩
  have F2 := fine_step F1 al2 st2
  generalize hs2 : ({ s1 with
      handler := upd s1.handler c .idle, lock := upd s1.lock i false
      chan := upd s1.chan (s1.req i).caller (some (i, .ok res)) } : State) = s2 at st2 F2
  have r2 : s2.result i = none := by rw [← hs2]; exact hc1.2
  have c2 : s2.chan (s2.req i).caller = some (i, .ok res) := by rw [← hs2]; exact upd_same ..
  have n2 : i < s2.n ∧ s2.pushed i = true := by rw [← hs2, ← hs1]; exact ⟨hn, hcal.2.1⟩
  have st3 : s2.step T (.receive i) = some { s2 with
      result := upd s2.result i (some (i, .ok res)), chan := upd s2.chan (s2.req i).caller none
      waits := match (s2.req i).parent with
        | some p => upd s2.waits p none
        | none => s2.waits } := by simp [State.step, F2.alive, r2, c2, n2]; rfl
  have al3 : Allowed B s2 (.receive i) := ⟨by intros; simp, by intro _ _ _ e; cases e⟩
  refine ⟨_, .step _ al st (.step _ al2 st2 (.one _ al3 st3)), ?_, ?_, ?_, upd_same ..⟩
  · rw [← hs2]; exact upd_same ..
  · rw [← hs2, ← hs1]
  · rw [← hs2, ← hs1]

/-- An idle callee can treat the next request: its call returns any result the method may have. -/
theorem serve_next {T : Nat → Target} {B : Nat → Prop} {s : State} (F : Fine T B s) {c i : Nat} {rest : List Nat}
    (h : s.handler c = .idle) (hq : s.queue c = i :: rest) (res : List Codec.Val) :
    ∃ t, Goes T B s t ∧ t.handler c = .idle ∧ t.queue c = rest ∧ t.pushed = s.pushed ∧
      t.result i = some (i, .ok (if (T c).known (s.req i).meth then some res else none)) := by
  have hm := F.inv.ans.inQueue c i (by rw [hq]; exact List.mem_cons_self ..)
  have hn : i < s.n := by
    refine Nat.lt_of_not_le fun hge => ?_
    have := (F.inv.ans.fresh i hge).1
    rw [hm.2.1] at this; cases this
  have hp := F.panics i hn ((F.tim.iff i).mp hm.2.2.1)
  rw [hm.1] at hp
  have hw : s.waits i = none := by
    cases e : s.waits i with
    | none => rfl
    | some j =>
      have := F.inv.live.waiting j i e
      rw [hm.1, h] at this; cases this
  have hb : ¬ B i := fun e => F.begun i e ((F.tim.iff i).mp hm.2.2.1)
  have al : Allowed B s (.start c) := ⟨by intros; simp, by intro _ _ _ e; cases e⟩
  by_cases hk : (T c).known (s.req i).meth = true
  · have hinv : (T c).invoke (s.req i).meth (s.req i).args = .runs := by
      unfold Target.invoke at hp ⊢
      rw [if_pos hk] at hp ⊢
      split
      · rename_i e; rw [if_pos e] at hp; exact absurd rfl hp
      · rfl
    have st : s.step T (.start c) = some { s with
        queue := upd s.queue c rest
        timer := upd s.timer i (.sleeping (s.clock + sleepTime (s.timeoutOf c (s.req i).meth)))
        startedAt := upd s.startedAt i (some (s.clock, s.timeoutOf c (s.req i).meth))
        log := upd s.log c (s.log c ++ [HEv.started i]), handler := upd s.handler c (.running i) } := by
      simp [State.step, F.alive, h, hq, hinv]
    have F1 := fine_step F al st
    generalize hs1 : ({ s with
        queue := upd s.queue c rest
        timer := upd s.timer i (.sleeping (s.clock + sleepTime (s.timeoutOf c (s.req i).meth)))
        startedAt := upd s.startedAt i (some (s.clock, s.timeoutOf c (s.req i).meth))
        log := upd s.log c (s.log c ++ [HEv.started i]), handler := upd s.handler c (.running i) } : State) = s1 at st F1
    have e1 : s1.handler c = .running i := by rw [← hs1]; exact upd_same ..
    have w1 : s1.waits i = none := by rw [← hs1]; exact hw
    have st2 : s1.step T (.ret c res) = some { s1 with
        handler := upd s1.handler c (.returned i (some res)), ret := upd s1.ret i (some (some res))
        log := upd s1.log c (s1.log c ++ [HEv.finished i]) } := by simp [State.step, F1.alive, e1, w1]
    have al2 : Allowed B s1 (.ret c res) := by
      refine ⟨by intros; simp, ?_⟩
      intro c' res i' e e'
      cases e
      rw [e1] at e'
      cases e'
      exact hb
    obtain ⟨t, g, h1, h2, h3, h4⟩ := answer_returned (fine_step F1 al2 st2) (c := c) (i := i) (res := some res) (upd_same ..)
      (by rw [← hs1]; exact hm.2.2.2)
    refine ⟨t, .step _ al st (.step _ al2 st2 g), h1, ?_, ?_, ?_⟩
    · rw [h2, ← hs1]; exact upd_same ..
    · rw [h3, ← hs1]
    · rw [if_pos hk]; exact h4
  · have hinv : (T c).invoke (s.req i).meth (s.req i).args = .unknown := by
      unfold Target.invoke
      rw [if_neg hk]
    have st : s.step T (.start c) = some { s with
        queue := upd s.queue c rest
        timer := upd s.timer i (.sleeping (s.clock + sleepTime (s.timeoutOf c (s.req i).meth)))
        startedAt := upd s.startedAt i (some (s.clock, s.timeoutOf c (s.req i).meth))
        handler := upd s.handler c (.returned i none), ret := upd s.ret i (some none)
        log := upd (upd s.log c (s.log c ++ [HEv.started i])) c (upd s.log c (s.log c ++ [HEv.started i]) c ++ [HEv.finished i]) } := by
      simp [State.step, F.alive, h, hq, hinv]
    obtain ⟨t, g, h1, h2, h3, h4⟩ := answer_returned (fine_step F al st) (c := c) (i := i) (res := none) (upd_same ..)
      hm.2.2.2
    refine ⟨t, .step _ al st g, h1, ?_, h3, ?_⟩
    · rw [h2]; exact upd_same ..
    · rw [if_neg hk]; exact h4

theorem drain {T : Nat → Target} {B : Nat → Prop} (c : Nat) (q rest : List Nat) : ∀ s : State, Fine T B s →
    s.handler c = .idle → s.queue c = q ++ rest →
    ∃ t, Goes T B s t ∧ t.handler c = .idle ∧ t.queue c = rest ∧ t.pushed = s.pushed := by
  induction q with
  | nil => intro s F h hq; exact ⟨s, .refl s, h, hq, rfl⟩
  | cons i q ih =>
    intro s F h hq
    obtain ⟨t, g, h1, h2, h3, -⟩ := serve_next F h hq []
    obtain ⟨u, g', k1, k2, k3⟩ := ih t (g.fine F) h1 h2
    exact ⟨u, g.trans g', k1, k2, k3.trans h3⟩

/-- A call on a free callee that has not been started can return any result its method may have. -/
theorem serve_call {T : Nat → Target} {B : Nat → Prop} {s : State} (F : Fine T B s) {i : Nat} (hn : i < s.n)
    (hf : Free B s (s.req i).callee) (h0 : s.startedAt i = none) (res : List Codec.Val) :
    ∃ t, Goes T B s t ∧
      t.result i = some (i, .ok (if (T (s.req i).callee).known (s.req i).meth then some res else none)) := by
  obtain ⟨t, g, h1, h2, h3⟩ := idle_again F hf
  have Ft := g.fine F
  have kt := g.keeps
  by_cases hp : s.pushed i = true
  · have hm := F.tim.queued F.alive i hp ((F.tim.iff i).mpr h0)
    obtain ⟨q, rest, hq⟩ := List.append_of_mem hm
    obtain ⟨u, g', k1, k2, k3⟩ := drain (s.req i).callee q (i :: rest) t Ft h1 (by rw [h2]; exact hq)
    obtain ⟨v, g'', -, -, -, l4⟩ := serve_next (g'.fine Ft) k1 k2 res
    refine ⟨v, g.trans (g'.trans g''), ?_⟩
    rw [(g'.keeps).2.1, kt.2.1] at l4
    exact l4
  · have hp : s.pushed i = false := by simpa using hp
    obtain ⟨u, g', k1, k2, k3⟩ := drain (s.req i).callee (t.queue (s.req i).callee) [] t Ft h1 (List.append_nil _).symm
    have Fu := g'.fine Ft
    have ku := g'.keeps
    have er : u.req = s.req := ku.2.1.trans kt.2.1
    have st : u.step T (.push i) = some { u with
        pushed := upd u.pushed i true, queue := upd u.queue (u.req i).callee (u.queue (u.req i).callee ++ [i])
        entered := upd u.entered (u.req i).callee (u.entered (u.req i).callee ++ [i]) } := by
      have e1 : u.pushed i = false := by rw [k3, h3]; exact hp
      have e2 : u.queue (u.req i).callee = [] := by rw [er]; exact k2
      simp only [State.step, Fu.alive]
      rw [if_neg (by simp), if_pos ⟨by rw [ku.1, kt.1]; exact hn, e1, by rw [e2]; decide⟩]
    have al : Allowed B u (.push i) := ⟨by intros; simp, by intro _ _ _ e; cases e⟩
    obtain ⟨v, g'', -, -, -, l4⟩ := serve_next (rest := []) (fine_step Fu al st) (c := (s.req i).callee) (i := i) k1
      (by simp only; rw [er, upd_same, k2]; rfl) res
    refine ⟨v, g.trans (g'.trans (.step _ al st g'')), ?_⟩
    simp only [er] at l4
    exact l4

theorem Goes.of_run {T : Nat → Target} {B : Nat → Prop} : ∀ (more : List Act) (s t : State), run (State.step T) s more = some t →
    (∀ a ∈ more, ∀ s, Allowed B s a) → Goes T B s t := by
  intro more
  induction more with
  | nil => intro s t h _; cases h; exact .refl _
  | cons a more ih =>
    intro s t h hall
    simp only [run] at h
    split at h
    · cases h
    · rename_i u hu
      exact .step a (hall a (List.mem_cons_self ..) s) hu (ih u t h fun b hb => hall b (List.mem_cons_of_mem _ hb))

/-- A call that has been started can return. -/
theorem finish_call {T : Nat → Target} {B : Nat → Prop} {s : State} (F : Fine T B s) {i : Nat}
    (h0 : s.startedAt i ≠ none) : ∃ t, Goes T B s t ∧ t.result i ≠ none := by
  by_cases hr : s.result i = none
  · cases e : s.startedAt i with
    | none => exact absurd e h0
    | some x =>
      obtain ⟨t0, d⟩ := x
      obtain ⟨more, t, h1, h2, h3, h4⟩ := finish T _ { s with clock := s.clock + (t0 + sleepTime d) }
        (allInv_clock F.inv _) F.alive i t0 d e hr (Nat.le_add_left _ _) (Nat.le_refl _)
      refine ⟨t, .of_run (List.replicate (t0 + sleepTime d) .tick ++ more) _ _ ?_ ?_, h4⟩
      · rw [run_append, ticks T _ s F.alive]; exact h2
      · intro a ha s
        rcases List.mem_append.mp ha with ha | ha
        · rw [(List.mem_replicate.mp ha).2]
          exact ⟨by intros; simp, by intro _ _ _ e; cases e⟩
        · have := h1 a ha
          refine ⟨?_, ?_⟩
          · rintro _ _ _ _ _ rfl; cases this
          · rintro _ _ _ rfl; cases this
  · exact ⟨s, .refl s, hr⟩

/-- A method that was started before and is not running does not run again. -/
theorem once_step {T : Nat → Target} {B : Nat → Prop} {s t : State} {a : Act} (F : Fine T B s) (h : s.step T a = some t)
    {c k : Nat} (hs : s.startedAt k ≠ none) (hr : s.handler c ≠ .running k) : t.handler c ≠ .running k := by
  unfold State.step at h
  split at h
  · cases h
  cases a with
  | start d =>
    simp only at h
    split at h
    · rename_i i rest hi hq
      have hm := F.inv.ans.inQueue d i (by rw [hq]; exact List.mem_cons_self ..)
      have h0 := (F.tim.iff i).mp hm.2.2.1
      split at h
      · cases h
        simp only [upd]; split
        · intro e; injection e with e; subst e; exact hs h0
        · exact hr
      · cases h
        simp only [upd]; split
        · simp
        · exact hr
      · cases h; exact hr
    · cases h
  | _ =>
    simp only at h
    repeat' split at h
    all_goals cases h
    all_goals first
      | exact hr
      | (simp only [upd]; split
         · simp
         · exact hr)

theorem goes_running {T : Nat → Target} {B : Nat → Prop} {s t : State} (g : Goes T B s t) (F : Fine T B s)
    {c k : Nat} (hs : s.startedAt k ≠ none) (hr : s.handler c ≠ .running k) : t.handler c ≠ .running k := by
  induction g with
  | refl s => exact hr
  | step a ha h _ ih =>
    exact ih (fine_step F ha h) ((keeps_step ha.1 h).2.2.2.1 k hs) (once_step F h hs hr)

/-- Following the calls that the running methods wait for, beginning with callee `c`, ends at a callee that does not
wait for a call that has not been started; none of the methods met on the way is in `B`. -/
inductive Ends (B : Nat → Prop) (s : State) : Nat → Prop where
  | intro (c : Nat) : (∀ i, s.handler c = .running i → ¬ B i) → (∀ d, Blocks s c d → Ends B s d) → Ends B s c

theorem freed {T : Nat → Target} {B : Nat → Prop} {s : State} (F : Fine T B s) {c : Nat} (h : Ends B s c) :
    ∃ t, Goes T B s t ∧ Free B t c := by
  induction h with
  | intro c hb _ ih =>
    by_cases hf : Free B s c
    · exact ⟨s, .refl s, hf⟩
    · have : ∃ i j, s.handler c = .running i ∧ s.waits i = some j := by
        refine Classical.byContradiction fun hno => hf fun i hi => ⟨?_, hb i hi⟩
        cases e : s.waits i with
        | none => rfl
        | some j => exact absurd ⟨i, j, hi, e⟩ hno
      obtain ⟨i, j, hi, hj⟩ := this
      have w := F.inv.live.waits j i hj
      have hc : (s.req i).callee = c := (F.inv.ans.inHandler c i (by rw [hi]; rfl)).1
      have claim : ∃ t, Goes T B s t ∧ t.result j ≠ none := by
        by_cases h0 : s.startedAt j = none
        · obtain ⟨t, g, hft⟩ := ih _ ⟨i, j, hi, hj, h0, rfl⟩
          have kt := g.keeps
          by_cases h1 : t.startedAt j = none
          · obtain ⟨u, g', hu⟩ := serve_call (g.fine F) (i := j) (by rw [kt.1]; exact w.1) (by rw [kt.2.1]; exact hft) h1 []
            exact ⟨u, g.trans g', by rw [hu]; simp⟩
          · obtain ⟨u, g', hu⟩ := finish_call (g.fine F) h1
            exact ⟨u, g.trans g', hu⟩
        · exact finish_call F h0
      obtain ⟨t, g, hr⟩ := claim
      have Ft := g.fine F
      have kt := g.keeps
      refine ⟨t, g, fun k hk => ?_⟩
      have hkc : (s.req k).callee = c := by
        rw [← kt.2.1]; exact (Ft.inv.ans.inHandler c k (by rw [hk]; rfl)).1
      constructor
      · cases e : t.waits k with
        | none => rfl
        | some q =>
          exfalso
          have e' := kt.2.2.1 k q e
          have := F.inv.live.waiting q k e'
          rw [hkc, hi] at this
          cases this
          rw [hj] at e'
          cases e'
          exact hr (Ft.inv.live.waits j i e).2.2
      · intro hB
        -- a method in `B` had been started before; it would be the one running
        have hs := F.begun k hB
        by_cases e : s.handler c = .running k
        · exact hb k e hB
        · exact goes_running g F hs e hk

theorem Goes.to_run {T : Nat → Target} {B : Nat → Prop} {s t : State} (g : Goes T B s t) :
    ∃ more, (∀ a ∈ more, ∀ callee caller meth args parent, a ≠ .call callee caller meth args parent) ∧
      run (State.step T) s more = some t := by
  induction g with
  | refl s => exact ⟨[], fun _ h => absurd h List.not_mem_nil, rfl⟩
  | step a ha h _ ih =>
    obtain ⟨more, h1, h2⟩ := ih
    refine ⟨a :: more, ?_, by simp only [run, h]; exact h2⟩
    intro b hb
    rcases List.mem_cons.mp hb with rfl | hb
    · exact ha.1
    · exact h1 b hb

/-- No request that waits to be started has arguments that its method does not accept. -/
def Suitable (T : Nat → Target) (s : State) : Prop :=
  ∀ i, i < s.n → s.startedAt i = none → (T (s.req i).callee).invoke (s.req i).meth (s.req i).args ≠ .panics

/-- **C115, second half.**  In every reachable state (callers not shared, process alive, arguments suitable): when the
chain of waiting that begins at the callee of a call ends, the call can return, without any further call being made.  If
its method has not been started, it can return whatever result the method may have. -/
theorem C115_returns (T : Nat → Target) (acts : List Act) (s : State) (u : Unshared T acts)
    (h : run (State.step T) (State.init T) acts = some s) (hd : s.dead = false) (hp : Suitable T s)
    (i : Nat) (hn : i < s.n) (he : Ends (fun _ => False) s (s.req i).callee) :
    (∃ more t, (∀ a ∈ more, ∀ callee caller meth args parent, a ≠ .call callee caller meth args parent) ∧
      run (State.step T) s more = some t ∧ t.result i ≠ none) ∧
    (s.startedAt i = none → (¬ ∃ k j, s.handler (s.req i).callee = .running k ∧ s.waits k = some j) →
      ∀ res, ∃ more t, (∀ a ∈ more, ∀ callee caller meth args parent, a ≠ .call callee caller meth args parent) ∧
        run (State.step T) s more = some t ∧
        t.result i = some (i, .ok (if (T (s.req i).callee).known (s.req i).meth then some res else none))) := by
  have F : Fine T (fun _ => False) s := ⟨allInv_run T u h, timerInv_run T h, hd, hp, fun _ h => absurd h id⟩
  constructor
  · obtain ⟨t, g, hf⟩ := freed F he
    have kt := g.keeps
    by_cases h1 : t.startedAt i = none
    · obtain ⟨v, g', hv⟩ := serve_call (g.fine F) (i := i) (by rw [kt.1]; exact hn) (by rw [kt.2.1]; exact hf) h1 []
      obtain ⟨more, m1, m2⟩ := (g.trans g').to_run
      exact ⟨more, v, m1, m2, by rw [hv]; simp⟩
    · obtain ⟨v, g', hv⟩ := finish_call (g.fine F) h1
      obtain ⟨more, m1, m2⟩ := (g.trans g').to_run
      exact ⟨more, v, m1, m2, hv⟩
  · intro h0 hw res
    obtain ⟨t, g, ht⟩ := serve_call F hn (fun k hk => ⟨by
      cases e : s.waits k with
      | none => rfl
      | some j => exact absurd ⟨k, j, hk, e⟩ hw, id⟩) h0 res
    obtain ⟨more, m1, m2⟩ := g.to_run
    exact ⟨more, t, m1, m2, ht⟩

theorem not_ends {s : State} {c : Nat} (h : ¬ Ends (fun _ => False) s c) :
    ∃ d, ¬ Ends (fun _ => False) s d ∧ Blocks s c d :=
  Classical.byContradiction fun hno => h (.intro c (fun _ _ => id) fun d hd =>
    Classical.byContradiction fun hd' => hno ⟨d, hd', hd⟩)

theorem req_run {T : Nat → Target} (more : List Act) (s t : State) (h : run (State.step T) s more = some t)
    (i : Nat) (hn : i < s.n) : t.req i = s.req i :=
  (run_inv (I := fun t => i < t.n ∧ t.req i = s.req i) (by
    rintro v a w ⟨e1, e2⟩ hst
    unfold State.step at hst
    split at hst
    · cases hst
    cases a with
    | call callee caller meth args parent =>
      simp only at hst
      repeat' split at hst
      all_goals cases hst
      all_goals exact ⟨Nat.lt_succ_of_lt e1, (upd_other _ _ (by omega)).trans e2⟩
    | _ =>
      simp only at hst
      repeat' split at hst
      all_goals cases hst
      all_goals exact ⟨e1, e2⟩) more s t ⟨hn, rfl⟩ h).2

/-- **C115.**  In every reachable state (callers not shared, process alive, arguments suitable) a call whose method has
not been started can still return, in some continuation, if and only if the chain of waiting that begins at its callee
ends. -/
theorem C115_exact (T : Nat → Target) (acts : List Act) (s : State) (u : Unshared T acts)
    (h : run (State.step T) (State.init T) acts = some s) (hd : s.dead = false) (hp : Suitable T s)
    (i : Nat) (hn : i < s.n) (h0 : s.startedAt i = none) :
    (∃ more t, Unshared T (acts ++ more) ∧ run (State.step T) s more = some t ∧ t.result i ≠ none) ↔
      Ends (fun _ => False) s (s.req i).callee := by
  constructor
  · rintro ⟨more, t, u', h', hr⟩
    refine Classical.byContradiction fun he => ?_
    have key : t.req i = s.req i := req_run more s t h' i hn
    have := (C115_circle T acts more s t u' h h' (fun c => ¬ Ends (fun _ => False) s c) (fun c hc => not_ends hc)).2 i
      (by rw [key]; exact he) h0
    exact hr this.2
  · intro he
    obtain ⟨⟨more, t, m1, m2, m3⟩, -⟩ := C115_returns T acts s u h hd hp i hn he
    refine ⟨more, t, ?_, m2, m3⟩
    intro pre a post v hsplit hv callee caller meth args parent ea
    rcases List.append_eq_append_iff.mp hsplit with ⟨z, h1, h2⟩ | ⟨z, h1, h2⟩
    · refine absurd ea (m1 a ?_ _ _ _ _ _)
      rw [h2]; simp
    · cases z with
      | nil =>
        refine absurd ea (m1 a ?_ _ _ _ _ _)
        simp only [List.nil_append] at h2
        rw [← h2]; simp
      | cons b z =>
        simp only [List.cons_append, List.cons.injEq] at h2
        obtain ⟨rfl, rfl⟩ := h2
        exact u pre a z v h1 hv callee caller meth args parent ea

/-! ## Examples -/

/-- The caller object that a call is made on. -/
def callerOf : Act → Option Nat
  | .call _ caller _ _ _ => some caller
  | _ => none

/-- Callers are not shared when every call is made on an object of its own. -/
theorem unshared_of_nodup (T : Nat → Target) (acts : List Act) (h : (acts.filterMap callerOf).Nodup) :
    Unshared T acts := by
  have key : ∀ (as : List Act) (s t : State) (seen : List Nat), run (State.step T) s as = some t →
      (∀ j, j < s.n → (s.req j).caller ∈ seen) → ∀ j, j < t.n → (t.req j).caller ∈ seen ++ as.filterMap callerOf := by
    intro as
    induction as with
    | nil => intro s t seen h hs; cases h; simpa using hs
    | cons a as ih =>
      intro s t seen h hs
      simp only [run] at h
      split at h
      · cases h
      · rename_i v hv
        have := ih v t (seen ++ (callerOf a).toList) h (by
          unfold State.step at hv
          split at hv
          · cases hv
          cases a with
          | call callee caller meth args parent =>
            simp only at hv
            repeat' split at hv
            all_goals cases hv
            all_goals
              intro j hj
              simp only [upd]
              split
              · simp [callerOf]
              · exact List.mem_append_left _ (hs j (by simp only at hj; omega))
          | _ =>
            simp only at hv
            repeat' split at hv
            all_goals cases hv
            all_goals
              intro j hj
              exact List.mem_append_left _ (hs j hj))
        intro j hj
        have := this j hj
        rw [List.append_assoc] at this
        have e : (callerOf a).toList ++ as.filterMap callerOf = (a :: as).filterMap callerOf := by
          rw [List.filterMap_cons]
          cases callerOf a <;> rfl
        rw [e] at this
        exact this
  intro pre a post v he hv callee caller meth args parent ea j hj hc
  subst ea
  have := key pre _ v [] hv (fun j hj => absurd hj (Nat.not_lt_zero _)) j hj
  rw [he, List.filterMap_append, List.nodup_append] at h
  refine absurd rfl (h.2.2 caller (by rw [← hc]; simpa using this) caller ?_)
  rw [List.filterMap_cons]
  exact List.mem_cons_self ..

/-- Two features whose methods call each other at the same time. -/
def crossing : List Act :=
  [.call 0 0 [97] [] none, .call 1 1 [97] [] none, .push 0, .push 1, .start 0, .start 1,
    .call 1 2 [97] [] (some 0), .call 0 3 [97] [] (some 1), .push 2, .push 3]

theorem unshared_crossing : Unshared demo crossing := unshared_of_nodup _ _ (by decide)

theorem crossed : ∃ s, run (State.step demo) (State.init demo) crossing = some s ∧ s.dead = false ∧ s.n = 4 ∧
    s.handler 0 = .running 0 ∧ s.handler 1 = .running 1 ∧ s.waits 0 = some 2 ∧ s.waits 1 = some 3 ∧
    s.req 0 = ⟨0, 0, [97], [], none, 0⟩ ∧ s.req 1 = ⟨1, 1, [97], [], none, 0⟩ ∧
    s.req 2 = ⟨1, 2, [97], [], some 0, 0⟩ ∧ s.req 3 = ⟨0, 3, [97], [], some 1, 0⟩ ∧
    ∀ i, i ≠ 0 → i ≠ 1 → s.startedAt i = none :=
  ⟨_, rfl, rfl, rfl, rfl, rfl, rfl, rfl, rfl, rfl, rfl, rfl, fun _ h0 h1 => (upd_other _ _ h1).trans (upd_other _ _ h0)⟩

/-- **C115, such a circle.**  Two features that call each other at the same time wait for each other for ever, although the
process is alive and the arguments are suitable: the inner calls never return, and no later call on these features
either. -/
theorem C115_mutual :
    ∃ s, run (State.step demo) (State.init demo) crossing = some s ∧ s.dead = false ∧ Suitable demo s ∧
      Blocks s 0 1 ∧ Blocks s 1 0 ∧
      ∀ more t, Unshared demo (crossing ++ more) → run (State.step demo) s more = some t →
        t.result 2 = none ∧ t.result 3 = none ∧
        ∀ i, (t.req i).callee = 0 ∨ (t.req i).callee = 1 → i ≠ 0 → i ≠ 1 → t.result i = none := by
  obtain ⟨s, h, hd, hn, h0, h1, w0, w1, r0, r1, r2, r3, hs⟩ := crossed
  have b0 : Blocks s 0 1 := ⟨0, 2, h0, w0, hs 2 (by decide) (by decide), by rw [r2]⟩
  have b1 : Blocks s 1 0 := ⟨1, 3, h1, w1, hs 3 (by decide) (by decide), by rw [r3]⟩
  refine ⟨s, h, hd, ?_, b0, b1, ?_⟩
  · intro i hi _
    rw [hn] at hi
    match i, hi with
    | 0, _ => rw [r0]; decide
    | 1, _ => rw [r1]; decide
    | 2, _ => rw [r2]; decide
    | 3, _ => rw [r3]; decide
  · intro more t u h'
    have := (C115_circle demo crossing more _ t u h h' (fun c => c = 0 ∨ c = 1) (by
      rintro c (rfl | rfl)
      · exact ⟨1, Or.inr rfl, b0⟩
      · exact ⟨0, Or.inl rfl, b1⟩)).2
    refine ⟨(this 2 (Or.inr ?_) (hs 2 (by decide) (by decide))).2, (this 3 (Or.inl ?_) (hs 3 (by decide) (by decide))).2,
      fun i hi e0 e1 => (this i hi (hs i e0 e1)).2⟩
    · rw [req_run more _ t h' 2 (by rw [hn]; decide), r2]
    · rw [req_run more _ t h' 3 (by rw [hn]; decide), r3]

/-- In such a state the chain of waiting ends nowhere, so the hypothesis of `C115_returns` excludes it. -/
example : ∃ s, run (State.step demo) (State.init demo) crossing = some s ∧ ¬ Ends (fun _ => False) s 0 := by
  obtain ⟨s, h, -, -, h1, h2, -⟩ := C115_mutual
  refine ⟨s, h, fun e => ?_⟩
  have : ∀ c, Ends (fun _ => False) s c → c = 0 ∨ c = 1 → False := by
    intro c e
    induction e with
    | intro c _ _ ih =>
      rintro (rfl | rfl)
      · exact ih 1 h1 (Or.inr rfl)
      · exact ih 0 h2 (Or.inl rfl)
  exact this 0 e (Or.inl rfl)

/-- A chain that ends: feature 0 calls feature 1, feature 1 calls feature 2, which is idle.  Another call on feature 0 waits
in its queue. -/
def chained : List Act :=
  [.call 0 0 [97] [] none, .push 0, .start 0, .call 1 1 [97] [] (some 0), .push 1, .start 1,
    .call 2 2 [97] [] (some 1), .push 2, .call 0 3 [97] [] none, .push 3]

example : ∃ s, run (State.step demo) (State.init demo) chained = some s ∧ s.dead = false ∧ s.startedAt 3 = none ∧
    (s.req 3).callee = 0 ∧ Blocks s 1 2 ∧ Ends (fun _ => False) s 0 := by
  have : ∃ s, run (State.step demo) (State.init demo) chained = some s ∧ s.dead = false ∧ s.startedAt 3 = none ∧
    (s.req 3).callee = 0 ∧ s.handler 0 = .running 0 ∧ s.waits 0 = some 1 ∧ s.startedAt 1 = some (0, cDefaultTimeout) ∧
    s.handler 1 = .running 1 ∧ s.waits 1 = some 2 ∧ s.startedAt 2 = none ∧ (s.req 2).callee = 2 :=
    ⟨_, rfl, rfl, rfl, rfl, rfl, rfl, rfl, rfl, rfl, rfl, rfl⟩
  obtain ⟨s, h, h1, h2, h3, h4, h5, h6, h7, h8, h9, h10⟩ := this
  refine ⟨s, h, h1, h2, h3, ⟨1, 2, h7, h8, h9, h10⟩, .intro 0 (fun _ _ => id) ?_⟩
  rintro d ⟨i, j, g1, g2, g3, rfl⟩
  rw [h4] at g1
  cases g1
  rw [h5] at g2
  cases g2
  rw [h6] at g3
  cases g3

end Verif.Props
