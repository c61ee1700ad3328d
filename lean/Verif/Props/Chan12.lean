import Verif.Props.Chan11

/-!
# C163: a request in the queue of a callee waits for at most two methods
-/

namespace Verif.Props

open Verif Verif.Chan

/-- Time passes only when the goroutines of the package and the callers have done what they can: only methods take time,
and the decisions of goroutines to make calls. -/
def Eager (T : Nat → Target) (acts : List Act) : Prop :=
  AllSteps (State.step T) (State.init T) acts (fun s a => a = .tick → ∀ b, Runs b → s.step T b = none)

/-- No method takes longer than `D` nanoseconds. -/
def Within (T : Nat → Target) (D : Nat) (acts : List Act) : Prop :=
  ∀ pre s c j t0 d, pre <+: acts → run (State.step T) (State.init T) pre = some s → s.handler c = .running j →
    s.startedAt j = some (t0, d) → s.clock ≤ t0 + D

theorem eager_sharp {T : Nat → Target} {acts : List Act} (h : Eager T acts) : Sharp T acts := by
  refine ⟨fun pre a post t he ht e c i b hb => h pre a post t he ht e b ?_,
    fun pre a post t he ht e c => h pre a post t he ht e _ trivial⟩
  cases hb <;> trivial

/-- The condition on the steps: also methods are short in the state before and after. -/
def okStepD (T : Nat → Target) (D : Nat) (s : State) (a : Act) : Prop :=
  okStep T s a ∧ (a = .tick → ∀ b, Runs b → s.step T b = none) ∧
  (∀ c j t0 d, s.handler c = .running j → s.startedAt j = some (t0, d) → s.clock ≤ t0 + D) ∧
  (∀ t, s.step T a = some t → ∀ c j t0 d, t.handler c = .running j → t.startedAt j = some (t0, d) → t.clock ≤ t0 + D)

theorem okStepD_all {T : Nat → Target} {D : Nat} {acts : List Act} (u : Unshared T acts) (p : Eager T acts)
    (w : Within T D acts) : AllSteps (State.step T) (State.init T) acts (okStepD T D) := by
  intro pre a post t he ht
  refine ⟨okStep_all u (eager_sharp p) pre a post t he ht, p pre a post t he ht, ?_, ?_⟩
  · intro c j t0 d
    exact w pre t c j t0 d ⟨a :: post, he.symm⟩ ht
  · intro v hv c j t0 d
    refine w (pre ++ [a]) v c j t0 d ⟨post, by rw [he]; simp⟩ ?_
    rw [run_append, ht]
    simp [run, hv]

/-- When time passes, a callee that has something to do runs a method. -/
theorem eager_running {T : Nat → Target} {s : State} (I : AllInv s) (hd : s.dead = false)
    (q : ∀ b, Runs b → s.step T b = none) (c : Nat) (hq : s.queue c ≠ [] ∨ (s.handler c).busy ≠ none) :
    ∃ j, s.handler c = .running j := by
  have go : ∀ i, s.done i = true → s.result i = none → False := by
    intro i h1 h2
    obtain ⟨b, f, g⟩ := settled_goes T I hd i h1 h2
    exact g (q b (by cases f <;> trivial))
  have locked : ∀ i, s.lock i = true → False := by
    intro i hl
    have hdone : s.done i = true := by
      rcases I.ans.locked i hl with e | e
      · exact (I.ans.lockT i e).1
      · exact (I.ans.lockH _ i e).1
    cases e : s.result i with
    | none => exact go i hdone e
    | some x =>
      obtain ⟨j, b⟩ := x
      have := I.own.own i j b e
      subst this
      have := (I.ans.result _ _ _ e).2.2.1
      rw [hl] at this; cases this
  cases e : s.handler c with
  | running j => exact ⟨j, rfl⟩
  | idle =>
    exfalso
    rcases hq with hq | hq
    · cases e2 : s.queue c with
      | nil => exact hq e2
      | cons i rest =>
        have := q (.start c) trivial
        cases e3 : (T c).invoke (s.req i).meth (s.req i).args <;> simp [State.step, hd, e, e2, e3] at this
    · rw [e] at hq; exact hq rfl
  | returned i r =>
    exfalso
    have := q (.settleH c) trivial
    cases hl : s.lock i with
    | true => exact locked i hl
    | false => cases hdn : s.done i <;> simp [State.step, hd, e, hl, hdn] at this
  | sending i r => exact (locked i (I.ans.lockH c i (by rw [e]; rfl)).2.1).elim

/-- A started call that has not returned while time passes: its method is running. -/
theorem eager_open {T : Nat → Target} {s : State} (I : AllInv s) (H : HeldInv s) (hd : s.dead = false)
    (q : ∀ b, Runs b → s.step T b = none) (i : Nat) (hs : s.startedAt i ≠ none) (hr : s.result i = none)
    (L : s.ret i = none → s.handler (s.req i).callee = .running i) : s.handler (s.req i).callee = .running i := by
  cases e : s.ret i with
  | none => exact L e
  | some r =>
    exfalso
    cases hdone : s.done i with
    | true =>
      obtain ⟨b, f, g⟩ := settled_goes T I hd i hdone hr
      exact g (q b (by cases f <;> trivial))
    | false =>
      have hh := H.held i r e hdone
      obtain ⟨j, hj⟩ := eager_running I hd q (s.req i).callee (.inr (by rw [hh]; simp [Handler.busy]))
      rw [hh] at hj; cases hj

/-- A method that has been started and has not returned is running. -/
def RunningInv (s : State) : Prop :=
  s.dead = false → ∀ i, s.startedAt i ≠ none → s.ret i = none → s.handler (s.req i).callee = .running i

set_option maxHeartbeats 4000000 in
theorem runningInv_step (T : Nat → Target) (s : State) (a : Act) (t : State) (A : AnsInv s) (I : RunningInv s)
    (h : s.step T a = some t) : RunningInv t := by
  have q := A.inQueue
  have b := A.inHandler
  have f := A.fresh
  unfold State.step at h
  split at h
  · cases h
  rename_i hd
  have hd : s.dead = false := by simpa using hd
  have I := I hd
  cases a <;> simp only at h <;> (repeat' split at h) <;> cases h <;> intro _ <;>
    (try simp only [upd]) <;> grind [Handler.busy]

/-- Methods were started in the past. -/
theorem started_past (T : Nat → Target) {acts : List Act} {s : State}
    (h : run (State.step T) (State.init T) acts = some s) (j t0 : Nat) (d : BitVec 32)
    (e : s.startedAt j = some (t0, d)) : t0 ≤ s.clock := by
  refine run_inv (I := fun s => ∀ j t0 d, s.startedAt j = some (t0, d) → t0 ≤ s.clock) ?_ acts _ _
    (by simp [State.init]) h j t0 d e
  intro s a t I h
  unfold State.step at h
  split at h
  · cases h
  cases a <;> simp only at h <;> (repeat' split at h) <;> cases h <;> (try simp only [upd]) <;> grind

/-- While the request `i` waits in the queue of callee `c`, or after its start; `dl` is the time by which it is started. -/
structure InLine (c i dl D : Nat) (s : State) : Prop where
  all : AllInv s
  held : HeldInv s
  track : TrackInv s
  where' : (∃ t0 d, s.startedAt i = some (t0, d) ∧ t0 ≤ dl) ∨ s.dead = true ∧ s.startedAt i = none ∨
    ∃ p, (s.queue c)[p]? = some i ∧ p ≤ 1 ∧
      ((∃ j t0 d, s.handler c = .running j ∧ s.startedAt j = some (t0, d) ∧ t0 + D + p * D ≤ dl) ∨
        (∀ j, s.handler c ≠ .running j) ∧ s.clock + p * D ≤ dl)

theorem waits_step (T : Nat → Target) (c i dl D : Nat) (s : State) (a : Act) (t : State) (ok : okStepD T D s a)
    (W : InLine c i dl D s) (h : s.step T a = some t) : InLine c i dl D t := by
  obtain ⟨I, H, K, w⟩ := W
  obtain ⟨ok1, ok2, ok3, ok4⟩ := ok
  have hd := step_alive h
  refine ⟨allInv_step T s a t ok1.1 I h, heldInv_step T s a t I.ans H h, trackInv_step T s a t I.ans I.recd K h, ?_⟩
  rcases w with ⟨t0, d, e1, e2⟩ | ⟨e, -⟩ | ⟨p, hp, hp1, w⟩
  · exact .inl ⟨t0, d, (start_keeps I.ans I.recd h i).1 _ e1, e2⟩
  · rw [hd] at e; cases e
  have hne : s.queue c ≠ [] := by intro e; rw [e] at hp; cases hp
  have keepS : ∀ j x, s.startedAt j = some x → t.startedAt j = some x := fun j => (start_keeps I.ans I.recd h j).1
  cases a with
  | tick =>
    obtain ⟨j, hj⟩ := eager_running I hd (ok2 rfl) c (.inl hne)
    rcases w with ⟨j', t0, d, e1, e2, e3⟩ | ⟨e, -⟩
    · unfold State.step at h
      rw [if_neg (by simp [hd])] at h
      cases h
      exact .inr (.inr ⟨p, hp, hp1, .inl ⟨j', t0, d, e1, e2, e3⟩⟩)
    · exact absurd hj (e j)
  | start c' =>
    unfold State.step at h
    rw [if_neg (by simp [hd])] at h
    simp only at h
    split at h
    swap
    · cases h
    rename_i k rest hidle hqueue
    have hnot := (I.ans.unstarted i (I.ans.inQueue c i (List.mem_of_getElem? hp)).2.2.1).2
    have hcall := (I.ans.inQueue c i (List.mem_of_getElem? hp)).1
    have hkc := (I.ans.inQueue c' k (by rw [hqueue]; exact List.mem_cons_self ..)).1
    by_cases ec : c' = c
    · subst ec
      have hw : s.clock + p * D ≤ dl := by
        rcases w with ⟨j', t0, d, e1, -⟩ | ⟨-, e⟩
        · rw [hidle] at e1; cases e1
        · exact e
      rw [hqueue] at hp
      match p, hp1 with
      | 0, _ =>
        simp only [List.getElem?_cons_zero, Option.some.injEq] at hp
        subst hp
        left
        refine ⟨s.clock, s.timeoutOf c' (s.req k).meth, ?_, by omega⟩
        split at h <;> cases h <;> simp
      | 1, _ =>
        simp only [List.getElem?_cons_succ] at hp
        have hik : i ≠ k := by
          rintro rfl
          have := I.ans.queueNodup c'
          rw [hqueue] at this
          exact (List.nodup_cons.mp this).1 (List.mem_of_getElem? hp)
        split at h
        · cases h
          refine .inr (.inr ⟨0, by simpa using hp, by omega, .inl ⟨k, s.clock, s.timeoutOf c' (s.req k).meth, ?_, ?_, by omega⟩⟩)
          · simp
          · simp
        · cases h
          refine .inr (.inr ⟨0, by simpa using hp, by omega, .inr ⟨by simp, ?_⟩⟩)
          simp only
          omega
        · cases h
          exact .inr (.inl ⟨rfl, by simp only [upd_other _ _ hik]; exact hnot⟩)
    · have ec' : c ≠ c' := fun e => ec e.symm
      have hik : i ≠ k := by
        rintro rfl
        exact ec' (hcall.symm.trans hkc)
      rcases w with ⟨j', t0, d, e1, e2, e3⟩ | ⟨e, e4⟩
      · have e5 := keepS j' _ e2
        split at h <;> cases h
        · exact .inr (.inr ⟨p, by simpa [upd_other _ _ ec'] using hp, hp1, .inl ⟨j', t0, d, by simpa [upd_other _ _ ec'] using e1, e5, e3⟩⟩)
        · exact .inr (.inr ⟨p, by simpa [upd_other _ _ ec'] using hp, hp1, .inl ⟨j', t0, d, by simpa [upd_other _ _ ec'] using e1, e5, e3⟩⟩)
        · exact .inr (.inl ⟨rfl, by simp only [upd_other _ _ hik]; exact hnot⟩)
      · split at h <;> cases h
        · exact .inr (.inr ⟨p, by simpa [upd_other _ _ ec'] using hp, hp1, .inr ⟨by simpa [upd_other _ _ ec'] using e, e4⟩⟩)
        · exact .inr (.inr ⟨p, by simpa [upd_other _ _ ec'] using hp, hp1, .inr ⟨by simpa [upd_other _ _ ec'] using e, e4⟩⟩)
        · exact .inr (.inl ⟨rfl, by simp only [upd_other _ _ hik]; exact hnot⟩)
  | ret c' res =>
    unfold State.step at h
    rw [if_neg (by simp [hd])] at h
    simp only at h
    repeat' split at h
    all_goals cases h
    rename_i k hk hwait
    refine .inr (.inr ⟨p, hp, hp1, ?_⟩)
    by_cases ec : c' = c
    · subst ec
      rcases w with ⟨j', t0, d, e1, e2, e3⟩ | ⟨e, e4⟩
      · right
        have := ok3 c' j' t0 d e1 e2
        refine ⟨by simp, ?_⟩
        simp only
        omega
      · exact absurd hk (e k)
    · have ec' : c ≠ c' := fun e => ec e.symm
      rcases w with ⟨j', t0, d, e1, e2, e3⟩ | ⟨e, e4⟩
      · exact .inl ⟨j', t0, d, by simpa [upd_other _ _ ec'] using e1, e2, e3⟩
      · exact .inr ⟨by simpa [upd_other _ _ ec'] using e, e4⟩
  | push k =>
    unfold State.step at h
    rw [if_neg (by simp [hd])] at h
    simp only at h
    split at h
    swap
    · cases h
    cases h
    refine .inr (.inr ⟨p, ?_, hp1, w⟩)
    by_cases ec : c = (s.req k).callee
    · subst ec
      simp only [upd_same]
      rw [List.getElem?_append_left (by
        refine Nat.lt_of_not_le fun hge => ?_
        rw [List.getElem?_eq_none hge] at hp; cases hp)]
      exact hp
    · simp only [upd_other _ _ ec]
      exact hp
  | settleH c' =>
    have same : t.queue = s.queue ∧ t.startedAt = s.startedAt ∧ t.clock = s.clock ∧
        ∀ j, t.handler c = .running j ↔ s.handler c = .running j := by
      unfold State.step at h
      rw [if_neg (by simp [hd])] at h
      simp only at h
      repeat' split at h
      all_goals cases h
      all_goals refine ⟨rfl, rfl, rfl, fun j => ?_⟩
      all_goals simp only [upd]
      all_goals split
      all_goals simp_all
    obtain ⟨e1, e2, e3, e4⟩ := same
    refine .inr (.inr ⟨p, by rw [e1]; exact hp, hp1, ?_⟩)
    rw [e2, e3]
    simp only [e4, ne_eq]
    exact w
  | deliverH c' =>
    have same : t.queue = s.queue ∧ t.startedAt = s.startedAt ∧ t.clock = s.clock ∧
        ∀ j, t.handler c = .running j ↔ s.handler c = .running j := by
      unfold State.step at h
      rw [if_neg (by simp [hd])] at h
      simp only at h
      repeat' split at h
      all_goals cases h
      all_goals refine ⟨rfl, rfl, rfl, fun j => ?_⟩
      all_goals simp only [upd]
      all_goals split
      all_goals simp_all
    obtain ⟨e1, e2, e3, e4⟩ := same
    refine .inr (.inr ⟨p, by rw [e1]; exact hp, hp1, ?_⟩)
    rw [e2, e3]
    simp only [e4, ne_eq]
    exact w
  | _ =>
    have same : t.queue = s.queue ∧ t.startedAt = s.startedAt ∧ t.clock = s.clock ∧ t.handler = s.handler := by
      unfold State.step at h
      rw [if_neg (by simp [hd])] at h
      simp only at h
      repeat' split at h
      all_goals cases h
      all_goals exact ⟨rfl, rfl, rfl, rfl⟩
    obtain ⟨e1, e2, e3, e4⟩ := same
    refine .inr (.inr ⟨p, by rw [e1]; exact hp, hp1, ?_⟩)
    rw [e2, e3, e4]
    exact w

/-- **C163, the start.**  Callers are not shared, only methods take time, and none takes longer than `D`.  A request that
has entered the queue of its callee by the time `s1.clock` is started no later than `2 * D` after it: it waits for at most
two methods. -/
theorem C163_started (T : Nat → Target) (D : Nat) (pre post : List Act) (s1 s : State) (u : Unshared T (pre ++ post))
    (p : Eager T (pre ++ post)) (w : Within T D (pre ++ post))
    (h1 : run (State.step T) (State.init T) pre = some s1)
    (h : run (State.step T) (State.init T) (pre ++ post) = some s) (i : Nat) (hp : s1.pushed i = true) :
    (∀ t0 d, s.startedAt i = some (t0, d) → t0 ≤ s1.clock + 2 * D) ∧
    (s.dead = false → s1.clock + 2 * D < s.clock → s.startedAt i ≠ none) := by
  have ok := okStepD_all u p w
  have okpre : AllSteps (State.step T) (State.init T) pre (okStepD T D) :=
    fun q a v t he ht => ok q a (v ++ post) t (by rw [he]; simp) ht
  have okpost : AllSteps (State.step T) s1 post (okStepD T D) :=
    fun q a v t he ht => ok (pre ++ q) a v t (by rw [he]; simp) (by rw [run_append, h1]; exact ht)
  obtain ⟨I, H⟩ := sharp_inv (fun q a v t he ht => (okpre q a v t he ht).1) h1
  have K := (trackInv_run T h1).2.2
  have past : ∀ (j t0 : Nat) (d : BitVec 32), s1.startedAt j = some (t0, d) → t0 ≤ s1.clock :=
    fun j t0 d => started_past T h1 j t0 d
  have W : InLine (s1.req i).callee i (s1.clock + 2 * D) D s1 := by
    refine ⟨I, H, K, ?_⟩
    cases e : s1.startedAt i with
    | some x => exact .inl ⟨x.1, x.2, rfl, by have := past i x.1 x.2 e; omega⟩
    | none =>
      cases hd : s1.dead with
      | true => exact .inr (.inl ⟨rfl, rfl⟩)
      | false =>
        right; right
        have hq := (timerInv_run T h1).queued hd i hp ((K.begun i).mpr e)
        obtain ⟨k, hk⟩ := List.getElem?_of_mem hq
        have hlen : (s1.queue (s1.req i).callee).length ≤ cQueue :=
          run_inv (I := fun s => ∀ c, (s.queue c).length ≤ cQueue) (fun _ _ _ I h => fair_length I h) _ _ _
            (fun _ => Nat.zero_le _) h1 _
        have hk1 : k ≤ 1 := by
          refine Nat.le_of_not_lt fun hgt => ?_
          rw [List.getElem?_eq_none (by simp only [cQueue] at hlen; omega)] at hk
          cases hk
        have hkD : k * D ≤ D := by
          match k, hk1 with
          | 0, _ => omega
          | 1, _ => omega
        refine ⟨k, hk, hk1, ?_⟩
        cases hh : s1.handler (s1.req i).callee with
        | running j =>
          left
          cases ej : s1.startedAt j with
          | none => exact absurd ((K.begun j).mpr ej) (I.ans.inHandler _ j (by rw [hh]; rfl)).2.2
          | some x =>
            have := past j x.1 x.2 ej
            exact ⟨j, x.1, x.2, rfl, ej, by omega⟩
        | idle => right; exact ⟨by simp, by omega⟩
        | returned j r => right; exact ⟨by simp, by omega⟩
        | sending j r => right; exact ⟨by simp, by omega⟩
  have hrun := h
  rw [run_append, h1] at hrun
  have Ws := run_inv_steps (I := InLine (s1.req i).callee i (s1.clock + 2 * D) D) (ok := okStepD T D)
    (fun s a t ok I h => waits_step T _ i _ D s a t ok I h) post _ _ okpost W hrun
  have bounded : ∀ c j t0 d, s.handler c = .running j → s.startedAt j = some (t0, d) → s.clock ≤ t0 + D :=
    fun c j t0 d => w (pre ++ post) s c j t0 d ⟨[], by simp⟩ h
  refine ⟨?_, ?_⟩
  · intro t0 d e
    rcases Ws.where' with ⟨t0', d', e1, e2⟩ | e1 | ⟨k, hk, -⟩
    · rw [e] at e1; cases e1; exact e2
    · rw [e1.2] at e; cases e
    · have hm := List.mem_of_getElem? hk
      have := (Ws.all.ans.unstarted i (Ws.all.ans.inQueue _ i hm).2.2.1).2
      rw [e] at this; cases this
  · intro hd hlt e
    rcases Ws.where' with ⟨t0', d', e1, e2⟩ | e1 | ⟨k, hk, -, h3⟩
    · rw [e] at e1; cases e1
    · rw [hd] at e1; cases e1.1
    · rcases h3 with ⟨j, t0, d, e1, e2, e3⟩ | ⟨-, e3⟩
      · have := bounded _ _ _ _ e1 e2
        have : 0 ≤ k * D := Nat.zero_le _
        omega
      · have : 0 ≤ k * D := Nat.zero_le _
        omega

/-- What holds of a started call, when only methods take time. -/
structure Unreturned (D : Nat) (s : State) : Prop where
  all : AllInv s
  held : HeldInv s
  running : RunningInv s
  soon : ∀ i t0 d, s.dead = false → s.startedAt i = some (t0, d) → s.result i = none → s.clock ≤ t0 + D

theorem open_step (T : Nat → Target) (D : Nat) (s : State) (a : Act) (t : State) (ok : okStepD T D s a)
    (O : Unreturned D s) (h : s.step T a = some t) : Unreturned D t := by
  obtain ⟨I, H, R, o⟩ := O
  obtain ⟨ok1, ok2, ok3, ok4⟩ := ok
  have hd := step_alive h
  refine ⟨allInv_step T s a t ok1.1 I h, heldInv_step T s a t I.ans H h, runningInv_step T s a t I.ans R h, ?_⟩
  intro i t0 d hdt e1 e2
  have e2' : s.result i = none := by
    cases e : s.result i with
    | none => rfl
    | some x => have := (fair_keeps h i).2.2.2.2.1 (by rw [e]; simp); rw [e2, e] at this; cases this
  cases a with
  | tick =>
    have e1' : s.startedAt i = some (t0, d) := by
      unfold State.step at h
      rw [if_neg (by simp [hd])] at h
      cases h
      exact e1
    have hr := eager_open I H hd (ok2 rfl) i (by rw [e1']; simp) e2' (R hd i (by rw [e1']; simp))
    refine ok4 t h (s.req i).callee i t0 d ?_ e1
    unfold State.step at h
    rw [if_neg (by simp [hd])] at h
    cases h
    exact hr
  | start c =>
    have hclk : t.clock = s.clock := by
      unfold State.step at h
      split at h
      · cases h
      simp only at h
      repeat' split at h
      all_goals cases h
      all_goals rfl
    cases e : s.startedAt i with
    | some x =>
      have := (start_keeps I.ans I.recd h i).1 _ e
      rw [e1] at this
      cases this
      rw [hclk]
      exact o i t0 d hd e e2'
    | none =>
      have : t0 = s.clock := by
        unfold State.step at h
        split at h
        · cases h
        simp only at h
        repeat' split at h
        all_goals cases h
        all_goals (simp only [upd] at e1; grind)
      rw [hclk, this]
      exact Nat.le_add_right _ _
  | _ =>
    have same : t.startedAt = s.startedAt ∧ t.clock = s.clock := by
      unfold State.step at h
      split at h
      · cases h
      simp only at h
      repeat' split at h
      all_goals cases h
      all_goals exact ⟨rfl, rfl⟩
    rw [same.2]
    exact o i t0 d hd (by rw [← same.1]; exact e1) e2'

/-- **C163, the return.**  The call returns no later than `3 * D` after its request has entered the queue, and, if the
timeout is shorter than the method, no later than `2 * D` and the timeout. -/
theorem C163_returned (T : Nat → Target) (D : Nat) (pre post : List Act) (s1 s : State) (u : Unshared T (pre ++ post))
    (p : Eager T (pre ++ post)) (w : Within T D (pre ++ post))
    (h1 : run (State.step T) (State.init T) pre = some s1)
    (h : run (State.step T) (State.init T) (pre ++ post) = some s) (i : Nat) (hp : s1.pushed i = true)
    (alive : s.dead = false) (hr : s.result i = none) :
    s.clock ≤ s1.clock + 3 * D ∧
      ∀ t0 d, s.startedAt i = some (t0, d) → s.clock ≤ s1.clock + 2 * D + sleepTime d := by
  have st := C163_started T D pre post s1 s u p w h1 h i hp
  have O := run_inv_steps (I := Unreturned D) (ok := okStepD T D) (fun s a t ok I h => open_step T D s a t ok I h) _ _ _
    (okStepD_all u p w) ⟨allInv_init T, by constructor <;> simp [State.init], by intro _; simp [State.init],
      by simp [State.init]⟩ h
  refine ⟨?_, ?_⟩
  · refine Nat.le_of_not_lt fun hlt => ?_
    cases e : s.startedAt i with
    | none => exact st.2 alive (by omega) e
    | some x =>
      have h2 := st.1 x.1 x.2 e
      have h3 := O.soon i x.1 x.2 alive e hr
      omega
  · intro t0 d e
    have h2 := st.1 t0 d e
    have h3 := C40_bounded_after_start_partial T _ s u (eager_sharp p).1 h i t0 d e hr
    omega

/-- Three calls of one method by three goroutines; each method takes one nanosecond, and the third request waits for the
first and the second method. -/
def waitRun : List Act := [.call 0 0 [97] [] none, .push 0, .start 0, .call 0 1 [97] [] none, .push 1,
  .call 0 2 [97] [] none, .push 2, .tick,
  .ret 0 [.nil], .settleH 0, .deliverH 0, .receive 0, .start 0, .tick,
  .ret 0 [.nil], .settleH 0, .deliverH 0, .receive 1, .start 0, .tick,
  .ret 0 [.nil], .settleH 0, .deliverH 0, .receive 2, .tick]

/-- The durations of the methods of a run, over its prefixes. -/
theorem within_of {T : Nat → Target} {D : Nat} {acts : List Act}
    (h : ∀ n, n ≤ acts.length → ∀ s, run (State.step T) (State.init T) (acts.take n) = some s → ∀ c j t0 d,
      s.handler c = .running j → s.startedAt j = some (t0, d) → s.clock ≤ t0 + D) : Within T D acts := by
  intro pre s c j t0 d hp hs
  obtain ⟨v, rfl⟩ := hp
  exact h pre.length (by simp) s (by simpa using hs) c j t0 d

set_option maxHeartbeats 4000000 in
/-- The bounds are met: the third request enters the queue at the time 0, is started at the time 2, and the call has not
returned when the clock shows 3. -/
theorem waitRun_ok : Unshared demo waitRun ∧ Eager demo waitRun ∧ Within demo 1 waitRun ∧
    ((run (State.step demo) (State.init demo) (waitRun.take 7)).map fun s => (s.pushed 2, s.clock)) = some (true, 0) ∧
    ((run (State.step demo) (State.init demo) (waitRun.take 20)).map fun s => (s.startedAt 2, s.result 2, s.clock)) =
      some (some (2, cDefaultTimeout), none, 3) ∧
    ((run (State.step demo) (State.init demo) waitRun).map fun s => (s.result 2, s.clock)) =
      some (some (2, .ok (some [.nil])), 4) := by
  refine ⟨?_, ?_, ?_, rfl, rfl, rfl⟩
  · refine allSteps_cons (by intro _ _ _ _ _ e j hj; exact absurd hj (Nat.not_lt_zero _)) rfl ?_
    iterate 2 refine allSteps_cons (by intro _ _ _ _ _ e; cases e) rfl ?_
    refine allSteps_cons ?_ rfl ?_
    · intro _ _ _ _ _ e j hj
      cases e
      match j, hj with
      | 0, _ => intro e; cases e
    refine allSteps_cons (by intro _ _ _ _ _ e; cases e) rfl ?_
    refine allSteps_cons ?_ rfl ?_
    · intro _ _ _ _ _ e j hj
      cases e
      match j, hj with
      | 0, _ => intro e; cases e
      | 1, _ => intro e; cases e
    iterate 19 refine allSteps_cons (by intro _ _ _ _ _ e; cases e) rfl ?_
    exact allSteps_nil
  · iterate 7 refine allSteps_cons (by intro e; cases e) rfl ?_
    refine allSteps_cons ?_ rfl ?_
    · intro _ b hb
      cases b <;> cases hb <;> rename_i i <;> (match i with | 0 => rfl | 1 => rfl | 2 => rfl | i + 3 => rfl)
    iterate 5 refine allSteps_cons (by intro e; cases e) rfl ?_
    refine allSteps_cons ?_ rfl ?_
    · intro _ b hb
      cases b <;> cases hb <;> rename_i i <;> (match i with | 0 => rfl | 1 => rfl | 2 => rfl | i + 3 => rfl)
    iterate 5 refine allSteps_cons (by intro e; cases e) rfl ?_
    refine allSteps_cons ?_ rfl ?_
    · intro _ b hb
      cases b <;> cases hb <;> rename_i i <;> (match i with | 0 => rfl | 1 => rfl | 2 => rfl | i + 3 => rfl)
    iterate 4 refine allSteps_cons (by intro e; cases e) rfl ?_
    refine allSteps_cons ?_ rfl allSteps_nil
    · intro _ b hb
      cases b <;> cases hb <;> rename_i i <;> (match i with | 0 => rfl | 1 => rfl | 2 => rfl | i + 3 => rfl)
  · refine within_of fun n hn s hs c j t0 d h1 h2 => ?_
    have short : ∀ n : Fin 26, ((run (State.step demo) (State.init demo) (waitRun.take n.1)).map fun s =>
        match s.handler 0 with
        | .running j => match s.startedAt j with
          | some (t0, _) => decide (s.clock ≤ t0 + 1)
          | none => true
        | _ => true) = some true := by decide +kernel
    have one : ∀ n : Fin 26, ∀ c, ((run (State.step demo) (State.init demo) (waitRun.take n.1)).map fun s =>
        (s.handler (c + 1)).busy) = some none := by
      intro n c
      match n with
      | ⟨0, _⟩ | ⟨1, _⟩ | ⟨2, _⟩ | ⟨3, _⟩ | ⟨4, _⟩ | ⟨5, _⟩ | ⟨6, _⟩ | ⟨7, _⟩ | ⟨8, _⟩ | ⟨9, _⟩ | ⟨10, _⟩ | ⟨11, _⟩
      | ⟨12, _⟩ | ⟨13, _⟩ | ⟨14, _⟩ | ⟨15, _⟩ | ⟨16, _⟩ | ⟨17, _⟩ | ⟨18, _⟩ | ⟨19, _⟩ | ⟨20, _⟩ | ⟨21, _⟩ | ⟨22, _⟩
      | ⟨23, _⟩ | ⟨24, _⟩ | ⟨25, _⟩ => rfl
      | ⟨n + 26, h⟩ => exact absurd h (by omega)
    have hlt : n < 26 := Nat.lt_succ_of_le hn
    match c with
    | 0 =>
      have := short ⟨n, hlt⟩
      simp only [hs, Option.map_some, h1, h2, Option.some.injEq, decide_eq_true_eq] at this
      exact this
    | c + 1 =>
      have := one ⟨n, hlt⟩ c
      simp only [hs, Option.map_some, h1, Option.some.injEq, Handler.busy] at this
      cases this

/-- Where the clock shows 3 the third call has not returned, which is the latest time that the theorem allows. -/
example : ∃ pre post s1 s, Unshared demo (pre ++ post) ∧ Eager demo (pre ++ post) ∧ Within demo 1 (pre ++ post) ∧
    run (State.step demo) (State.init demo) pre = some s1 ∧ s1.pushed 2 = true ∧ s1.clock = 0 ∧
    run (State.step demo) (State.init demo) (pre ++ post) = some s ∧ s.clock = 4 ∧ s.dead = false ∧
    s.result 2 = some (2, .ok (some [.nil])) := by
  obtain ⟨u, e, w, -⟩ := waitRun_ok
  exact ⟨waitRun.take 7, waitRun.drop 7, _, _, u, e, w, rfl, rfl, rfl, rfl, rfl, rfl, rfl⟩

end Verif.Props
