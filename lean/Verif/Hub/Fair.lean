import Verif.Fair
import Verif.Hub.Stubs

/-!
# Fair executions of the hub

What the goroutines of the hub achieve if each of them goes on when it can.
-/

namespace Verif.Hub

open Verif Verif.Codec Verif.Proto

/-- The steps that goroutines of the hub take by themselves. -/
inductive Turn : (State → Act → Prop) → Prop where
  | work (p : Nat) : Turn fun _ a => a = .work p
  | look (q : Nat) : Turn fun _ a => a = .look q
  | examine (q : Nat) : Turn fun _ a => a = .examine q
  | respond (q : Nat) : Turn fun _ a => a = .respond q

section
variable {R : Nat → Str} {black : List Int} {s t : State} {a : Act}

/-- All the ways in which a step can happen. -/
macro "hub_cases" h:ident a:ident : tactic => `(tactic| (
  unfold State.step at $h:ident
  split at $h:ident
  · cases $h:ident
  cases $a:ident <;> simp only at $h:ident <;> (repeat' split at $h:ident) <;> cases $h:ident))

/-- How queries go on. -/
theorem query_step (h : s.step R black a = some t) (q : Nat) : t.query q = s.query q ∨
    (q = s.n ∧ ∃ p pkt, a = .recv p pkt) ∨
    (a = .look q ∧ (s.query q).phase = .top ∧ ∃ k, (s.stubs (s.query q).slot).length = k + 1 ∧
      t.query q = { s.query q with phase := .seek k }) ∨
    (a = .examine q ∧ ∃ (k : Nat) (st : Stub), (s.query q).phase = .seek k ∧ (s.stubs (s.query q).slot)[k]? = some st ∧
      t.query q = { s.query q with phase := if st.ready then .chosen k else match k with | 0 => .top | k + 1 => .seek k }) ∨
    (a = .respond q ∧ ∃ (k : Nat) (st : Stub), (s.query q).phase = .chosen k ∧ (s.stubs (s.query q).slot)[k]? = some st ∧
      t.query q = { s.query q with phase := .done st.addr } ∧
      t.log = s.log ++ [.sent (s.query q).peer (.queryResponse st.addr)]) := by
  hub_cases h a
  all_goals first
    | exact Or.inl rfl
    | skip
  all_goals simp only [upd]
  all_goals split
  all_goals first
    | exact Or.inl rfl
    | skip
  all_goals (rename_i e; subst e; simp_all)

theorem n_step (h : s.step R black a = some t) : s.n ≤ t.n := by
  hub_cases h a
  all_goals first
    | exact Nat.le_refl _
    | exact Nat.le_succ _

theorem log_step (h : s.step R black a = some t) : ∃ l, t.log = s.log ++ l := by
  hub_cases h a
  all_goals first
    | exact ⟨[], (List.append_nil _).symm⟩
    | exact ⟨_, rfl⟩

/-- A handler stays as it is unless it goes on. -/
theorem task_step (h : s.step R black a = some t) (p : Nat) : t.task p = s.task p ∨ a = .work p ∨
    (s.task p = .idle ∧ ∃ pkt, a = .recv p pkt) := by
  hub_cases h a
  all_goals first
    | exact Or.inl rfl
    | skip
  all_goals simp only [upd]
  all_goals split
  all_goals first
    | exact Or.inl rfl
    | skip
  all_goals (rename_i e; subst e; simp_all)

/-- What the handler does. -/
theorem work_step {p : Nat} (h : s.step R black (.work p) = some t) :
    match s.task p with
    | .idle => False
    | .adding addr port (_ :: rest) => t.task p = .adding addr port rest
    | .adding _ _ [] => t.task p = .idle
    | .marking (_ :: rest) => t.task p = .marking rest
    | .marking [] => t.task p = .idle := by
  unfold State.step at h
  split at h
  · cases h
  simp only at h
  repeat' split at h
  all_goals cases h
  all_goals simp_all

end

/-- A fair course of a hub that does not stop. -/
structure FairCourse (R : Nat → Str) (black : List Int) (T : Trace (State.step R black)) : Prop where
  weak : T.WeaklyFair Turn
  alive : ∀ n, (T.st n).dead = false
  reach : ∀ n, ∃ as, run (State.step R black) .init as = some (T.st n)

section
variable {R : Nat → Str} {black : List Int} {T : Trace (State.step R black)} (F : FairCourse R black T)
include F

/-- A busy handler goes on. -/
theorem FairCourse.works {n p : Nat} (h1 : (T.st n).task p ≠ .idle) :
    ∃ m, n ≤ m ∧ (T.st m).task p = (T.st n).task p ∧ (T.st m).step R black (.work p) = some (T.st (m + 1)) := by
  obtain ⟨m, a, hm, hp, ha, e⟩ := F.weak.taken (.work p) (P := fun m => (T.st m).task p = (T.st n).task p) (n := n) rfl
    (by
      intro m _ hp
      refine ⟨_, rfl, ?_⟩
      rw [← hp] at h1
      simp only [State.step, F.alive m]
      rw [if_neg (by simp)]
      split <;> simp_all)
    (by
      intro m _ hp hno
      cases e : T.act m with
      | none => rw [T.none_step e]; exact hp
      | some a =>
        rcases task_step (T.some_step e) p with h | rfl | ⟨h, _⟩
        · exact h.trans hp
        · exact absurd rfl (hno _ e)
        · exact absurd (hp.symm.trans h) h1)
  subst e
  exact ⟨m, hm, hp, T.some_step ha⟩

/-- Handlers get ready for the next packet again. -/
theorem FairCourse.idle (n p : Nat) : ∃ m, n ≤ m ∧ (T.st m).task p = .idle := by
  have adding : ∀ addr port l n, (T.st n).task p = .adding addr port l → ∃ k, n ≤ k ∧ (T.st k).task p = .idle := by
    intro addr port l
    induction l with
    | nil =>
      intro n h
      obtain ⟨m, hm, hp, hs⟩ := F.works (n := n) (p := p) (by simp [h])
      have hw := work_step hs
      rw [hp, h] at hw
      exact ⟨m + 1, by omega, hw⟩
    | cons x l ih =>
      intro n h
      obtain ⟨m, hm, hp, hs⟩ := F.works (n := n) (p := p) (by simp [h])
      have hw := work_step hs
      rw [hp, h] at hw
      obtain ⟨k, hk, h⟩ := ih _ hw
      exact ⟨k, by omega, h⟩
  have marking : ∀ l n, (T.st n).task p = .marking l → ∃ k, n ≤ k ∧ (T.st k).task p = .idle := by
    intro l
    induction l with
    | nil =>
      intro n h
      obtain ⟨m, hm, hp, hs⟩ := F.works (n := n) (p := p) (by simp [h])
      have hw := work_step hs
      rw [hp, h] at hw
      exact ⟨m + 1, by omega, hw⟩
    | cons x l ih =>
      intro n h
      obtain ⟨m, hm, hp, hs⟩ := F.works (n := n) (p := p) (by simp [h])
      have hw := work_step hs
      rw [hp, h] at hw
      obtain ⟨k, hk, h⟩ := ih _ hw
      exact ⟨k, by omega, h⟩
  cases h : (T.st n).task p with
  | idle => exact ⟨n, Nat.le_refl _, h⟩
  | adding addr port l => exact adding addr port l n h
  | marking l => exact marking l n h

omit F in
theorem course_n {n m : Nat} (hm : n ≤ m) : (T.st n).n ≤ (T.st m).n :=
  T.later (Q := fun s t => s.n ≤ t.n) (fun _ => Nat.le_refl _) (fun _ _ _ => Nat.le_trans) (fun _ _ _ h => n_step h) hm

omit F in
theorem course_grows {n m : Nat} (hm : n ≤ m) : Grows (T.st n) (T.st m) :=
  T.later (Q := Grows) Grows.refl (fun _ _ _ => Grows.trans) (fun _ _ _ h => grows_step R black h) hm

omit F in
/-- Peer and slot of a query stay. -/
theorem course_query {n m q : Nat} (hm : n ≤ m) (hq : q < (T.st n).n) :
    ((T.st m).query q).peer = ((T.st n).query q).peer ∧ ((T.st m).query q).slot = ((T.st n).query q).slot := by
  refine Trace.keep (P := fun m => ((T.st m).query q).peer = ((T.st n).query q).peer ∧
    ((T.st m).query q).slot = ((T.st n).query q).slot) ⟨rfl, rfl⟩ ?_ m hm
  intro m hm h
  cases e : T.act m with
  | none => rw [T.none_step e]; exact h
  | some a =>
    rcases query_step (T.some_step e) q with h1 | ⟨h1, _⟩ | ⟨_, _, _, _, h1⟩ | ⟨_, _, _, _, _, h1⟩ | ⟨_, _, _, _, _, h1, _⟩
    · rw [h1]; exact h
    · have := course_n (T := T) hm; omega
    all_goals rw [h1]; exact h

/-- A query for which there is a ready stub is answered with the address of a ready stub. -/
theorem FairCourse.answers {n q j : Nat} {st : Stub} (hq : q < (T.st n).n)
    (hj : ((T.st n).stubs ((T.st n).query q).slot)[j]? = some st) (hr : st.ready = true)
    (ho : ∀ addr, ((T.st n).query q).phase ≠ .done addr) :
    ∃ m st', n ≤ m ∧ st' ∈ (T.st m).stubs ((T.st n).query q).slot ∧ st'.ready = true ∧
      (T.st (m + 1)).log = (T.st m).log ++ [.sent ((T.st n).query q).peer (.queryResponse st'.addr)] ∧
        ((T.st (m + 1)).query q).phase = .done st'.addr := by
  -- the stub stays
  have hst : ∀ m, n ≤ m → ∃ st', ((T.st m).stubs ((T.st m).query q).slot)[j]? = some st' ∧ st'.ready = true := by
    intro m hm
    obtain ⟨st', h1, _, _, h2⟩ := course_grows (T := T) hm _ _ _ hj
    exact ⟨st', by rw [(course_query hm hq).2]; exact h1, h2 hr⟩
  have I : ∀ m, QueryInv (T.st m) := fun m => by
    obtain ⟨as, h⟩ := F.reach m
    exact queryInv_run R black h
  have hn : ∀ {m}, n ≤ m → q < (T.st m).n := fun hm => Nat.lt_of_lt_of_le hq (course_n hm)
  -- having chosen a stub
  have chosen : ∀ k n', n ≤ n' → ((T.st n').query q).phase = .chosen k →
      ∃ m st', n ≤ m ∧ st' ∈ (T.st m).stubs ((T.st n).query q).slot ∧ st'.ready = true ∧
        (T.st (m + 1)).log = (T.st m).log ++ [.sent ((T.st n).query q).peer (.queryResponse st'.addr)] ∧
        ((T.st (m + 1)).query q).phase = .done st'.addr := by
    intro k n' hn' h
    obtain ⟨m, a, hm, h1, ha, e⟩ := F.weak.taken (.respond q) (P := fun m => ((T.st m).query q).phase = .chosen k) (n := n') h
      (by
        intro m hm h
        obtain ⟨st', h1, _⟩ := (I m).chosen q k h
        refine ⟨_, rfl, ?_⟩
        simp [State.step, F.alive m, h, h1])
      (by
        intro m hm h hno
        cases e : T.act m with
        | none => rw [T.none_step e]; exact h
        | some a =>
          rcases query_step (T.some_step e) q with h1 | ⟨h1, _⟩ | ⟨_, h1, _⟩ | ⟨_, _, _, h1, _⟩ | ⟨rfl, _⟩
          · rw [h1]; exact h
          · have := hn (m := m) (by omega); omega
          · rw [h] at h1; cases h1
          · rw [h] at h1; cases h1
          · exact absurd rfl (hno _ e))
    subst e
    obtain ⟨st', h2, h3⟩ := (I m).chosen q k h1
    have hs := T.some_step ha
    simp only [State.step, F.alive m, h1, h2] at hs
    rw [if_neg (by simp)] at hs
    obtain ⟨e1, e2⟩ := course_query (T := T) (show n ≤ m by omega) hq
    refine ⟨m, st', by omega, ?_, h3, ?_, ?_⟩
    · rw [← e2]; exact List.mem_of_getElem? h2
    · rw [← Option.some.inj hs, ← e1]
    · rw [← Option.some.inj hs]; simp
  -- one examination
  have examined : ∀ k n', n ≤ n' → ((T.st n').query q).phase = .seek k →
      ∃ m st', n' ≤ m ∧ ((T.st m).stubs ((T.st m).query q).slot)[k]? = some st' ∧
        ((T.st (m + 1)).query q).phase = if Stub.ready st' then .chosen k else match k with | 0 => .top | k + 1 => .seek k := by
    intro k n' hn' h
    obtain ⟨m, a, hm, h1, ha, e⟩ := F.weak.taken (.examine q) (P := fun m => ((T.st m).query q).phase = .seek k) (n := n') h
      (by
        intro m hm h
        have hlt := (I m).cursor q k h
        refine ⟨_, rfl, ?_⟩
        simp only [State.step, F.alive m, h, List.getElem?_eq_getElem hlt]
        rw [if_neg (by simp)]
        repeat' split
        all_goals simp)
      (by
        intro m hm h hno
        cases e : T.act m with
        | none => rw [T.none_step e]; exact h
        | some a =>
          rcases query_step (T.some_step e) q with h1 | ⟨h1, _⟩ | ⟨_, h1, _⟩ | ⟨rfl, _⟩ | ⟨_, _, _, h1, _⟩
          · rw [h1]; exact h
          · have := hn (m := m) (by omega); omega
          · rw [h] at h1; cases h1
          · exact absurd rfl (hno _ e)
          · rw [h] at h1; cases h1)
    subst e
    have hlt := (I m).cursor q k h1
    have hs := T.some_step ha
    simp only [State.step, F.alive m, h1, List.getElem?_eq_getElem hlt] at hs
    rw [if_neg (by simp)] at hs
    refine ⟨m, _, hm, List.getElem?_eq_getElem hlt, ?_⟩
    split at hs
    · rename_i hr
      rw [if_pos hr, ← Option.some.inj hs]; simp
    · rename_i hr
      rw [if_neg hr]
      split at hs
      · rw [← Option.some.inj hs]; simp
      · rw [← Option.some.inj hs]; simp
  -- seeking from a stub at or behind the ready one
  have seek : ∀ k, j ≤ k → ∀ n', n ≤ n' → ((T.st n').query q).phase = .seek k →
      ∃ m st', n ≤ m ∧ st' ∈ (T.st m).stubs ((T.st n).query q).slot ∧ st'.ready = true ∧
        (T.st (m + 1)).log = (T.st m).log ++ [.sent ((T.st n).query q).peer (.queryResponse st'.addr)] ∧
        ((T.st (m + 1)).query q).phase = .done st'.addr := by
    intro k
    induction k with
    | zero =>
      intro hk n' hn' h
      obtain ⟨m, st', hm, h1, h2⟩ := examined 0 n' hn' h
      obtain ⟨st'', h3, h4⟩ := hst m (by omega)
      have : j = 0 := by omega
      subst this
      rw [h1] at h3
      cases h3
      rw [if_pos h4] at h2
      exact chosen _ _ (by omega) h2
    | succ k ih =>
      intro hk n' hn' h
      obtain ⟨m, st', hm, h1, h2⟩ := examined (k + 1) n' hn' h
      split at h2
      · exact chosen _ _ (by omega) h2
      · rename_i hnr
        by_cases e : j = k + 1
        · subst e
          obtain ⟨st'', h3, h4⟩ := hst m (by omega)
          rw [h1] at h3
          cases h3
          exact absurd h4 hnr
        · exact ih (by omega) (m + 1) (by omega) h2
  -- from the top
  have top : ∀ n', n ≤ n' → ((T.st n').query q).phase = .top →
      ∃ m st', n ≤ m ∧ st' ∈ (T.st m).stubs ((T.st n).query q).slot ∧ st'.ready = true ∧
        (T.st (m + 1)).log = (T.st m).log ++ [.sent ((T.st n).query q).peer (.queryResponse st'.addr)] ∧
        ((T.st (m + 1)).query q).phase = .done st'.addr := by
    intro n' hn' h
    obtain ⟨m, a, hm, h1, ha, e⟩ := F.weak.taken (.look q) (P := fun m => ((T.st m).query q).phase = .top) (n := n') h
      (by
        intro m hm h
        refine ⟨_, rfl, ?_⟩
        simp only [State.step, F.alive m, h]
        rw [if_neg (by simp), if_pos (hn (by omega))]
        split <;> simp)
      (by
        intro m hm h hno
        cases e : T.act m with
        | none => rw [T.none_step e]; exact h
        | some a =>
          rcases query_step (T.some_step e) q with h1 | ⟨h1, _⟩ | ⟨rfl, _⟩ | ⟨_, _, _, h1, _⟩ | ⟨_, _, _, h1, _⟩
          · rw [h1]; exact h
          · have := hn (m := m) (by omega); omega
          · exact absurd rfl (hno _ e)
          · rw [h] at h1; cases h1
          · rw [h] at h1; cases h1)
    subst e
    obtain ⟨st', h2, _⟩ := hst m (by omega)
    have hlt := (List.getElem?_eq_some_iff.mp h2).1
    obtain ⟨k, hk⟩ : ∃ k, ((T.st m).stubs ((T.st m).query q).slot).length = k + 1 := ⟨_, (Nat.succ_pred (by omega)).symm⟩
    have hs := T.some_step ha
    simp only [State.step, F.alive m, h1, hk] at hs
    rw [if_neg (by simp), if_pos (hn (by omega))] at hs
    exact seek k (by omega) (m + 1) (by omega) (by rw [← Option.some.inj hs]; simp)
  have low : ∀ k n', n ≤ n' → ((T.st n').query q).phase = .seek k →
      ∃ m st', n ≤ m ∧ st' ∈ (T.st m).stubs ((T.st n).query q).slot ∧ st'.ready = true ∧
        (T.st (m + 1)).log = (T.st m).log ++ [.sent ((T.st n).query q).peer (.queryResponse st'.addr)] ∧
        ((T.st (m + 1)).query q).phase = .done st'.addr := by
    intro k
    induction k with
    | zero =>
      intro n' hn' h
      obtain ⟨m, st', hm, h1, h2⟩ := examined 0 n' hn' h
      split at h2
      · exact chosen _ _ (by omega) h2
      · exact top (m + 1) (by omega) h2
    | succ k ih =>
      intro n' hn' h
      obtain ⟨m, st', hm, h1, h2⟩ := examined (k + 1) n' hn' h
      split at h2
      · exact chosen _ _ (by omega) h2
      · exact ih (m + 1) (by omega) h2
  cases h : ((T.st n).query q).phase with
  | top => exact top n (Nat.le_refl _) h
  | seek k => exact low k n (Nat.le_refl _) h
  | chosen k => exact chosen k n (Nat.le_refl _) h
  | done addr => exact absurd h (ho addr)

/-- A query is answered if at some time there is a ready stub. -/
theorem FairCourse.answered {n q n0 : Nat} {st : Stub} (hq : q < (T.st n).n) (hst : st ∈ (T.st n0).stubs ((T.st n).query q).slot)
    (hr : st.ready = true) (ho : ∀ addr, ((T.st n).query q).phase ≠ .done addr) :
    ∃ m addr, n ≤ m ∧ (T.st (m + 1)).log = (T.st m).log ++ [.sent ((T.st n).query q).peer (.queryResponse addr)] ∧
      ((T.st (m + 1)).query q).phase = .done addr := by
  by_cases hd : ∃ addr, ((T.st (max n n0)).query q).phase = .done addr
  · -- it has been answered before
    obtain ⟨m, hm, ⟨addr, h1⟩, hno⟩ := Trace.first (P := fun m => ∃ addr, ((T.st m).query q).phase = .done addr) (n := n)
      ⟨max n n0, by omega, hd⟩
    have hne : m ≠ n := by rintro rfl; exact ho addr h1
    obtain ⟨k, rfl⟩ : ∃ k, m = k + 1 := ⟨m - 1, by omega⟩
    have hnk := hno k (by omega) (by omega)
    cases e : T.act k with
    | none => rw [T.none_step e] at h1; exact absurd ⟨addr, h1⟩ hnk
    | some a =>
      rcases query_step (T.some_step e) q with h | ⟨h, _⟩ | ⟨_, _, _, _, h⟩ | ⟨_, _, _, _, _, h⟩ | ⟨_, _, st', _, _, h, hl⟩
      · rw [h] at h1; exact absurd ⟨addr, h1⟩ hnk
      · have := course_n (T := T) (show n ≤ k by omega); omega
      · rw [h] at h1; cases h1
      · rw [h] at h1
        simp only at h1
        repeat' split at h1
        all_goals cases h1
      · rw [(course_query (T := T) (show n ≤ k by omega) hq).1] at hl
        exact ⟨k, st'.addr, by omega, hl, by rw [h]⟩
  · obtain ⟨j, hj⟩ := List.mem_iff_getElem?.mp hst
    obtain ⟨st', h1, _, _, h2⟩ := course_grows (T := T) (Nat.le_max_right n n0) _ _ _ hj
    have hc := course_query (T := T) (Nat.le_max_left n n0) hq
    obtain ⟨m, st'', hm, _, _, h3, h4⟩ := F.answers (n := max n n0) (q := q) (j := j) (st := st')
      (Nat.lt_of_lt_of_le hq (course_n (by omega))) (by rw [hc.2]; exact h1) (h2 hr) (fun addr h => hd ⟨addr, h⟩)
    rw [hc.1] at h3
    exact ⟨m, st''.addr, by omega, h3, h4⟩

/-! ## Registrations -/

/-- The features that a peer registers are added, and the peer is told its port. -/
theorem FairCourse.adds {n p port : Nat} {addr : Str} {l : List Str} (h : (T.st n).task p = .adding addr port l) :
    ∃ m, n ≤ m ∧ (T.st (m + 1)).log = (T.st m).log ++ [.sent p (.registerResponse (BitVec.ofNat 64 port))] ∧
      ∀ slot ∈ l, ∃ st ∈ (T.st (m + 1)).stubs slot, st.peer = p := by
  induction l generalizing n with
  | nil =>
    obtain ⟨m, hm, hp, hs⟩ := F.works (n := n) (p := p) (by simp [h])
    refine ⟨m, hm, ?_, by simp⟩
    rw [h] at hp
    simp only [State.step, F.alive m, hp] at hs
    rw [if_neg (by simp)] at hs
    rw [← Option.some.inj hs]
  | cons x l ih =>
    obtain ⟨m, hm, hp, hs⟩ := F.works (n := n) (p := p) (by simp [h])
    rw [h] at hp
    simp only [State.step, F.alive m, hp] at hs
    rw [if_neg (by simp)] at hs
    have ht := Option.some.inj hs
    obtain ⟨m', hm', h1, h2⟩ := ih (n := m + 1) (by rw [← ht]; simp)
    refine ⟨m', by omega, h1, ?_⟩
    intro slot hslot
    rcases List.mem_cons.mp hslot with rfl | hslot
    · have hin : (⟨addr, p, false⟩ : Stub) ∈ (T.st (m + 1)).stubs slot := by rw [← ht]; simp
      obtain ⟨j, hj⟩ := List.mem_iff_getElem?.mp hin
      obtain ⟨st', h3, _, h4, _⟩ := course_grows (T := T) (show m + 1 ≤ m' + 1 by omega) _ _ _ hj
      exact ⟨st', List.mem_of_getElem? h3, h4⟩
    · exact h2 slot hslot

omit F in
theorem mark_ready {p : Nat} {l : List Stub} (h : ∃ st ∈ l, st.peer = p) : ∃ st ∈ mark p l, st.ready = true := by
  induction l with
  | nil => obtain ⟨_, h, _⟩ := h; cases h
  | cons s l ih =>
    unfold mark
    split
    · exact ⟨_, List.mem_cons_self, rfl⟩
    · rename_i hne
      obtain ⟨st, h1, h2⟩ := h
      rcases List.mem_cons.mp h1 with rfl | h1
      · exact absurd h2 hne
      · obtain ⟨st', h3, h4⟩ := ih ⟨st, h1, h2⟩
        exact ⟨st', List.mem_cons_of_mem _ h3, h4⟩

/-- The features that a peer announces become ready. -/
theorem FairCourse.marks {n p : Nat} {l : List Str} {slot : Str} (h : (T.st n).task p = .marking l) (hl : slot ∈ l)
    (hst : ∃ st ∈ (T.st n).stubs slot, st.peer = p) : ∃ m, n ≤ m ∧ ∃ st ∈ (T.st m).stubs slot, st.ready = true := by
  induction l generalizing n with
  | nil => cases hl
  | cons x l ih =>
    obtain ⟨m, hm, hp, hs⟩ := F.works (n := n) (p := p) (by simp [h])
    rw [h] at hp
    have keep : ∀ m, n ≤ m → ∃ st ∈ (T.st m).stubs slot, st.peer = p := by
      intro m hm
      obtain ⟨st, h1, h2⟩ := hst
      obtain ⟨j, hj⟩ := List.mem_iff_getElem?.mp h1
      obtain ⟨st', h3, _, h4, _⟩ := course_grows (T := T) hm _ _ _ hj
      exact ⟨st', List.mem_of_getElem? h3, h4.trans h2⟩
    simp only [State.step, F.alive m, hp] at hs
    rw [if_neg (by simp)] at hs
    have ht := Option.some.inj hs
    by_cases e : slot = x
    · subst e
      obtain ⟨st, h1, h2⟩ := mark_ready (keep m hm)
      exact ⟨m + 1, by omega, st, by rw [← ht]; simpa using h1, h2⟩
    · obtain ⟨m', hm', h'⟩ := ih (n := m + 1) (by rw [← ht]; simp) ((List.mem_cons.mp hl).resolve_left e) (keep _ (by omega))
      exact ⟨m', by omega, h'⟩

end

end Verif.Hub
