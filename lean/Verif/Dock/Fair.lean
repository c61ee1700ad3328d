import Verif.Fair
import Verif.Dock.Steps

/-!
# Fair executions of a dock

What the goroutines of a dock achieve if each of them goes on when it can.
-/

namespace Verif.Dock

open Verif Verif.Codec Verif.Proto

/-- The steps that goroutines of the dock take by themselves, apart from the loop over the calls in the handler of a ready
packet, and from `Dial`.  That methods of features return is not among them. -/
inductive Turn : (State → Act → Prop) → Prop where
  | storeHub : Turn fun _ a => a = .storeHub
  | greet (e : Nat) : Turn fun _ a => ∃ o, a = .greet e o
  | store (i : Nat) : Turn fun _ a => a = .store i
  | setReq (i : Nat) : Turn fun _ a => a = .setReq i
  | commit (i : Nat) : Turn fun _ a => a = .commit i
  | receive (i : Nat) : Turn fun _ a => a = .receive i
  | closeChan (i : Nat) : Turn fun _ a => a = .closeChan i
  /-- the handler goes on, outside the loop -/
  | work (p : Nat) : Turn fun s a => (∀ x y z w, s.handler p ≠ .scan x y z w) ∧ ∃ o, a = .work p o
  | invoke (k : Nat) : Turn fun _ a => a = .invoke k
  | respond (k : Nat) : Turn fun _ a => a = .respond k
  | callback (k : Nat) : Turn fun _ a => a = .callback k
  | delete (k : Nat) : Turn fun _ a => a = .delete k

/-- The loop over the calls: the iteration over a map reaches every entry that stays in the map, and it ends. -/
inductive Loop : (State → Act → Prop) → Prop where
  | visit (p i : Nat) : Loop fun _ a => a = .visit p i
  | leave (p : Nat) : Loop fun s a => (∃ x y z w, s.handler p = .scan x y z w) ∧ ∃ o, a = .work p o

/-- A fair course of a dock that does not stop. -/
structure FairCourse (cs : List Carried) (T : Trace (State.step cs)) : Prop where
  weak : T.WeaklyFair Turn
  strong : T.StronglyFair Loop
  alive : ∀ n, (T.st n).dead = false
  reach : ∀ n, ∃ as, run (State.step cs) .init as = some (T.st n)
  /-- `Dial` returns -/
  dials : ∀ n p addr, (T.st n).handler p = .dialling addr → ∃ m e, n ≤ m ∧ (T.st m).handler p = .dialling addr ∧ T.act m = some (.dialOK p e)

section
variable {cs : List Carried} {T : Trace (State.step cs)} (F : FairCourse cs T)
include F

theorem FairCourse.rpcInv (n : Nat) : RpcInv (T.st n) := by
  obtain ⟨as, h⟩ := F.reach n
  exact (rpcInv_run cs as _ h).1

omit F in
/-- A handler stays as it is unless it goes on. -/
theorem course_hand (n p : Nat) : (T.st (n + 1)).handler p = (T.st n).handler p ∨
    ∃ a, T.act n = some a ∧ HandNext (T.st n) (T.st (n + 1)) p a := by
  cases e : T.act n with
  | none => rw [T.none_step e]; exact Or.inl rfl
  | some a => exact (hand_step (T.some_step e) p).imp id fun h => ⟨a, rfl, h⟩

/-- A handler that is neither waiting for a packet nor in the loop nor dialling goes on. -/
theorem FairCourse.works {n p : Nat} (h1 : (T.st n).handler p ≠ .idle) (h2 : ∀ a b c d, (T.st n).handler p ≠ .scan a b c d)
    (h3 : ∀ a, (T.st n).handler p ≠ .dialling a) :
    ∃ m o, n ≤ m ∧ (T.st m).handler p = (T.st n).handler p ∧ T.act m = some (.work p o) ∧
      (T.st m).step cs (.work p o) = some (T.st (m + 1)) := by
  obtain ⟨m, a, hm, hp, ha, _, o, e⟩ := F.weak.taken (.work p) (P := fun m => (T.st m).handler p = (T.st n).handler p)
    (n := n) rfl
    (by
      intro m _ hp
      obtain ⟨o, ho⟩ := work_can (cs := cs) (F.alive m) (by rw [hp]; exact h1) (by rw [hp]; exact h2) (by rw [hp]; exact h3)
      exact ⟨.work p o, ⟨by rw [hp]; exact h2, o, rfl⟩, ho⟩)
    (by
      intro m _ hp hno
      rcases course_hand (T := T) m p with h | ⟨a, ha, h⟩
      · exact h.trans hp
      · cases h with
        | starts pkt h => exact absurd (hp.symm.trans h) h1
        | visits i x y z w h => exact absurd (hp.symm.trans h) (h2 _ _ _ _)
        | works o => exact absurd ⟨by rw [hp]; exact h2, o, rfl⟩ (hno _ ha)
        | dials e addr h => exact absurd (hp.symm.trans h) (h3 _))
  subst e
  exact ⟨m, o, hm, hp, ha, T.some_step ha⟩

omit F in
/-- What a visit does. -/
theorem visit_step {s t : State} {p i : Nat} (h : s.step cs (.visit p i) = some t) :
    ∃ slot rest start visited, s.handler p = .scan slot rest start visited ∧ s.rpcs (s.index i) = some i ∧
      t.handler p = if s.req i then .tested slot rest start (i :: visited) i else .scan slot rest start (i :: visited) := by
  simp only [State.step] at h
  repeat' split at h
  all_goals cases h
  all_goals refine ⟨_, _, _, _, ‹_›, by simp_all, by simp_all⟩

/-- The handler is in the loop over the calls for this slot. -/
def InLoop (slot : Str) (rest : List Str) (start : List Nat) (h : Handler) : Prop :=
  ∃ v, h = .scan slot rest start v ∨ ∃ i, h = .tested slot rest start v i ∨ h = .commit slot rest start v i

/-- The calls that the loop has visited. -/
def visitedOf : Handler → List Nat
  | .scan _ _ _ v => v
  | .tested _ _ _ v _ => v
  | .commit _ _ _ v _ => v
  | _ => []

/-- The loop goes on or is left behind. -/
theorem FairCourse.loop_step {n p : Nat} {slot : Str} {rest : List Str} {start : List Nat}
    (h : InLoop slot rest start ((T.st n).handler p)) :
    (InLoop slot rest start ((T.st (n + 1)).handler p) ∧
      ∀ i ∈ visitedOf ((T.st n).handler p), i ∈ visitedOf ((T.st (n + 1)).handler p)) ∨
    ((T.st (n + 1)).handler p = .slots rest ∧ (∃ v, (T.st n).handler p = .scan slot rest start v ∧
      ∀ i ∈ start, i ∈ v ∨ (T.st n).rpcs ((T.st n).index i) ≠ some i)) := by
  rcases course_hand (T := T) n p with e | ⟨a, ha, hn⟩
  · rw [e]; exact Or.inl ⟨h, fun _ h => h⟩
  have hs := T.some_step ha
  obtain ⟨v, h⟩ := h
  cases hn with
  | starts pkt h' => rcases h with h | ⟨i, h | h⟩ <;> rw [h] at h' <;> cases h'
  | dials e addr h' => rcases h with h | ⟨i, h | h⟩ <;> rw [h] at h' <;> cases h'
  | visits i x y z w h' hi h'' =>
    rcases h with h | ⟨j, h | h⟩ <;> rw [h] at h' <;> cases h'
    left
    rw [h, h'']
    split
    · exact ⟨⟨_, Or.inr ⟨_, Or.inl rfl⟩⟩, fun j hj => List.mem_cons_of_mem _ hj⟩
    · exact ⟨⟨_, Or.inl rfl⟩, fun j hj => List.mem_cons_of_mem _ hj⟩
  | works o =>
    have hw := work_step hs (F.alive _)
    rcases h with h | ⟨i, h | h⟩
    · rw [h] at hw
      exact Or.inr ⟨hw.2, v, h, hw.1⟩
    · rw [h] at hw ⊢
      rw [hw.2]
      left
      split
      · exact ⟨⟨_, Or.inr ⟨_, Or.inr rfl⟩⟩, fun j hj => hj⟩
      · exact ⟨⟨_, Or.inl rfl⟩, fun j hj => hj⟩
    · rw [h] at hw ⊢
      simp only at hw
      rw [hw]
      simp only [upd_same]
      exact Or.inl ⟨⟨_, Or.inl rfl⟩, fun j hj => hj⟩

/-- In the loop, the handler asks for the next entry again and again. -/
theorem FairCourse.loop_scan {n p : Nat} {slot : Str} {rest : List Str} {start : List Nat}
    (h : InLoop slot rest start ((T.st n).handler p)) :
    ∃ m v, n ≤ m ∧ (T.st m).handler p = .scan slot rest start v := by
  have com : ∀ n v i, (T.st n).handler p = .commit slot rest start v i →
      ∃ m v, n ≤ m ∧ (T.st m).handler p = .scan slot rest start v := by
    intro n v i h
    obtain ⟨m, o, hm, hp, ha, hs⟩ := F.works (n := n) (p := p) (by simp [h]) (by simp [h]) (by simp [h])
    have hw := work_step hs (F.alive _)
    rw [hp, h] at hw
    refine ⟨m + 1, v, by omega, ?_⟩
    simp only at hw
    rw [hw]
    simp
  obtain ⟨v, h | ⟨i, h | h⟩⟩ := h
  · exact ⟨n, v, Nat.le_refl _, h⟩
  · obtain ⟨m, o, hm, hp, ha, hs⟩ := F.works (n := n) (p := p) (by simp [h]) (by simp [h]) (by simp [h])
    have hw := work_step hs (F.alive _)
    rw [hp, h] at hw
    simp only at hw
    split at hw
    · obtain ⟨m', v', hm', h'⟩ := com _ _ _ hw.2
      exact ⟨m', v', by omega, h'⟩
    · exact ⟨m + 1, v, by omega, hw.2⟩
  · exact com _ _ _ h

/-- The loop visits every call of the start that stays in the table. -/
theorem FairCourse.loop_visits {n p i : Nat} {slot : Str} {rest : List Str} {start : List Nat}
    (h : InLoop slot rest start ((T.st n).handler p)) (hi : i ∈ start) (hv : i ∉ visitedOf ((T.st n).handler p))
    (hr : ∀ m, n ≤ m → (T.st m).rpcs ((T.st m).index i) = some i) :
    ∃ m v, n ≤ m ∧ (T.st m).handler p = .scan slot rest start v ∧ T.act m = some (.visit p i) := by
  refine Classical.byContradiction fun hno => ?_
  have hall : ∀ m, n ≤ m → InLoop slot rest start ((T.st m).handler p) ∧ i ∉ visitedOf ((T.st m).handler p) := by
    refine Trace.keep ⟨h, hv⟩ ?_
    rintro m hm ⟨h1, h2⟩
    rcases F.loop_step h1 with h3 | ⟨_, v, h3, h4⟩
    · refine ⟨h3.1, fun h4 => ?_⟩
      -- the step must have been the visit
      rcases course_hand (T := T) m p with e | ⟨a, ha, hn⟩
      · rw [e] at h4; exact h2 h4
      cases hn with
      | starts pkt h => obtain ⟨v, h1 | ⟨j, h1 | h1⟩⟩ := h1 <;> rw [h1] at h <;> cases h
      | dials e addr h => obtain ⟨v, h1 | ⟨j, h1 | h1⟩⟩ := h1 <;> rw [h1] at h <;> cases h
      | visits j x y z w h hj h' =>
        obtain ⟨v, h1 | ⟨k, h1 | h1⟩⟩ := h1 <;> rw [h1] at h <;> cases h
        rw [h1] at h2
        by_cases e : i = j
        · subst e; exact hno ⟨m, _, hm, h1, ha⟩
        · rw [h'] at h4
          split at h4 <;> simp [visitedOf, e] at h4 h2 <;> exact h2 h4
      | works o =>
        have hw := work_step (T.some_step ha) (F.alive _)
        obtain ⟨v, h1 | ⟨j, h1 | h1⟩⟩ := h1
        · rw [h1] at hw
          rw [hw.2] at h4
          cases h4
        · rw [h1] at hw h2
          rw [hw.2] at h4
          split at h4 <;> exact h2 h4
        · rw [h1] at hw h2
          simp only at hw
          rw [hw] at h4
          simp only [upd_same] at h4
          exact h2 h4
    · rw [h3] at h2
      exact ((h4 i hi).resolve_left h2 (hr m hm)).elim
  obtain ⟨m, a, hm, ha, e⟩ := F.strong _ (.visit p i) n (by
    intro k hk
    obtain ⟨m, v, hm, h1⟩ := F.loop_scan (hall k hk).1
    refine ⟨m, .visit p i, hm, rfl, ?_⟩
    have h2 := (hall m (by omega)).2
    rw [h1] at h2
    simp only [State.step, F.alive m, h1, hr m (by omega), visitedOf] at h2 ⊢
    rw [if_neg (by simp), if_pos ⟨trivial, h2⟩]
    split <;> simp)
  subst e
  have hs := T.some_step ha
  have h1 := (hall m hm).1
  simp only [State.step, F.alive m] at hs
  rw [if_neg (by simp)] at hs
  obtain ⟨v, h1 | ⟨j, h1 | h1⟩⟩ := h1
  · exact hno ⟨m, v, hm, h1, ha⟩
  all_goals rw [h1] at hs; cases hs

omit F in
/-- A call that has been removed from the table stays so. -/
theorem course_gone {n i : Nat} (hc : (T.st n).phase i ≠ .created) (hi : i < (T.st n).n)
    (h : (T.st n).rpcs ((T.st n).index i) ≠ some i) :
    ∀ m, n ≤ m → (T.st m).rpcs ((T.st m).index i) ≠ some i := by
  have := T.stays (P := fun s => i < s.n ∧ s.phase i ≠ .created ∧ s.rpcs (s.index i) ≠ some i) (by
    rintro s a t ⟨h1, h2, h3⟩ hs
    have hi := call_step hs
    refine ⟨by omega, ?_, ?_⟩
    · rcases phase_step hs i with h | ⟨h, _⟩ | ⟨_, _, h, _⟩ | ⟨_, _, h, _⟩ | ⟨_, _, h, _⟩ | ⟨_, _, _, _, h⟩ | ⟨_, _, _, h⟩
      · rw [h]; exact h2
      · omega
      all_goals rw [h]; simp
    · rw [(hi.2 i h1).2]
      rcases rpcs_step hs (s.index i) with h | ⟨j, _, h4, h5, _, h⟩ | ⟨_, _, _, _, h⟩
      · rw [h]; exact h3
      · rw [h]; intro e; cases e; exact h2 h4
      · rw [h]; simp) ⟨hi, hc, h⟩
  exact fun m hm => (this m hm).2.2

/-- The calls at the start of a loop. -/
def startOf : Handler → List Nat
  | .scan _ _ start _ => start
  | .tested _ _ start _ _ => start
  | .commit _ _ start _ _ => start
  | _ => []

omit F in
/-- The calls in the table, and those at the start of loops, have been stored. -/
theorem stored_run (as : List Act) (s : State) (h : run (State.step cs) .init as = some s) : s.dead = true ∨
    (∀ x i, s.rpcs x = some i → i < s.n ∧ s.phase i ≠ .created) ∧
    ∀ p, ∀ i ∈ startOf (s.handler p), i < s.n ∧ s.phase i ≠ .created := by
  refine run_inv (I := fun s : State => s.dead = true ∨ (∀ x i, s.rpcs x = some i → i < s.n ∧ s.phase i ≠ .created) ∧
    ∀ p, ∀ i ∈ startOf (s.handler p), i < s.n ∧ s.phase i ≠ .created) ?_ _ _ _ (Or.inr ⟨by simp [State.init], by simp [State.init, startOf]⟩) h
  intro s a t I hs
  rcases I with hd | ⟨I1, I2⟩
  · simp [State.step, hd] at hs
  cases hd : t.dead with
  | true => exact Or.inl rfl
  | false =>
    have hc := call_step hs
    have hph : ∀ i, i < s.n ∧ s.phase i ≠ .created → i < t.n ∧ t.phase i ≠ .created := by
      rintro i ⟨h1, h2⟩
      refine ⟨by omega, ?_⟩
      rcases phase_step hs i with h | ⟨h, _⟩ | ⟨_, _, h, _⟩ | ⟨_, _, h, _⟩ | ⟨_, _, h, _⟩ | ⟨_, _, _, _, h⟩ | ⟨_, _, _, h⟩
      · rw [h]; exact h2
      · omega
      all_goals rw [h]; simp
    refine Or.inr ⟨?_, ?_⟩
    · intro x i hx
      rcases rpcs_step hs x with h | ⟨j, ha, h4, h5, h6, h⟩ | ⟨_, _, _, _, h⟩
      · rw [h] at hx; exact hph i (I1 x i hx)
      · rw [h] at hx; cases hx
        refine ⟨by omega, ?_⟩
        subst ha
        simp only [State.step, h4] at hs
        repeat' split at hs
        all_goals cases hs
        simp
      · rw [h] at hx; cases hx
    · intro p i hi
      rcases hand_step hs p with h | h
      · rw [h] at hi; exact hph i (I2 p i hi)
      cases h with
      | starts pkt h =>
        exfalso
        simp only [State.step, State.onPacket, h] at hs
        repeat' split at hs
        all_goals cases hs
        all_goals simp [startOf, h] at hi
      | visits j x y z w h hj h' =>
        have := I2 p
        rw [h] at this
        refine hph i (this i ?_)
        rw [h'] at hi
        split at hi <;> exact hi
      | dials e addr h h' => rw [h'] at hi; cases hi
      | works o =>
        have hw := work_step hs hd
        have := I2 p
        revert hw
        split
        · exact False.elim
        · intro hw; rw [hw] at hi; cases hi
        · intro hw; rw [hw] at hi
          have h1 := (List.mem_filter.mp hi).2
          exact hph i (I1 (s.index i) i (by simpa using h1))
        · rintro ⟨-, hw⟩; rw [hw] at hi; cases hi
        · rename_i e
          rw [e] at this
          rintro ⟨-, hw⟩; rw [hw] at hi
          refine hph i (this i ?_)
          split at hi <;> exact hi
        · rename_i e
          rw [e] at this
          intro hw
          rw [hw] at hi
          simp only [upd_same] at hi
          exact hph i (this i hi)
        · rintro ⟨hw, -⟩; rw [hw] at hi; cases hi
        · intro hw; rw [hw] at hi; cases hi
        · rintro ⟨hw, -⟩; rw [hw] at hi; cases hi
        · intro hw; rw [hw] at hi; cases hi
        · rintro ⟨hw, -⟩; rw [hw] at hi; cases hi
        · exact False.elim
        · intro hw; rw [hw] at hi; cases hi

theorem FairCourse.stored (n : Nat) : (∀ x i, (T.st n).rpcs x = some i → i < (T.st n).n ∧ (T.st n).phase i ≠ .created) ∧
    ∀ p, ∀ i ∈ startOf ((T.st n).handler p), i < (T.st n).n ∧ (T.st n).phase i ≠ .created := by
  obtain ⟨as, h⟩ := F.reach n
  rcases stored_run as _ h with h | h
  · rw [F.alive] at h; cases h
  · exact h

/-- The loop ends. -/
theorem FairCourse.loop_ends {n p : Nat} {slot : Str} {rest : List Str} {start : List Nat}
    (h : InLoop slot rest start ((T.st n).handler p)) : ∃ m, n ≤ m ∧ (T.st m).handler p = .slots rest := by
  refine Classical.byContradiction fun hno => ?_
  have hall : ∀ m, n ≤ m → InLoop slot rest start ((T.st m).handler p) := by
    refine Trace.keep h fun m hm h1 => ?_
    rcases F.loop_step h1 with h3 | ⟨h3, _⟩
    · exact h3.1
    · exact absurd ⟨m + 1, by omega, h3⟩ hno
  have hstart : ∀ m, n ≤ m → startOf ((T.st m).handler p) = start := by
    intro m hm
    obtain ⟨v, h1 | ⟨i, h1 | h1⟩⟩ := hall m hm <;> rw [h1] <;> rfl
  have hvis : ∀ m, n ≤ m → ∀ i ∈ visitedOf ((T.st m).handler p), ∀ k, m ≤ k → i ∈ visitedOf ((T.st k).handler p) := by
    intro m hm i hi
    refine Trace.keep hi fun k hk h1 => ?_
    rcases F.loop_step (hall k (by omega)) with h3 | ⟨h3, _⟩
    · exact h3.2 i h1
    · exact absurd ⟨k + 1, by omega, h3⟩ hno
  obtain ⟨N, hN, hdone⟩ := Trace.eventually_list (fun i m => i ∈ visitedOf ((T.st m).handler p) ∨
      (T.st m).rpcs ((T.st m).index i) ≠ some i) n start (by
    intro i hi
    by_cases hr : ∀ m, n ≤ m → (T.st m).rpcs ((T.st m).index i) = some i
    · by_cases hv : i ∈ visitedOf ((T.st n).handler p)
      · exact ⟨n, Nat.le_refl _, fun m hm => Or.inl (hvis n (Nat.le_refl _) i hv m hm)⟩
      · obtain ⟨m, v, hm, h1, ha⟩ := F.loop_visits h hi hv hr
        refine ⟨m + 1, by omega, fun k hk => Or.inl (hvis (m + 1) (by omega) i ?_ k hk)⟩
        obtain ⟨_, _, _, _, _, _, h'⟩ := visit_step (T.some_step ha)
        rw [h']
        split <;> simp [visitedOf]
    · obtain ⟨m, hm⟩ := Classical.not_forall.mp hr
      obtain ⟨hm, hr⟩ := Classical.not_imp.mp hm
      obtain ⟨h1, h2⟩ := (F.stored m).2 p i (by rw [hstart m hm]; exact hi)
      exact ⟨m, hm, fun k hk => Or.inr (course_gone h2 h1 hr k hk)⟩)
  obtain ⟨m, a, hm, ha, ⟨x, y, z, w, h1⟩, o, e⟩ := F.strong _ (.leave p) N (by
    intro k hk
    obtain ⟨m, v, hm, h1⟩ := F.loop_scan (hall k (by omega))
    refine ⟨m, .work p [], hm, ⟨⟨_, _, _, _, h1⟩, [], rfl⟩, ?_⟩
    have h2 := hdone m (by omega)
    simp only [State.step, F.alive m, State.work, h1]
    rw [if_neg (by simp), if_pos]
    · simp
    · rw [List.all_eq_true]
      intro i hi
      have := h2 i hi
      rw [h1] at this
      simpa [visitedOf] using this)
  subst e
  have hw := work_step (T.some_step ha) (F.alive _)
  obtain ⟨v, h2 | ⟨i, h2 | h2⟩⟩ := hall m (by omega)
  · rw [h2] at hw
    exact hno ⟨m + 1, by omega, hw.2⟩
  all_goals rw [h1] at h2; cases h2

/-- Handlers get ready for the next packet again. -/
theorem FairCourse.idle (n p : Nat) : ∃ m, n ≤ m ∧ (T.st m).handler p = .idle := by
  have one : ∀ {n h'}, (∃ m, n ≤ m ∧ (T.st m).handler p = h') → (∀ m, (T.st m).handler p = h' → ∃ k, m ≤ k ∧ (T.st k).handler p = .idle) →
      ∃ k, n ≤ k ∧ (T.st k).handler p = .idle := by
    rintro n h' ⟨m, hm, h⟩ g
    obtain ⟨k, hk, h⟩ := g m h
    exact ⟨k, by omega, h⟩
  have slots : ∀ l n, (T.st n).handler p = .slots l → ∃ k, n ≤ k ∧ (T.st k).handler p = .idle := by
    intro l
    induction l with
    | nil =>
      intro n h
      obtain ⟨m, o, hm, hp, ha, hs⟩ := F.works (n := n) (p := p) (by simp [h]) (by simp [h]) (by simp [h])
      have hw := work_step hs (F.alive _)
      rw [hp, h] at hw
      exact ⟨m + 1, by omega, hw⟩
    | cons x l ih =>
      intro n h
      obtain ⟨m, o, hm, hp, ha, hs⟩ := F.works (n := n) (p := p) (by simp [h]) (by simp [h]) (by simp [h])
      have hw := work_step hs (F.alive _)
      rw [hp, h] at hw
      obtain ⟨k, hk, h⟩ := F.loop_ends (n := m + 1) ⟨_, Or.inl hw⟩
      exact one ⟨k, by omega, h⟩ (fun m => ih m)
  have loop : ∀ {slot rest start} n, InLoop slot rest start ((T.st n).handler p) → ∃ k, n ≤ k ∧ (T.st k).handler p = .idle := by
    intro slot rest start n h
    exact one (F.loop_ends h) (fun m => slots rest m)
  have cache : ∀ l n, (T.st n).handler p = .cache l → ∃ k, n ≤ k ∧ (T.st k).handler p = .idle := by
    intro l
    induction l with
    | nil =>
      intro n h
      obtain ⟨m, o, hm, hp, ha, hs⟩ := F.works (n := n) (p := p) (by simp [h]) (by simp [h]) (by simp [h])
      have hw := work_step hs (F.alive _)
      rw [hp, h] at hw
      exact ⟨m + 1, by omega, hw⟩
    | cons x l ih =>
      intro n h
      obtain ⟨m, o, hm, hp, ha, hs⟩ := F.works (n := n) (p := p) (by simp [h]) (by simp [h]) (by simp [h])
      have hw := work_step hs (F.alive _)
      rw [hp, h] at hw
      exact one ⟨m + 1, by omega, hw.1⟩ (fun m => ih m)
  have announce : ∀ n, (T.st n).handler p = .announce → ∃ k, n ≤ k ∧ (T.st k).handler p = .idle := by
    intro n h
    obtain ⟨m, o, hm, hp, ha, hs⟩ := F.works (n := n) (p := p) (by simp [h]) (by simp [h]) (by simp [h])
    have hw := work_step hs (F.alive _)
    rw [hp, h] at hw
    exact ⟨m + 1, by omega, hw.1⟩
  have dialled : ∀ e n, (T.st n).handler p = .dialled e → ∃ k, n ≤ k ∧ (T.st k).handler p = .idle := by
    intro e n h
    obtain ⟨m, o, hm, hp, ha, hs⟩ := F.works (n := n) (p := p) (by simp [h]) (by simp [h]) (by simp [h])
    have hw := work_step hs (F.alive _)
    rw [hp, h] at hw
    exact ⟨m + 1, by omega, hw⟩
  cases h : (T.st n).handler p with
  | idle => exact ⟨n, Nat.le_refl _, h⟩
  | slots l => exact slots l n h
  | scan slot rest start v => exact loop n ⟨v, Or.inl h⟩
  | tested slot rest start v i => exact loop n ⟨v, Or.inr ⟨i, Or.inl h⟩⟩
  | commit slot rest start v i => exact loop n ⟨v, Or.inr ⟨i, Or.inr h⟩⟩
  | reply slots =>
    obtain ⟨m, o, hm, hp, ha, hs⟩ := F.works (n := n) (p := p) (by simp [h]) (by simp [h]) (by simp [h])
    have hw := work_step hs (F.alive _)
    rw [hp, h] at hw
    exact one ⟨m + 1, by omega, hw.1⟩ (fun m => cache slots m)
  | cache l => exact cache l n h
  | listening port =>
    obtain ⟨m, o, hm, hp, ha, hs⟩ := F.works (n := n) (p := p) (by simp [h]) (by simp [h]) (by simp [h])
    have hw := work_step hs (F.alive _)
    rw [hp, h] at hw
    exact one ⟨m + 1, by omega, hw⟩ announce
  | announce => exact announce n h
  | dialling addr =>
    obtain ⟨m, e, hm, h1, ha⟩ := F.dials n p addr h
    have hs := T.some_step ha
    simp only [State.step, F.alive m, h1, State.connected] at hs
    rw [if_neg (by simp)] at hs
    split at hs
    · refine one ⟨m + 1, by omega, ?_⟩ (dialled e)
      rw [← Option.some.inj hs]
      simp
    · cases hs
  | dialled e => exact dialled e n h

/-! ## Calls -/

omit F in
/-- The calls there are stay as they are. -/
theorem course_call {n m : Nat} (hm : n ≤ m) {i : Nat} (hi : i < (T.st n).n) :
    i < (T.st m).n ∧ (T.st m).call i = (T.st n).call i ∧ (T.st m).index i = (T.st n).index i := by
  have := T.later (Q := fun s t => s.n ≤ t.n ∧ ∀ i, i < s.n → t.call i = s.call i ∧ t.index i = s.index i)
    (fun s => ⟨Nat.le_refl _, fun _ _ => ⟨rfl, rfl⟩⟩)
    (fun s t u h1 h2 => ⟨by omega, fun i hi => by
      obtain ⟨e1, e2⟩ := h1.2 i hi
      obtain ⟨e3, e4⟩ := h2.2 i (by omega)
      exact ⟨e3.trans e1, e4.trans e2⟩⟩)
    (fun s a t h => call_step h) hm
  exact ⟨by omega, this.2 i hi⟩

omit F in
/-- Logs grow. -/
theorem course_log {n m : Nat} (hm : n ≤ m) : ∃ l, (T.st m).log = (T.st n).log ++ l :=
  T.later (Q := fun s t => ∃ l, t.log = s.log ++ l) (fun s => ⟨[], (List.append_nil _).symm⟩)
    (fun s t u ⟨l, h1⟩ ⟨l', h2⟩ => ⟨l ++ l', by rw [h2, h1, List.append_assoc]⟩) (fun s a t h => log_step h) hm

omit F in
/-- Phases of calls change by the steps of the calls only. -/
theorem course_phase (m i : Nat) (hi : i < (T.st m).n) : (T.st (m + 1)).phase i = (T.st m).phase i ∨
    (T.act m = some (.store i) ∧ (T.st m).phase i = .created ∧ (T.st (m + 1)).phase i = .stored) ∨
    (T.act m = some (.setReq i) ∧ (T.st m).phase i = .stored ∧ (T.st (m + 1)).phase i = .set) ∨
    (T.act m = some (.commit i) ∧ (T.st m).phase i = .set ∧ (T.st (m + 1)).phase i = .waiting) ∨
    (T.act m = some (.receive i) ∧ (T.st m).phase i = .waiting ∧ ∃ r, (T.st m).chan i = some r ∧ (T.st (m + 1)).phase i = .received r) ∨
    (T.act m = some (.closeChan i) ∧ ∃ r, (T.st m).phase i = .received r ∧ (T.st (m + 1)).phase i = .returned r) := by
  cases e : T.act m with
  | none => rw [T.none_step e]; exact Or.inl rfl
  | some a =>
    rcases phase_step (T.some_step e) i with h | ⟨h, _⟩ | ⟨rfl, h, h', _⟩ | ⟨rfl, h, h', _⟩ | ⟨rfl, h, h', _⟩ | ⟨rfl, h, h'⟩ | ⟨rfl, h'⟩
    · exact Or.inl h
    · omega
    · exact Or.inr (Or.inl ⟨rfl, h, h'⟩)
    · exact Or.inr (Or.inr (Or.inl ⟨rfl, h, h'⟩))
    · exact Or.inr (Or.inr (Or.inr (Or.inl ⟨rfl, h, h'⟩)))
    · exact Or.inr (Or.inr (Or.inr (Or.inr (Or.inl ⟨rfl, h, h'⟩))))
    · exact Or.inr (Or.inr (Or.inr (Or.inr (Or.inr ⟨rfl, h'⟩))))

/-- Calls get to the point where they wait for the result, and by their own `commit`. -/
theorem FairCourse.commits {n i : Nat} (hi : i < (T.st n).n) (hp : (T.st n).phase i = .created ∨ (T.st n).phase i = .stored ∨ (T.st n).phase i = .set) :
    ∃ m, n ≤ m ∧ (T.st m).phase i = .set ∧ T.act m = some (.commit i) ∧ (T.st (m + 1)).phase i = .waiting := by
  have hset : ∀ n, i < (T.st n).n → (T.st n).phase i = .set →
      ∃ m, n ≤ m ∧ (T.st m).phase i = .set ∧ T.act m = some (.commit i) ∧ (T.st (m + 1)).phase i = .waiting := by
    intro n hi hp
    obtain ⟨m, a, hm, h1, ha, e⟩ := F.weak.taken (.commit i) (P := fun m => (T.st m).phase i = .set) (n := n) hp
      (by
        intro m hm h
        exact ⟨_, rfl, by simp [State.step, F.alive m, h]⟩)
      (by
        intro m hm h hno
        rcases course_phase (T := T) m i (course_call hm hi).1 with h1 | ⟨_, h1, _⟩ | ⟨_, h1, _⟩ | ⟨h1, _⟩ | ⟨_, h1, _⟩ | ⟨_, _, h1, _⟩
        · exact h1.trans h
        · rw [h] at h1; cases h1
        · rw [h] at h1; cases h1
        · exact absurd rfl (hno _ h1)
        · rw [h] at h1; cases h1
        · rw [h] at h1; cases h1)
    subst e
    refine ⟨m, hm, h1, ha, ?_⟩
    rcases course_phase (T := T) m i (course_call hm hi).1 with h2 | ⟨_, h2, _⟩ | ⟨_, h2, _⟩ | ⟨_, _, h2⟩ | ⟨_, h2, _⟩ | ⟨_, _, h2, _⟩
    · have hs := T.some_step ha
      simp only [State.step, F.alive m, h1] at hs
      rw [if_neg (by simp)] at hs
      rw [← Option.some.inj hs]
      simp
    · rw [h1] at h2; cases h2
    · rw [h1] at h2; cases h2
    · exact h2
    · rw [h1] at h2; cases h2
    · rw [h1] at h2; cases h2
  have hsto : ∀ n, i < (T.st n).n → (T.st n).phase i = .stored →
      ∃ m, n ≤ m ∧ (T.st m).phase i = .set ∧ T.act m = some (.commit i) ∧ (T.st (m + 1)).phase i = .waiting := by
    intro n hi hp
    obtain ⟨m, a, hm, h1, ha, e⟩ := F.weak.taken (.setReq i) (P := fun m => (T.st m).phase i = .stored) (n := n) hp
      (by
        intro m hm h
        exact ⟨_, rfl, by simp [State.step, F.alive m, h]⟩)
      (by
        intro m hm h hno
        rcases course_phase (T := T) m i (course_call hm hi).1 with h1 | ⟨_, h1, _⟩ | ⟨h1, _⟩ | ⟨_, h1, _⟩ | ⟨_, h1, _⟩ | ⟨_, _, h1, _⟩
        · exact h1.trans h
        · rw [h] at h1; cases h1
        · exact absurd rfl (hno _ h1)
        · rw [h] at h1; cases h1
        · rw [h] at h1; cases h1
        · rw [h] at h1; cases h1)
    subst e
    have hs := T.some_step ha
    simp only [State.step, F.alive m, h1] at hs
    rw [if_neg (by simp)] at hs
    obtain ⟨m', hm', h⟩ := hset (m + 1) (course_call (by omega) hi).1 (by rw [← Option.some.inj hs]; simp)
    exact ⟨m', by omega, h⟩
  rcases hp with hp | hp | hp
  · obtain ⟨m, a, hm, h1, ha, e⟩ := F.weak.taken (.store i) (P := fun m => (T.st m).phase i = .created) (n := n) hp
      (by
        intro m hm h
        exact ⟨_, rfl, by simp [State.step, F.alive m, h, (course_call hm hi).1]⟩)
      (by
        intro m hm h hno
        rcases course_phase (T := T) m i (course_call hm hi).1 with h1 | ⟨h1, _⟩ | ⟨_, h1, _⟩ | ⟨_, h1, _⟩ | ⟨_, h1, _⟩ | ⟨_, _, h1, _⟩
        · exact h1.trans h
        · exact absurd rfl (hno _ h1)
        · rw [h] at h1; cases h1
        · rw [h] at h1; cases h1
        · rw [h] at h1; cases h1
        · rw [h] at h1; cases h1)
    subst e
    have hs := T.some_step ha
    simp only [State.step, F.alive m, h1, (course_call hm hi).1] at hs
    rw [if_neg (by simp), if_pos trivial] at hs
    obtain ⟨m', hm', h⟩ := hsto (m + 1) (course_call (by omega) hi).1 (by rw [← Option.some.inj hs]; simp)
    exact ⟨m', by omega, h⟩
  · exact hsto n hi hp
  · exact hset n hi hp

/-- A call for which there is a result returns it. -/
theorem FairCourse.returns {n i : Nat} {r : Ret} (hi : i < (T.st n).n) (hc : (T.st n).chan i = some r)
    (hp : ∀ r, (T.st n).phase i ≠ .received r ∧ (T.st n).phase i ≠ .returned r) :
    ∃ m, n ≤ m ∧ (T.st m).phase i = .returned r := by
  -- the call waits, and the result is there
  obtain ⟨n1, hn1, h1, h2⟩ : ∃ m, n ≤ m ∧ (T.st m).phase i = .waiting ∧ (T.st m).chan i = some r := by
    by_cases hw : (T.st n).phase i = .waiting
    · exact ⟨n, Nat.le_refl _, hw, hc⟩
    have hpre : (T.st n).phase i = .created ∨ (T.st n).phase i = .stored ∨ (T.st n).phase i = .set := by
      cases e : (T.st n).phase i with
      | created => exact Or.inl rfl
      | stored => exact Or.inr (Or.inl rfl)
      | set => exact Or.inr (Or.inr rfl)
      | waiting => exact absurd e hw
      | received r => exact absurd e (hp r).1
      | returned r => exact absurd e (hp r).2
    obtain ⟨m, hm, h1, ha, h2⟩ := F.commits hi hpre
    refine ⟨m + 1, by omega, h2, ?_⟩
    -- nobody takes the result before
    have hk : ∀ k, n ≤ k → ((T.st k).chan i = some r ∧ ((T.st k).phase i).result = none) ∨ ((∃ r, (T.st k).phase i = .received r) ∨ ∃ r, (T.st k).phase i = .returned r) := by
      refine Trace.keep (Or.inl ⟨hc, by rcases hpre with h | h | h <;> rw [h] <;> rfl⟩) ?_
      rintro k hk (⟨h3, h4⟩ | h3)
      · cases e : T.act k with
        | none => rw [T.none_step e]; exact Or.inl ⟨h3, h4⟩
        | some a =>
          have h5 := course_phase (T := T) k i (course_call hk hi).1
          rcases chan_step (T.some_step e) h3 with h6 | rfl
          · rcases h5 with h | ⟨_, _, h⟩ | ⟨_, _, h⟩ | ⟨_, _, h⟩ | ⟨_, _, r', _, h⟩ | ⟨_, r', _, h⟩
            · exact Or.inl ⟨h6, by rw [h]; exact h4⟩
            · exact Or.inl ⟨h6, by rw [h]; rfl⟩
            · exact Or.inl ⟨h6, by rw [h]; rfl⟩
            · exact Or.inl ⟨h6, by rw [h]; rfl⟩
            · exact Or.inr (Or.inl ⟨r', h⟩)
            · exact Or.inr (Or.inr ⟨r', h⟩)
          · have hs := T.some_step e
            simp only [State.step, F.alive k] at hs
            rw [if_neg (by simp)] at hs
            split at hs
            · rw [← Option.some.inj hs]
              exact Or.inr (Or.inl ⟨_, upd_same _ _ _⟩)
            · cases hs
      · right
        rcases course_phase (T := T) k i (course_call hk hi).1 with h | ⟨_, h, _⟩ | ⟨_, h, _⟩ | ⟨_, h, _⟩ | ⟨_, h, _⟩ | ⟨_, r', _, h⟩
        · rw [h]; exact h3
        · rcases h3 with ⟨_, h3⟩ | ⟨_, h3⟩ <;> rw [h3] at h <;> cases h
        · rcases h3 with ⟨_, h3⟩ | ⟨_, h3⟩ <;> rw [h3] at h <;> cases h
        · rcases h3 with ⟨_, h3⟩ | ⟨_, h3⟩ <;> rw [h3] at h <;> cases h
        · rcases h3 with ⟨_, h3⟩ | ⟨_, h3⟩ <;> rw [h3] at h <;> cases h
        · exact Or.inr ⟨r', h⟩
    rcases hk (m + 1) (by omega) with h | ⟨_, h⟩ | ⟨_, h⟩
    · exact h.1
    all_goals rw [h2] at h; cases h
  have hi1 := (course_call hn1 hi).1
  -- it receives the result
  obtain ⟨m, a, hm, ⟨h3, h4⟩, ha, e⟩ := F.weak.taken (.receive i) (P := fun m => (T.st m).phase i = .waiting ∧ (T.st m).chan i = some r)
    (n := n1) ⟨h1, h2⟩
    (by
      rintro m hm ⟨h, h'⟩
      exact ⟨_, rfl, by simp [State.step, F.alive m, h, h']⟩)
    (by
      rintro m hm ⟨h, h'⟩ hno
      refine ⟨?_, ?_⟩
      · rcases course_phase (T := T) m i (course_call hm hi1).1 with h1 | ⟨_, h1, _⟩ | ⟨_, h1, _⟩ | ⟨_, h1, _⟩ | ⟨h1, _⟩ | ⟨_, _, h1, _⟩
        · exact h1.trans h
        · rw [h] at h1; cases h1
        · rw [h] at h1; cases h1
        · rw [h] at h1; cases h1
        · exact absurd rfl (hno _ h1)
        · rw [h] at h1; cases h1
      · cases e : T.act m with
        | none => rw [T.none_step e]; exact h'
        | some a =>
          rcases chan_step (T.some_step e) h' with h6 | rfl
          · exact h6
          · exact absurd rfl (hno _ e))
  subst e
  have hs := T.some_step ha
  simp only [State.step, F.alive m, h3, h4] at hs
  rw [if_neg (by simp)] at hs
  have hi2 := (course_call hm hi1).1
  have h5 : (T.st (m + 1)).phase i = .received r := by rw [← Option.some.inj hs]; simp
  have hi3 := (course_call (Nat.le_succ m) hi2).1
  -- it closes the channel
  obtain ⟨m', a, hm', h6, ha', e⟩ := F.weak.taken (.closeChan i) (P := fun m => (T.st m).phase i = .received r)
    (n := m + 1) h5
    (by
      rintro m hm h
      exact ⟨_, rfl, by simp [State.step, F.alive m, h]⟩)
    (by
      rintro m hm h hno
      rcases course_phase (T := T) m i (course_call hm hi3).1 with h1 | ⟨_, h1, _⟩ | ⟨_, h1, _⟩ | ⟨_, h1, _⟩ | ⟨_, h1, _⟩ | ⟨h1, _⟩
      · exact h1.trans h
      · rw [h] at h1; cases h1
      · rw [h] at h1; cases h1
      · rw [h] at h1; cases h1
      · rw [h] at h1; cases h1
      · exact absurd rfl (hno _ h1))
  subst e
  have hs := T.some_step ha'
  simp only [State.step, F.alive m', h6] at hs
  rw [if_neg (by simp)] at hs
  exact ⟨m' + 1, by omega, by rw [← Option.some.inj hs]; simp⟩

/-- A result that has arrived is returned by the call, if the channel of the call is free for it. -/
theorem FairCourse.delivers {n k : Nat} (hk : k < (T.st n).nc) (hs : ((T.st n).cb k).phase = .sending)
    (hfree : ∀ m, n ≤ m → ((T.st m).cb k).phase = .sending →
      (T.st m).chanClosed ((T.st m).cb k).rpc = false ∧ (T.st m).chan ((T.st m).cb k).rpc = none)
    (hp : ∀ m, n ≤ m → ((T.st m).cb k).phase = .sending → ∀ r, (T.st m).phase ((T.st m).cb k).rpc ≠ .received r ∧
      (T.st m).phase ((T.st m).cb k).rpc ≠ .returned r) :
    ∃ m, n ≤ m ∧ (T.st m).phase ((T.st n).cb k).rpc = .returned ((T.st n).cb k).ret := by
  have hnc : ∀ {m}, n ≤ m → k < (T.st m).nc := fun hm =>
    Nat.lt_of_lt_of_le hk (T.later (Q := fun s t => s.nc ≤ t.nc) (fun _ => Nat.le_refl _) (fun _ _ _ => Nat.le_trans)
      (fun _ _ _ h => nc_step h) hm)
  obtain ⟨m, a, hm, h1, ha, e⟩ := F.weak.taken (.callback k) (P := fun m => (T.st m).cb k = (T.st n).cb k) (n := n) rfl
    (by
      intro m hm h
      have h2 := hfree m hm (by rw [h]; exact hs)
      rw [h] at h2
      refine ⟨_, rfl, ?_⟩
      simp [State.step, F.alive m, h, hs, h2])
    (by
      intro m hm h hno
      cases e : T.act m with
      | none => rw [T.none_step e]; exact h
      | some a =>
        rcases cb_step (T.some_step e) k with h1 | ⟨h1, _⟩ | ⟨rfl, _⟩ | ⟨_, h1, _⟩
        · exact h1.trans h
        · have := hnc hm; omega
        · exact absurd rfl (hno _ e)
        · rw [h, hs] at h1; cases h1)
  subst e
  have hc : (T.st (m + 1)).chan ((T.st n).cb k).rpc = some ((T.st n).cb k).ret := by
    have hst := T.some_step ha
    have h2 := hfree m hm (by rw [h1]; exact hs)
    simp only [State.step, F.alive m, h1, hs] at hst h2
    rw [if_neg (by simp), h2.1, h2.2] at hst
    simp only at hst
    rw [if_neg (by simp)] at hst
    rw [← Option.some.inj hst]
    simp
  have hi := ((F.rpcInv (m + 1)).chan _ _ hc).2
  have hph : (T.st (m + 1)).phase ((T.st n).cb k).rpc = (T.st m).phase ((T.st n).cb k).rpc := by
    have hst := T.some_step ha
    rcases phase_step hst ((T.st n).cb k).rpc with h | ⟨_, _, _, h⟩ | ⟨h, _⟩ | ⟨h, _⟩ | ⟨h, _⟩ | ⟨h, _⟩ | ⟨h, _⟩
    · exact h
    all_goals cases h
  have hp' := hp m hm (by rw [h1]; exact hs)
  rw [h1] at hp'
  obtain ⟨m', hm', h⟩ := F.returns hi hc (fun r => by rw [hph]; exact hp' r)
  exact ⟨m', by omega, h⟩

/-! ## Requests -/

/-- Requests are answered if the method returns. -/
theorem FairCourse.answers {n k : Nat} (hk : k < (T.st n).nx) (ho : (T.st n).exec k |>.phase |> (· ≠ .over))
    (hfin : ∀ m, n ≤ m → ((T.st m).exec k).phase = .running → ∃ m', m ≤ m' ∧ ((T.st m').exec k).phase ≠ .running) :
    ∃ m r, n ≤ m ∧ (T.st (m + 1)).log = (T.st m).log ++ [.sent ((T.st n).exec k).peer (.rpcResponse ((T.st n).exec k).index
      ((T.st n).exec k).call.slot ((T.st n).exec k).call.meth (if ((T.st n).exec k).call.withResult then Ret.result r else [])
        (Ret.err r))] := by
  have hnx : ∀ {m}, n ≤ m → k < (T.st m).nx := fun hm =>
    Nat.lt_of_lt_of_le hk (T.later (Q := fun s t => s.nx ≤ t.nx) (fun _ => Nat.le_refl _) (fun _ _ _ => Nat.le_trans)
      (fun _ _ _ h => nx_step h) hm)
  have hret : ∀ n' r, n ≤ n' → (T.st n').exec k = { (T.st n).exec k with phase := .returned r } →
      ∃ m, n ≤ m ∧ (T.st (m + 1)).log = (T.st m).log ++ [.sent ((T.st n).exec k).peer (.rpcResponse ((T.st n).exec k).index
      ((T.st n).exec k).call.slot ((T.st n).exec k).call.meth (if ((T.st n).exec k).call.withResult then Ret.result r else [])
        (Ret.err r))] := by
    intro n' r hn' h
    obtain ⟨m, a, hm, h1, ha, e⟩ := F.weak.taken (.respond k) (P := fun m => (T.st m).exec k = { (T.st n).exec k with phase := .returned r })
      (n := n') h
      (by
        intro m hm h
        exact ⟨_, rfl, by simp [State.step, F.alive m, h]⟩)
      (by
        intro m hm h hno
        cases e : T.act m with
        | none => rw [T.none_step e]; exact h
        | some a =>
          rcases exec_step (T.some_step e) k with h1 | ⟨h1, _⟩ | ⟨_, h1, _⟩ | ⟨_, _, h1, _⟩ | ⟨_, rfl, _⟩
          · exact h1.trans h
          · have := hnx (m := m) (by omega); omega
          · rw [h] at h1; cases h1
          · rw [h] at h1; cases h1
          · exact absurd rfl (hno _ e))
    subst e
    refine ⟨m, by omega, ?_⟩
    have hs := T.some_step ha
    simp only [State.step, F.alive m, h1] at hs
    rw [if_neg (by simp)] at hs
    rw [← Option.some.inj hs]
  have hrun : ∀ n', n ≤ n' → (T.st n').exec k = { (T.st n).exec k with phase := .running } →
      ∃ m r, n ≤ m ∧ (T.st (m + 1)).log = (T.st m).log ++ [.sent ((T.st n).exec k).peer (.rpcResponse ((T.st n).exec k).index
      ((T.st n).exec k).call.slot ((T.st n).exec k).call.meth (if ((T.st n).exec k).call.withResult then Ret.result r else [])
        (Ret.err r))] := by
    intro n' hn' h
    obtain ⟨m', hm', hne, hfirst⟩ := Trace.first (hfin n' hn' (by rw [h]))
    have hrun : ∀ j, n' ≤ j → j < m' → (T.st j).exec k = { (T.st n).exec k with phase := .running } ∧
        ((T.st (j + 1)).exec k = { (T.st n).exec k with phase := .running } ∨
          ∃ r, (T.st (j + 1)).exec k = { (T.st n).exec k with phase := .returned r }) := by
      have key : ∀ m, n' ≤ m → (T.st m).exec k = { (T.st n).exec k with phase := .running } →
          (T.st (m + 1)).exec k = { (T.st n).exec k with phase := .running } ∨
          ∃ r, (T.st (m + 1)).exec k = { (T.st n).exec k with phase := .returned r } := by
        intro m hm h
        cases e : T.act m with
        | none => rw [T.none_step e]; exact Or.inl h
        | some a =>
          rcases exec_step (T.some_step e) k with h1 | ⟨h1, _⟩ | ⟨_, h1, _⟩ | ⟨r, rfl, _, h1⟩ | ⟨_, _, h1, _⟩
          · exact Or.inl (h1.trans h)
          · have := hnx (m := m) (by omega); omega
          · rw [h] at h1; cases h1
          · rw [h] at h1; exact Or.inr ⟨r, h1⟩
          · rw [h] at h1; cases h1
      intro j hj hjm
      have : (T.st j).exec k = { (T.st n).exec k with phase := .running } := by
        refine Trace.keep (P := fun j => j < m' → (T.st j).exec k = { (T.st n).exec k with phase := .running }) (fun _ => h) ?_ j hj hjm
        intro j hj h hjm
        rcases key j hj (h (by omega)) with h | ⟨r, h⟩
        · exact h
        · exact absurd (show ((T.st (j + 1)).exec k).phase ≠ .running by rw [h]; simp) (hfirst (j + 1) (by omega) hjm)
      exact ⟨this, key j hj this⟩
    have hlt : n' < m' := by
      refine Nat.lt_of_not_le fun hle => hne ?_
      have : m' = n' := by omega
      rw [this, h]
    obtain ⟨h1, h2⟩ := hrun (m' - 1) (by omega) (by omega)
    rw [show m' - 1 + 1 = m' by omega] at h2
    rcases h2 with h2 | ⟨r, h2⟩
    · exact absurd (by rw [h2]) hne
    obtain ⟨m', hm', h⟩ := hret m' r (by omega) h2
    exact ⟨m', r, by omega, h⟩
  cases hph : ((T.st n).exec k).phase with
  | over => exact absurd hph ho
  | running => exact hrun n (Nat.le_refl _) (by rw [← hph])
  | returned r =>
    obtain ⟨m, hm, h⟩ := hret n r (Nat.le_refl _) (by rw [← hph])
    exact ⟨m, r, hm, h⟩
  | spawned =>
    obtain ⟨m, a, hm, h1, ha, e⟩ := F.weak.taken (.invoke k) (P := fun m => (T.st m).exec k = (T.st n).exec k)
      (n := n) rfl
      (by
        intro m hm h
        exact ⟨_, rfl, by simp [State.step, F.alive m, h, hph]⟩)
      (by
        intro m hm h hno
        cases e : T.act m with
        | none => rw [T.none_step e]; exact h
        | some a =>
          rcases exec_step (T.some_step e) k with h1 | ⟨h1, _⟩ | ⟨rfl, _⟩ | ⟨_, _, h1, _⟩ | ⟨_, _, h1, _⟩
          · exact h1.trans h
          · have := hnx (m := m) (by omega); omega
          · exact absurd rfl (hno _ e)
          · rw [h, hph] at h1; cases h1
          · rw [h, hph] at h1; cases h1)
    subst e
    have hs := T.some_step ha
    simp only [State.step, F.alive m, h1, hph] at hs
    rw [if_neg (by simp)] at hs
    exact hrun (m + 1) (by omega) (by rw [← Option.some.inj hs]; simp)

/-! ## What comes of control packets -/

/-- The handler of a ready packet commits the calls for the slots announced that wait to be sent. -/
theorem FairCourse.ready {n p i : Nat} {l : List Str} (h : (T.st n).handler p = .slots l) (hl : ((T.st n).call i).slot ∈ l)
    (hi : i < (T.st n).n) (hw : ∀ m, n ≤ m → (T.st m).rpcs ((T.st m).index i) = some i ∧ (T.st m).req i = true) :
    ∃ m, n ≤ m ∧ ∃ h', T.st (m + 1) = { (T.st m).doCommit i with handler := h' } := by
  induction l generalizing n with
  | nil => cases hl
  | cons x l ih =>
    obtain ⟨m, o, hm, hp, ha, hs⟩ := F.works (n := n) (p := p) (by simp [h]) (by simp [h]) (by simp [h])
    have hwk := work_step hs (F.alive _)
    rw [hp, h] at hwk
    simp only at hwk
    obtain ⟨hi1, hc1, hx1⟩ := course_call (T := T) (show n ≤ m by omega) hi
    by_cases e : ((T.st n).call i).slot = x
    · -- the loop visits the call
      obtain ⟨m1, v, hm1, h1, ha1⟩ := F.loop_visits (n := m + 1) (p := p) (i := i) ⟨_, Or.inl hwk⟩
        (by
          refine List.mem_filter.mpr ⟨List.mem_range.mpr hi1, ?_⟩
          simpa using (hw m hm).1)
        (by rw [hwk]; simp [visitedOf]) (fun k hk => (hw k (by omega)).1)
      obtain ⟨_, _, _, _, h2, _, h3⟩ := visit_step (T.some_step ha1)
      rw [h1] at h2
      cases h2
      rw [if_pos (hw m1 (by omega)).2] at h3
      -- it has the right slot
      obtain ⟨m2, o2, hm2, hp2, ha2, hs2⟩ := F.works (n := m1 + 1) (p := p) (by simp [h3]) (by simp [h3]) (by simp [h3])
      have hw2 := work_step hs2 (F.alive _)
      rw [hp2, h3] at hw2
      simp only at hw2
      rw [if_pos (by rw [(course_call (T := T) (show n ≤ m2 by omega) hi).2.1]; exact e)] at hw2
      -- it is committed
      obtain ⟨m3, o3, hm3, hp3, ha3, hs3⟩ := F.works (n := m2 + 1) (p := p) (by simp [hw2.2]) (by simp [hw2.2]) (by simp [hw2.2])
      have hw3 := work_step hs3 (F.alive _)
      rw [hp3, hw2.2] at hw3
      exact ⟨m3, by omega, _, hw3⟩
    · obtain ⟨k, hk, h1⟩ := F.loop_ends (n := m + 1) ⟨_, Or.inl hwk⟩
      obtain ⟨hi2, hc2, hx2⟩ := course_call (T := T) (show n ≤ k by omega) hi
      obtain ⟨m', hm', h'⟩ := ih (n := k) h1 (by
        rw [hc2]
        exact (List.mem_cons.mp hl).resolve_left e) hi2 (fun j hj => hw j (by omega))
      exact ⟨m', by omega, h'⟩

/-- The handler of a register request announces the features. -/
theorem FairCourse.replies {n p : Nat} {l : List Str} (h : (T.st n).handler p = .reply l) :
    ∃ m order, n ≤ m ∧ (∀ x, x ∈ order ↔ x ∈ collectOf cs) ∧ (T.st (m + 1)).log = (T.st m).log ++ [.sent p (.ready order)] ∧
      (T.st (m + 1)).handler p = .cache l := by
  obtain ⟨m, o, hm, hp, ha, hs⟩ := F.works (n := n) (p := p) (by simp [h]) (by simp [h]) (by simp [h])
  have hwk := work_step hs (F.alive _)
  rw [hp, h] at hwk
  obtain ⟨h1, order, h2, h3⟩ := hwk
  exact ⟨m, order, hm, h2, h3, h1⟩

/-- The handler of a register response announces the features. -/
theorem FairCourse.announces {n p : Nat} {port : BitVec 64} (h : (T.st n).handler p = .listening port) :
    ∃ m order, n ≤ m ∧ (∀ x, x ∈ order ↔ x ∈ collectOf cs) ∧
      (T.st (m + 1)).log = (T.st m).log ++ [.sent p (.ready order), .start] := by
  obtain ⟨m, o, hm, hp, ha, hs⟩ := F.works (n := n) (p := p) (by simp [h]) (by simp [h]) (by simp [h])
  have hwk := work_step hs (F.alive _)
  rw [hp, h] at hwk
  have hwk : (T.st (m + 1)).handler p = .announce := hwk
  obtain ⟨m1, o1, hm1, hp1, ha1, hs1⟩ := F.works (n := m + 1) (p := p) (by simp [hwk]) (by simp [hwk]) (by simp [hwk])
  have hw1 := work_step hs1 (F.alive _)
  rw [hp1, hwk] at hw1
  obtain ⟨_, order, h2, h3⟩ := hw1
  exact ⟨m1, order, by omega, h2, h3⟩

/-- It takes down the features of the peer. -/
theorem FairCourse.learns {n p : Nat} {l : List Str} (h : (T.st n).handler p = .cache l) {slot : Str} (hl : slot ∈ l) :
    ∃ m, n ≤ m ∧ ∀ k, m ≤ k → (T.st k).remote slot ≠ none := by
  induction l generalizing n with
  | nil => cases hl
  | cons x l ih =>
    obtain ⟨m, o, hm, hp, ha, hs⟩ := F.works (n := n) (p := p) (by simp [h]) (by simp [h]) (by simp [h])
    have hwk := work_step hs (F.alive _)
    rw [hp, h] at hwk
    by_cases e : slot = x
    · subst e
      exact ⟨m + 1, by omega, T.stays (P := fun s => s.remote slot ≠ none) (fun s a t h hs => remote_step hs h) (by rw [hwk.2]; simp)⟩
    · obtain ⟨k, hk, h'⟩ := ih (n := m + 1) hwk.1 ((List.mem_cons.mp hl).resolve_left e)
      exact ⟨k, by omega, h'⟩

/-- The goroutine of a new connection sends the register request. -/
theorem FairCourse.greets {n e : Nat} (h : (T.st n).greeting e = true) :
    ∃ m order, n ≤ m ∧ (∀ x, x ∈ order ↔ x ∈ collectOf cs) ∧ (T.st (m + 1)).log = (T.st m).log ++ [.sent e (.registerRequest order)] := by
  obtain ⟨m, a, hm, h1, ha, o, e'⟩ := F.weak.taken (.greet e) (P := fun m => (T.st m).greeting e = true) (n := n) h
    (by
      intro m hm h
      exact ⟨.greet e (collectOf cs), ⟨_, rfl⟩, by simp [State.step, F.alive m, h, isPerm_refl]⟩)
    (by
      intro m hm h hno
      cases e' : T.act m with
      | none => rw [T.none_step e']; exact h
      | some a =>
        rcases greeting_step (T.some_step e') h with h1 | ⟨o, rfl⟩
        · exact h1
        · exact absurd ⟨o, rfl⟩ (hno _ e'))
  subst e'
  have hs := T.some_step ha
  simp only [State.step, F.alive m, h1] at hs
  rw [if_neg (by simp)] at hs
  split at hs
  · rename_i ho
    refine ⟨m, o, hm, fun x => (List.isPerm_iff.mp ho.2).mem_iff, ?_⟩
    rw [← Option.some.inj hs]
  · cases hs

omit F in
/-- A call that has not been answered stays in the table, if no other call has its index. -/
theorem kept_run (as : List Act) (s : State) (h : run (State.step cs) .init as = some s) (i : Nat) (hi : i < s.n)
    (hp : s.phase i ≠ .created) (hd : ∀ j, j < s.n → s.index j = s.index i → j = i) (ha : ∀ r, ¬ Answered s.log (s.index i) r) :
    s.rpcs (s.index i) = some i := by
  refine (run_inv (I := fun s : State => (RpcInv s ∧ HandInv s) ∧ ∀ i, i < s.n → s.phase i ≠ .created →
    (∀ j, j < s.n → s.index j = s.index i → j = i) → (∀ r, ¬ Answered s.log (s.index i) r) → s.rpcs (s.index i) = some i)
    ?_ as _ _ ⟨⟨RpcInv.init, fun p => by simp [State.init]⟩, by simp [State.init]⟩ h).2 i hi hp hd ha
  intro s a t ⟨⟨I, J⟩, K⟩ hs
  refine ⟨⟨rpcInv_step cs s a t J I hs, handInv_step cs s a t I J hs⟩, ?_⟩
  intro i hi hp hd ha
  obtain ⟨hn, hc⟩ := call_step hs
  obtain ⟨l, hl⟩ := log_step hs
  by_cases hi' : i < s.n
  · have hx := (hc i hi').2
    rw [hx] at ha hd ⊢
    have hd' : ∀ j, j < s.n → s.index j = s.index i → j = i := by
      intro j hj e
      exact hd j (by omega) (by rw [(hc j hj).2]; exact e)
    have ha' : ∀ r, ¬ Answered s.log (s.index i) r := fun r h => ha r (by rw [hl]; exact h.mono l)
    by_cases hc' : s.phase i = .created
    · rcases phase_step hs i with h | ⟨h, _⟩ | ⟨_, _, _, h⟩ | ⟨_, h, _⟩ | ⟨_, h, _⟩ | ⟨_, h, _⟩ | ⟨_, _, h, _⟩
      · rw [h] at hp; exact absurd hc' hp
      · omega
      · rw [h]; simp
      all_goals rw [hc'] at h; cases h
    · have hk := K i hi' hc' hd' ha'
      rcases rpcs_step hs (s.index i) with h | ⟨j, _, _, h1, h2, h⟩ | ⟨k, _, h1, h2, _⟩
      · rw [h]; exact hk
      · rw [h, hd' j h2 h1]
      · have hk : k < s.nc := by
          rcases Nat.lt_or_ge k s.nc with h | h
          · exact h
          · rw [I.cbFresh k h] at h1; cases h1
        have := (I.cb k hk).2.2
        rw [h2] at this
        exact absurd this (ha' _)
  · exfalso
    rcases phase_step hs i with h | ⟨h, c, x, e⟩ | ⟨h1, _, h, _⟩ | ⟨_, h, _⟩ | ⟨_, h, _⟩ | ⟨_, h, _⟩ | ⟨_, _, h, _⟩
    · rw [h] at hp; exact hp (I.fresh i (by omega))
    · subst e
      subst h
      simp only [State.step] at hs
      repeat' split at hs
      all_goals cases hs
      · exact hi' hi
      · simp at hp
    · subst h1
      simp only [State.step] at hs
      repeat' split at hs
      all_goals cases hs
    all_goals rw [I.fresh i (by omega)] at h; cases h

end

end Verif.Dock
