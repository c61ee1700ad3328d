import Verif.System.WorldQuiet
import Verif.Props.System8
import Verif.Props.World6

/-!
# C127: which calls return in fair executions of a system with callees
-/

namespace Verif.Props

open Verif Verif.Codec Verif.Proto Verif.System
open Verif.Dock (Carried LastNamed)

variable {C : Nat → List Carried} {T : Nat → Nat → Chan.Target} {H R : Nat → Str} {black : List Int}
  {E : World.Course C T H R black}

/-- The clock of dock `d` gives no reading twice. -/
def ReadingsDiffer (E : World.Course C T H R black) (d : Nat) : Prop :=
  ∀ n i j, i < ((E.st n).sys.dock d).n → j < ((E.st n).sys.dock d).n →
    ((E.st n).sys.dock d).index i = ((E.st n).sys.dock d).index j → i = j

/-- Dock `d` has stored its socket to the hub, and some dock that carries the feature as discoverable joins, before or
after. -/
def Offered (E : World.Course C T H R black) (n d : Nat) (slot : Str) : Prop :=
  ((E.st n).sys.dock d).sockets.head? = some .hub ∧
    ∃ n0 d' f, E.act n0 = some (.sys (.join d')) ∧ LastNamed (C d') slot f ∧ f.discoverable = true

/-- The methods return. -/
def BodiesReturn (E : World.Course C T H R black) : Prop :=
  ∀ n d c q, ((E.st n).rest d).chan.handler c = .running q → ∃ m, n ≤ m ∧ ((E.st m).rest d).chan.handler c ≠ .running q

/-! ## Steps -/

theorem course_suffix {n m : Nat} (h : n ≤ m) : ∃ more, run (World.State.step C T H R black) (E.st n) more = some (E.st m) := by
  refine Trace.keep (P := fun m => ∃ more, run (World.State.step C T H R black) (E.st n) more = some (E.st m)) ⟨[], rfl⟩ ?_ m h
  rintro m _ ⟨more, hm⟩
  cases ha : E.act m with
  | none => exact ⟨more, by rw [E.none_step ha]; exact hm⟩
  | some a => exact ⟨more ++ [a], by rw [run_append, hm]; simp [run, E.some_step ha]⟩

theorem course_facts (n d : Nat) : AllInv (((E.st n).at d).chan) ∧ TimerInv ((E.st n).at d).chan ∧ BlockInv ((E.st n).at d) ∧
    Whole.Inv (C d) ((E.st n).at d) := (Reach.facts (E.reach n) d).2

/-- What a step does to one dock. -/
theorem course_at (m d : Nat) : (E.st (m + 1)).at d = (E.st m).at d ∨ ∃ a b, E.act m = some a ∧
    ((E.st m).at d).step (C d) (T d) b = some ((E.st (m + 1)).at d) ∧
    (a = .dock d b ∨ (∃ b', b = .dock b' ∧ Whole.tiedD b' = false) ∧ ∀ d' c, a ≠ .dock d' c) := by
  cases ha : E.act m with
  | none => exact Or.inl (by rw [E.none_step ha])
  | some a =>
    exact (World.at_step (E.some_step ha) (World.course_inv m).down d).imp id fun ⟨_, b, h1, h2⟩ => ⟨a, b, rfl, h1, h2⟩

theorem course_served {n m d k q : Nat} (hm : n ≤ m) (h : ((E.st n).rest d).served k = some q) :
    ((E.st m).rest d).served k = some q := by
  refine Trace.keep (P := fun m => ((E.st m).rest d).served k = some q) h (fun m _ h => ?_) m hm
  rcases course_at (E := E) m d with e | ⟨_, b, _, hs, _⟩
  · have : ((E.st (m + 1)).at d).served k = ((E.st m).at d).served k := by rw [e]
    exact this.trans h
  · exact (keep_step (course_facts m d).2.2.2 hs).1 k q h

/-- What becomes of an execution. -/
theorem course_exec {n m d k : Nat} (hm : n ≤ m) (hk : k < ((E.st n).sys.dock d).nx) :
    k < ((E.st m).sys.dock d).nx ∧ (((E.st m).sys.dock d).exec k).peer = (((E.st n).sys.dock d).exec k).peer ∧
    (((E.st m).sys.dock d).exec k).index = (((E.st n).sys.dock d).exec k).index ∧
    (((E.st m).sys.dock d).exec k).call = (((E.st n).sys.dock d).exec k).call := by
  obtain ⟨as, h⟩ := E.reach n
  obtain ⟨more, h'⟩ := course_suffix (E := E) hm
  obtain ⟨-, h1, h2, -⟩ := (world_keep h h').1 d
  exact ⟨by omega, h2 k hk⟩

theorem course_owner {n m e : Nat} {p : Proc} (hm : n ≤ m) (ho : (E.st n).sys.owner e = some p) : (E.st m).sys.owner e = some p := by
  obtain ⟨as, h⟩ := E.reach n
  obtain ⟨more, h'⟩ := course_suffix (E := E) hm
  exact (world_keep h h').2 e p ho

theorem course_index {n m d i : Nat} (hm : n ≤ m) (hi : i < ((E.st n).sys.dock d).n) :
    i < ((E.st m).sys.dock d).n ∧ ((E.st m).sys.dock d).index i = ((E.st n).sys.dock d).index i := by
  obtain ⟨as, h⟩ := E.reach n
  obtain ⟨more, h'⟩ := course_suffix (E := E) hm
  obtain ⟨⟨h1, h2⟩, -⟩ := (world_keep h h').1 d
  exact ⟨by omega, h2 i hi⟩

/-- A call that has returned has returned for good. -/
theorem course_returned {n m d i : Nat} {r : Dock.Ret} (F : World.Fair E) (hm : n ≤ m) (hi : i < ((E.st n).sys.dock d).n)
    (h : ((E.st n).sys.dock d).phase i = .returned r) : ((E.st m).sys.dock d).phase i = .returned r := by
  refine Trace.keep (P := fun m => ((E.st m).sys.dock d).phase i = .returned r) h ?_ m hm
  intro j hj h
  have hij := (course_index (E := E) hj hi).1
  have h : ((dockCourse (World.sysCourse E F.chan) d).st j).phase i = .returned r := h
  rcases Dock.course_phase (T := dockCourse (World.sysCourse E F.chan) d) j i hij with h1 | ⟨_, h1, _⟩ | ⟨_, h1, _⟩ | ⟨_, h1, _⟩ | ⟨_, h1, _⟩ | ⟨_, r, h1, _⟩
  · exact h1.trans h
  all_goals rw [h] at h1; cases h1

/-! ## Requests that are executed -/

/-- When package chancall has the result, the goroutine that serves the request goes on. -/
theorem finishes (F : World.Fair E) {n d k q : Nat} (hs : ((E.st n).rest d).served k = some q)
    (hr : ((E.st n).rest d).chan.result q ≠ none) : ∃ m, n ≤ m ∧ (((E.st m).sys.dock d).exec k).phase ≠ .running := by
  refine Classical.byContradiction fun hno => ?_
  have hrun : ∀ m, n ≤ m → (((E.st m).sys.dock d).exec k).phase = .running := fun m hm =>
    Classical.byContradiction fun e => hno ⟨m, hm, e⟩
  have hres : ∀ m, n ≤ m → ((E.st m).rest d).chan.result q ≠ none := fun m hm => by
    have : ((E.st m).rest d).chan.result q = ((E.st n).rest d).chan.result q :=
      (fair_later (E := World.chanCourse E F.chan d) hm q).2.2.2.2.1 hr
    rw [this]; exact hr
  obtain ⟨m, a, hm, ha, rfl⟩ := F.weak _ (.finish d k) n (by
    intro m hm
    refine ⟨_, rfl, ?_⟩
    obtain ⟨x, hx⟩ := Option.ne_none_iff_exists'.mp (hres m hm)
    simp only [World.State.step, F.up m, World.alone, Whole.State.step, World.State.at, F.dock m, F.chan m,
      course_served hm hs, hx, Dock.State.step, hrun m hm]
    simp)
  obtain ⟨_, _, w, hw, hput⟩ := World.step_whole (E.some_step ha)
  have hph := hrun (m + 1) (by omega)
  simp only [Whole.State.step] at hw
  split at hw
  · cases hw
  split at hw
  · split at hw
    · obtain ⟨x, hx, rfl⟩ := Option.map_eq_some_iff.mp hw
      obtain ⟨_, _, h2, _⟩ := Whole.finish_step hx
      have : (E.st (m + 1)).sys.dock d = x := by
        have e := World.at_put (E.st m) d
        have e2 := congrArg (fun S : World.State => (S.at d).dock) hput
        simp only [e] at e2
        exact e2
      rw [this, h2, upd_same] at hph
      cases hph
    · cases hw
  · cases hw

/-- An execution that goes on for ever is that of a request to a callee that runs one method for ever, and its own method
has not been started. -/
theorem runs_stuck (F : World.Fair E) {n d k : Nat} (hk : k < ((E.st n).sys.dock d).nx)
    (hrun : ∀ m, n ≤ m → (((E.st m).sys.dock d).exec k).phase = .running) :
    ∃ q c, LastAt (C d) (((E.st n).sys.dock d).exec k).call.slot c ∧ RunsForever (World.chanCourse E F.chan d) c ∧
      ∀ m, n ≤ m → ((E.st m).rest d).served k = some q ∧ ((E.st m).rest d).chan.startedAt q = none := by
  obtain ⟨-, -, -, W⟩ := course_facts (E := E) n d
  obtain ⟨FC, U⟩ := F.chans d
  obtain ⟨q, hq⟩ := Option.ne_none_iff_exists'.mp (W.invoked k hk (by
    intro e
    have e' := hrun n (Nat.le_refl _)
    have e : (((E.st n).sys.dock d).exec k).phase = .spawned := e
    rw [e] at e'
    cases e'))
  have hq : ((E.st n).rest d).served k = some q := hq
  obtain ⟨w1, w2, -⟩ := W.served k q hq
  have never : ∀ m, n ≤ m → ((E.st m).rest d).chan.result q = none := by
    intro m hm
    refine Classical.byContradiction fun hne => ?_
    obtain ⟨m', hm', h⟩ := finishes F (course_served hm hq) hne
    exact h (hrun m' (by omega))
  have unstarted : ∀ m, n ≤ m → ((E.st m).rest d).chan.startedAt q = none := by
    intro m hm
    refine Classical.byContradiction fun hne => ?_
    obtain ⟨m', a, hm', h⟩ := fair_returns FC U (n := m) (i := q) hne
    have := never m' (by omega)
    have h : ((E.st m').rest d).chan.result q = some (q, a) := h
    rw [this] at h
    cases h
  refine ⟨q, _, calleeOf_last w2, ?_, fun m hm => ⟨course_served hm hq, unstarted m hm⟩⟩
  refine Classical.byContradiction fun hs => ?_
  obtain ⟨m, hm, h⟩ := fair_served FC U (n := n) (i := q) w1 hs
  exact h (unstarted m hm)

/-- The call made in step `n` by dock `d` is in the hands of callee `c` of dock `d'`, which has not started it. -/
structure LeftTo (C : Nat → List Carried) (S : World.State) (d i d' k c : Nat) : Prop where
  lt : i < (S.sys.dock d).n
  exec : k < (S.sys.dock d').nx
  owner : S.sys.owner (other ((S.sys.dock d').exec k).peer) = some (.dock d)
  index : ((S.sys.dock d').exec k).index = (S.sys.dock d).index i
  last : LastAt (C d') ((S.sys.dock d').exec k).call.slot c
  unstarted : ∀ q, (S.rest d').served k = some q → (S.rest d').chan.startedAt q = none

/-- A remote call that never returns is left to a callee that runs one method for ever. -/
theorem call_stuck (F : World.Fair E) {d n : Nat} (hd : ReadingsDiffer E d) {c : Dock.Call} {clock : BitVec 64} {p : Option Nat}
    (hcall : E.act n = some (.dock d (.call c clock p))) (hc : ∀ f ∈ C d, f.name ≠ c.slot) (ho : Offered E n d c.slot)
    (hno : ∀ m r, n < m → ((E.st m).sys.dock d).phase ((E.st n).sys.dock d).n ≠ .returned r) :
    ∃ m0 d' k c', n < m0 ∧ RunsForever (World.chanCourse E F.chan d') c' ∧
      ∀ m, m0 ≤ m → LeftTo C (E.st m) d ((E.st n).sys.dock d).n d' k c' := by
  obtain ⟨hhub, n0, dj, f, hj, hf, hdisc⟩ := ho
  have hact : ∀ {n a x}, E.act n = some a → (E.st n).sysAct a = some x → (World.sysCourse E F.chan).act n = some x := by
    intro n a x h1 h2
    show (E.act n).bind _ = _
    rw [h1]
    exact h2
  obtain ⟨nj, st, _, hst, hr⟩ := join_offers F.sys (hact hj rfl) hf hdisc
  obtain ⟨m, e, hm, hi, hcm, hx, hsent⟩ := C126_sent F.sys d hd n c clock (hact hcall rfl) hc hhub nj st hst hr
  obtain ⟨i', d', k, m1, args', wr', f', hi', hx', hc', hf', ho, ho', hk, hex, hret⟩ := C125_executed F.sys d hd m e _ _ _ _ _ hsent
  have : i' = ((E.st n).sys.dock d).n := hd m i' _ hi' hi (hx'.trans hx.symm)
  subst this
  obtain ⟨m2, hm2, hrun⟩ : ∃ m2, m1 ≤ m2 ∧ ∀ m', m2 ≤ m' → (((E.st m').sys.dock d').exec k).phase = .running := by
    refine Classical.byContradiction fun hne => ?_
    obtain ⟨m', r, hm', h⟩ := hret fun m' hm' _ => Classical.byContradiction fun hne' =>
      hne ⟨m', hm', fun m'' hm'' => Classical.byContradiction fun h => hne' ⟨m'', hm'', h⟩⟩
    exact hno m' r (by omega) h
  have hk : k < ((E.st m1).sys.dock d').nx := hk
  have hex : ((E.st m1).sys.dock d').exec k = ⟨other e, clock, ⟨c.slot, c.meth, args', wr'⟩, f'.feature, .spawned⟩ := hex
  obtain ⟨hk2, e1, e2, e3⟩ := course_exec hm2 hk
  obtain ⟨q, c', hl, hstuck, hall⟩ := runs_stuck F hk2 hrun
  refine ⟨max m m2, d', k, c', by omega, hstuck, fun m' hm' => ?_⟩
  obtain ⟨hk3, g1, g2, g3⟩ := course_exec (show m2 ≤ m' by omega) hk2
  obtain ⟨x1, x2⟩ := course_index (show m ≤ m' by omega) hi
  refine ⟨x1, hk3, ?_, ?_, ?_, ?_⟩
  · rw [g1, e1, hex]
    simp only [other_other]
    exact course_owner (show m1 ≤ m' by omega) ho
  · rw [g2, e2, hex]
    exact (x2.trans hx).symm
  · rw [g3]; exact hl
  · intro q' hq'
    obtain ⟨h1, h2⟩ := hall m' (by omega)
    rw [h1] at hq'
    cases hq'
    exact h2

/-! ## Methods that wait -/

/-- A method that waits for a remote call has made it. -/
theorem blocked_from {cs : List Carried} {T : Nat → Chan.Target} {s t : Whole.State} {a : Whole.Act} (h : s.step cs T a = some t)
    {p i : Nat} (ht : t.blocked p = some i) (hs : s.blocked p ≠ some i) :
    ∃ c clock, a = .call c clock (some p) ∧ Whole.calleeOf cs c.slot = none ∧ i = s.dock.n := by
  unfold Whole.State.step at h
  split at h
  · cases h
  cases a with
  | call c clock parent =>
    cases parent with
    | none =>
      simp only at h
      split at h
      · obtain ⟨x, hx, h⟩ := Option.bind_eq_some_iff.mp h
        obtain ⟨e, he, h⟩ := Option.bind_eq_some_iff.mp h
        cases h
        exact absurd ht hs
      · obtain ⟨x, hx, rfl⟩ := Option.map_eq_some_iff.mp h
        exact absurd ht hs
    | some p' =>
      simp only at h
      split at h
      · split at h
        · obtain ⟨x, hx, h⟩ := Option.bind_eq_some_iff.mp h
          obtain ⟨e, he, h⟩ := Option.bind_eq_some_iff.mp h
          cases h
          exact absurd ht hs
        · rename_i hc
          obtain ⟨x, hx, rfl⟩ := Option.map_eq_some_iff.mp h
          simp only at ht
          by_cases e : p = p'
          · subst e
            rw [upd_same] at ht
            cases ht
            exact ⟨c, clock, rfl, hc, rfl⟩
          · rw [upd_other _ _ e] at ht
            exact absurd ht hs
      · cases h
  | returns j =>
    obtain ⟨x, hx, rfl⟩ := Option.map_eq_some_iff.mp h
    simp only at ht
    split at ht
    · cases ht
    · exact absurd ht hs
  | invoke k =>
    simp only at h
    split at h
    · obtain ⟨x, hx, h⟩ := Option.bind_eq_some_iff.mp h
      obtain ⟨e, he, h⟩ := Option.bind_eq_some_iff.mp h
      cases h
      exact absurd ht hs
    · cases h
  | _ =>
    simp only at h
    repeat' split at h
    all_goals first
      | (obtain ⟨x, hx, rfl⟩ := Option.map_eq_some_iff.mp h
         exact absurd ht hs)
      | (cases h
         done)
      | (cases h
         exact absurd ht hs)

theorem course_blocked {m d p i : Nat} (h : ((E.st m).rest d).blocked p = some i) :
    ∃ n c clock, n < m ∧ E.act n = some (.dock d (.call c clock (some p))) ∧ (∀ f ∈ C d, f.name ≠ c.slot) ∧
      i = ((E.st n).sys.dock d).n := by
  obtain ⟨k, _, hk, hfirst⟩ := Trace.first (P := fun k => ((E.st k).rest d).blocked p = some i) ⟨m, Nat.zero_le m, h⟩
  have hkm : k ≤ m := Nat.le_of_not_lt fun hlt => hfirst m (Nat.zero_le _) hlt h
  cases k with
  | zero => rw [E.init] at hk; cases hk
  | succ k =>
    have hno := hfirst k (Nat.zero_le _) (Nat.lt_succ_self _)
    rcases course_at (E := E) k d with e | ⟨a, b, ha, hs, hab⟩
    · have : ((E.st (k + 1)).at d).blocked p = ((E.st k).at d).blocked p := by rw [e]
      exact absurd (this.symm.trans hk) hno
    · obtain ⟨c, clock, rfl, h1, h2⟩ := blocked_from hs hk hno
      rcases hab with rfl | ⟨⟨b', e, _⟩, _⟩
      · exact ⟨k, c, clock, by omega, ha, (Dock.slotsOf_none _ _).mp (Whole.calleeOf_none.mp h1), h2⟩
      · cases e

/-- While a method waits for a remote call, the call has not returned. -/
theorem blocked_unreturned (F : World.Fair E) (m d p i : Nat) (h : ((E.st m).rest d).blocked p = some i) :
    i < ((E.st m).sys.dock d).n ∧ ∀ r, ((E.st m).sys.dock d).phase i ≠ .returned r := by
  induction m with
  | zero => rw [E.init] at h; cases h
  | succ m ih =>
    by_cases h0 : ((E.st m).rest d).blocked p = some i
    · obtain ⟨hi, hr⟩ := ih h0
      refine ⟨(course_index (E := E) (Nat.le_succ m) hi).1, fun r e => ?_⟩
      have e : ((dockCourse (World.sysCourse E F.chan) d).st (m + 1)).phase i = .returned r := e
      rcases Dock.course_phase (T := dockCourse (World.sysCourse E F.chan) d) m i hi with h1 | ⟨_, _, h1⟩ | ⟨_, _, h1⟩ | ⟨_, _, h1⟩ | ⟨_, _, _, _, h1⟩ | ⟨h2, _⟩
      · exact hr r (h1.symm.trans e)
      · rw [e] at h1; cases h1
      · rw [e] at h1; cases h1
      · rw [e] at h1; cases h1
      · rw [e] at h1; cases h1
      · obtain ⟨b, hb, hb2, _⟩ := dock_act h2
        obtain ⟨a, ha, hx⟩ := Option.bind_eq_some_iff.mp hb
        have hstep := E.some_step ha
        have hdock : a = .dock d (.returns i) := by
          unfold World.State.sysAct at hx
          repeat' split at hx
          all_goals cases hx
          · rename_i b
            obtain ⟨hn, hs, _⟩ := World.step_sys hstep
            cases b <;> simp only [System.State.dockAct] at hb2 <;> repeat' split at hb2
            all_goals cases hb2
            all_goals exact absurd rfl (hn _ _)
          all_goals
            simp only [System.State.dockAct] at hb2
            split at hb2 <;> cases hb2
          · obtain rfl := ‹_ = d›
            obtain ⟨_, _, w, hw, _⟩ := World.step_whole hstep
            simp [Whole.State.step, Whole.tiedD] at hw
          · obtain rfl := ‹_ = d›
            rfl
        subst hdock
        obtain ⟨_, _, w, hw, hput⟩ := World.step_whole hstep
        have hbl : ((E.st (m + 1)).rest d).blocked p = w.blocked p := by rw [hput]; simp [World.State.put]
        rw [hbl] at h
        simp only [Whole.State.step] at hw
        split at hw
        · cases hw
        obtain ⟨x, hx, rfl⟩ := Option.map_eq_some_iff.mp hw
        simp only at h
        split at h
        · cases h
        · rename_i hne
          exact hne h0
    · rcases course_at (E := E) m d with e | ⟨a, b, ha, hs, hab⟩
      · have : ((E.st (m + 1)).at d).blocked p = ((E.st m).at d).blocked p := by rw [e]
        exact absurd (this.symm.trans h) h0
      obtain ⟨c, clock, rfl, h1, h2⟩ := blocked_from hs h h0
      have h2 : i = ((E.st m).sys.dock d).n := h2
      rcases hab with rfl | ⟨⟨b', e, _⟩, _⟩
      swap
      · cases e
      have hact : (dockCourse (World.sysCourse E F.chan) d).act m = some (.call c clock) := by
        have : (World.sysCourse E F.chan).act m = some (.dock d (.call c clock)) := by
          show (E.act m).bind _ = _
          rw [ha]
          rfl
        rw [dock_acts this]
        simp [System.State.dockAct]
      have hd : ((E.st m).sys.dock d).step (C d) (.call c clock) = some ((E.st (m + 1)).sys.dock d) :=
        (dockCourse (World.sysCourse E F.chan) d).some_step hact
      simp only [Dock.State.step, F.dock m d, Whole.calleeOf_none.mp h1] at hd
      rw [← Option.some.inj hd, h2]
      simp

/-! ## C127 -/

/-- **C127, calls whose method has been started.**  In every fair execution of a system with callees in which nothing is lost
and nothing stops: if the clock of dock `d` gives no reading twice, every call of dock `d` whose method has been started by the
dock that executes it returns, whatever the method does. -/
theorem C127_started (F : World.Fair E) (d : Nat) (hd : ReadingsDiffer E d) (n d' k q : Nat)
    (hk : k < ((E.st n).sys.dock d').nx) (ho : (E.st n).sys.owner (other (((E.st n).sys.dock d').exec k).peer) = some (.dock d))
    (hq : ((E.st n).rest d').served k = some q) (hs : ((E.st n).rest d').chan.startedAt q ≠ none) :
    ∃ m i r, n ≤ m ∧ i < ((E.st m).sys.dock d).n ∧ ((E.st m).sys.dock d).index i = (((E.st n).sys.dock d').exec k).index ∧
      ((E.st m).sys.dock d).phase i = .returned r := by
  obtain ⟨FC, U⟩ := F.chans d'
  -- the request was sent for a call
  have I := exec_inv (E := World.sysCourse E F.chan) n
  have I : System.Inv C H R black (E.st n).sys := I
  have hrec := exec_received (dock_inv I d').2.2.2 hk
  obtain ⟨-, d2, args, wr, ho2, hsent, -⟩ := request_sent I hrec
  rw [ho] at ho2
  cases ho2
  obtain ⟨i, d2, k2, m1, args', wr', f', hi, hx, hc, hf', ho1, ho1', hk1, hex, hret⟩ := C125_executed F.sys d hd n _ _ _ _ _ _ hsent
  have hk1 : k2 < ((E.st m1).sys.dock d2).nx := hk1
  have hex : ((E.st m1).sys.dock d2).exec k2 = ⟨_, _, _, _, _⟩ := hex
  have hi : i < ((E.st n).sys.dock d).n := hi
  -- it is executed once
  obtain ⟨a1, a2, a3, a4⟩ := course_exec (show n ≤ max n m1 by omega) hk
  obtain ⟨b1, b2, b3, b4⟩ := course_exec (show m1 ≤ max n m1 by omega) hk1
  obtain ⟨as, hr⟩ := E.reach (max n m1)
  obtain ⟨bs, hbs⟩ := World.sys_reach hr
  obtain ⟨rfl, rfl⟩ := exec_unique hbs (hd (max n m1)) a1 b1
    (by rw [a2]; exact course_owner (show n ≤ max n m1 by omega) ho)
    (by rw [b2, hex]; simp only [other_other]; exact course_owner (show n ≤ max n m1 by omega) ho)
    (by rw [a3, b3, hex])
  obtain ⟨m', r, hm', h⟩ := hret (by
    intro m' hm' hrun
    obtain ⟨m2, a, hm2, hres⟩ := fair_returns FC U (n := n) (i := q) hs
    have hres : ((E.st m2).rest d').chan.result q = some (q, a) := hres
    have hres' : ((E.st (max m2 m')).rest d').chan.result q = ((E.st m2).rest d').chan.result q :=
      (fair_later (E := World.chanCourse E F.chan d') (show m2 ≤ max m2 m' by omega) q).2.2.2.2.1
        (show ((E.st m2).rest d').chan.result q ≠ none by rw [hres]; simp)
    obtain ⟨m3, hm3, h3⟩ := finishes F (d := d') (k := k) (q := q) (n := max m2 m') (course_served (by omega) hq) (by
      rw [hres', hres]; simp)
    exact ⟨m3, by omega, h3⟩)
  have hin := course_index hm' hi
  exact ⟨m', i, r, hm', hin.1, hin.2.trans hx, h⟩

/-- **C127, all calls.**  In every fair execution of a system with callees in which nothing is lost and nothing stops, all
methods return and the clocks of docks give no reading twice: every call of a feature that is offered returns. -/
theorem C127_returns (F : World.Fair E) (hb : BodiesReturn E) (d : Nat) (hd : ReadingsDiffer E d) (n : Nat) (c : Dock.Call)
    (clock : BitVec 64) (p : Option Nat) (hcall : E.act n = some (.dock d (.call c clock p)))
    (hc : ∀ f ∈ C d, f.name ≠ c.slot) (ho : Offered E n d c.slot) :
    ∃ m r, n < m ∧ ((E.st m).sys.dock d).phase ((E.st n).sys.dock d).n = .returned r := by
  refine Classical.byContradiction fun hno => ?_
  obtain ⟨m0, d', k, c', hm0, ⟨n1, q, hrun⟩, _⟩ := call_stuck F hd hcall hc ho fun m r hm h => hno ⟨m, r, hm, h⟩
  obtain ⟨m, hm, h⟩ := hb n1 d' c' q (hrun n1 (Nat.le_refl _))
  exact h (hrun m hm)

/-- **C127, local calls.**  Under the same conditions every call of a feature of the own dock returns. -/
theorem C127_returns_local (F : World.Fair E) (hb : BodiesReturn E) (n d : Nat) (c : Dock.Call) (clock : BitVec 64)
    (p : Option Nat) (hcall : E.act n = some (.dock d (.call c clock p))) (hc : ∃ f ∈ C d, f.name = c.slot) :
    ∃ m a, n < m ∧ ((E.st m).rest d).chan.result ((E.st n).rest d).chan.n = some (((E.st n).rest d).chan.n, a) := by
  obtain ⟨FC, U⟩ := F.chans d
  obtain ⟨c', hc'⟩ : ∃ c', Whole.calleeOf (C d) c.slot = some c' := by
    refine Option.ne_none_iff_exists'.mp fun h => ?_
    obtain ⟨f, h1, h2⟩ := hc
    exact (Dock.slotsOf_none _ _).mp (Whole.calleeOf_none.mp h) f h1 h2
  have h := World.chan_part (E.some_step hcall) d
  simp only [World.State.chanAct, if_pos, hc', Option.map_some] at h
  have hn : ((E.st n).rest d).chan.n < ((E.st (n + 1)).rest d).chan.n := by
    rw [(Whole.chan_call h).1]; exact Nat.lt_succ_self _
  obtain ⟨m, hm, h1⟩ := fair_served FC U (n := n + 1) (i := ((E.st n).rest d).chan.n) hn (by
    rintro ⟨n1, q, hrun⟩
    obtain ⟨m, hm, h⟩ := hb n1 d _ q (hrun n1 (Nat.le_refl _))
    exact h (hrun m hm))
  obtain ⟨m', a, hm', h2⟩ := fair_returns FC U (n := m) (i := ((E.st n).rest d).chan.n) h1
  exact ⟨m', a, by omega, h2⟩

/-- Calls are numbered in the order in which they are made. -/
theorem course_called (F : World.Fair E) {n m d : Nat} {c : Dock.Call} {clock : BitVec 64} {p : Option Nat} (hm : n < m)
    (h : E.act n = some (.dock d (.call c clock p))) (hc : ∀ f ∈ C d, f.name ≠ c.slot) :
    ((E.st n).sys.dock d).n < ((E.st m).sys.dock d).n := by
  refine (course_index (E := E) (show n + 1 ≤ m by omega) ?_).1
  have hs := World.sys_part (E.some_step h) (F.chan (n + 1))
  simp only [World.State.sysAct, System.State.step] at hs
  split at hs
  · split at hs
    · rename_i x hx
      rw [← Option.some.inj hs]
      simp only [System.State.setDock, upd_same]
      unfold Dock.State.step at hx
      split at hx
      · cases hx
      simp only [(Dock.slotsOf_none _ _).mpr hc] at hx
      cases hx
      exact Nat.lt_succ_self _
    · cases hs
  · cases hs

/-- Callees run methods of features of their docks. -/
theorem course_callee (n d q : Nat) (hq : q < ((E.st n).rest d).chan.n) :
    (((E.st n).rest d).chan.req q).callee < (C d).length := by
  induction n with
  | zero => rw [E.init] at hq; exact absurd hq (Nat.not_lt_zero _)
  | succ n ih =>
    cases ha : E.act n with
    | none => rw [E.none_step ha] at hq ⊢; exact ih hq
    | some a =>
      have h := World.chan_part (E.some_step ha) d
      split at h
      · rename_i x hx
        have untied : Whole.tiedC x = false → (((E.st (n + 1)).rest d).chan.req q).callee < (C d).length := by
          intro ht
          obtain ⟨h1, h2⟩ := Whole.chan_untied ht h
          rw [h1] at hq
          rw [h2]
          exact ih hq
        cases x with
        | call callee caller meth args parent =>
          obtain ⟨h1, h2, -⟩ := Whole.chan_call h
          rw [h1] at hq
          rw [h2]
          by_cases e : q = ((E.st n).rest d).chan.n
          · subst e
            rw [upd_same]
            have lt : ∀ {slot}, Whole.calleeOf (C d) slot = some callee → callee < (C d).length := fun h => by
              obtain ⟨f, -, h2⟩ := Whole.calleeOf_some h
              exact (List.getElem?_eq_some_iff.mp h2).1
            unfold World.State.chanAct at hx
            repeat' split at hx
            all_goals first
              | (cases hx; done)
              | (obtain ⟨k, hk, hx⟩ := Option.map_eq_some_iff.mp hx
                 cases hx
                 exact lt hk)
              | skip
            cases hx
            obtain ⟨_, _, w, hw, _⟩ := World.step_whole (E.some_step ha)
            simp [Whole.State.step, Whole.tiedC] at hw
          · rw [upd_other _ _ e]
            exact ih (by omega)
        | _ => exact untied rfl
      · rw [h] at hq ⊢
        exact ih hq

/-- A callee that runs one method for ever waits from some time on for one that does, if methods all of whose calls return
return. -/
theorem stuck_waits (F : World.Fair E) (hd : ∀ d, ReadingsDiffer E d)
    (hb : ∀ n d c q, (∀ m, n ≤ m → ((E.st m).rest d).chan.handler c = .running q) →
      ∃ k, (∃ j, ∀ m, k ≤ m → ((E.st m).rest d).chan.waits q = some j) ∨ ∃ i, ∀ m, k ≤ m → ((E.st m).rest d).blocked q = some i)
    (ho : ∀ n d c clock p, E.act n = some (.dock d (.call c clock (some p))) → (∀ f ∈ C d, f.name ≠ c.slot) → Offered E n d c.slot)
    {d c : Nat} (hs : RunsForever (World.chanCourse E F.chan d) c) :
    ∃ n0 d' c', RunsForever (World.chanCourse E F.chan d') c' ∧ ∀ m, n0 ≤ m → Waits C (E.st m) d c d' c' := by
  obtain ⟨n1, q, hrun⟩ := hs
  have hrun : ∀ m, n1 ≤ m → ((E.st m).rest d).chan.handler c = .running q := hrun
  obtain ⟨FC, U⟩ := F.chans d
  obtain ⟨k, ⟨j, hw⟩ | ⟨i, hw⟩⟩ := hb n1 d c q hrun
  · have I := fair_all U
    have hj := (I k).live.waits j q (hw k (Nat.le_refl _))
    have never : ∀ m, k ≤ m → ((E.st m).rest d).chan.result j = none := fun m hm => ((I m).live.waits j q (hw m hm)).2.2
    have unstarted : ∀ m, k ≤ m → ((E.st m).rest d).chan.startedAt j = none := by
      intro m hm
      refine Classical.byContradiction fun hne => ?_
      obtain ⟨m', a, hm', h⟩ := fair_returns FC U (n := m) (i := j) hne
      have h : ((E.st m').rest d).chan.result j = some (j, a) := h
      rw [never m' (by omega)] at h
      cases h
    refine ⟨max n1 k, d, (((E.st k).rest d).chan.req j).callee, ?_, fun m hm => ?_⟩
    · refine Classical.byContradiction fun hs => ?_
      obtain ⟨m, hm, h⟩ := fair_served FC U (n := k) (i := j) hj.1 hs
      exact h (unstarted m hm)
    · refine ⟨q, hrun m (by omega), Or.inl ⟨rfl, j, hw m (by omega), unstarted m (by omega), ?_⟩⟩
      have : ((E.st m).rest d).chan.req j = ((E.st k).rest d).chan.req j :=
        (fair_later (E := World.chanCourse E F.chan d) (show k ≤ m by omega) j).2.1 hj.1
      rw [this]
  · obtain ⟨n, x, clock, hn, ha, hc, rfl⟩ := course_blocked (hw k (Nat.le_refl _))
    obtain ⟨m0, d', k', c', hm0, hstuck, hleft⟩ := call_stuck F (hd d) ha hc (ho n d x clock q ha hc) (by
      intro m r hm hret
      have hi := blocked_unreturned F k d q _ (hw k (Nat.le_refl _))
      have hlt := course_called F hm ha hc
      have := course_returned F (show m ≤ max k m by omega) hlt hret
      exact (blocked_unreturned F (max k m) d q _ (hw _ (by omega))).2 r this)
    refine ⟨max n1 (max k m0), d', c', hstuck, fun m hm => ?_⟩
    have L := hleft m (by omega)
    exact ⟨q, hrun m (by omega), Or.inr ⟨_, k', hw m (by omega), L.lt, L.exec, L.owner, L.index, L.last, L.unstarted⟩⟩

/-- The callees in `X` wait for one another. -/
def Circular (C : Nat → List Carried) (S : World.State) (X : Nat → Nat → Prop) : Prop :=
  ∀ d c, X d c → ∃ d' c', X d' c' ∧ Waits C S d c d' c'

/-- From some time on, the callees that run one method for ever wait for one another. -/
theorem stuck_circle (F : World.Fair E) (hd : ∀ d, ReadingsDiffer E d) (D : Nat) (hD : ∀ n d, D ≤ d → ((E.st n).rest d).chan.n = 0)
    (hb : ∀ n d c q, (∀ m, n ≤ m → ((E.st m).rest d).chan.handler c = .running q) →
      ∃ k, (∃ j, ∀ m, k ≤ m → ((E.st m).rest d).chan.waits q = some j) ∨ ∃ i, ∀ m, k ≤ m → ((E.st m).rest d).blocked q = some i)
    (ho : ∀ n d c clock p, E.act n = some (.dock d (.call c clock (some p))) → (∀ f ∈ C d, f.name ≠ c.slot) → Offered E n d c.slot) :
    ∃ n0, ∀ m, n0 ≤ m → Circular C (E.st m) fun d c => RunsForever (World.chanCourse E F.chan d) c := by
  have few : ∀ d c, RunsForever (World.chanCourse E F.chan d) c → d < D ∧ c < (C d).length := by
    rintro d c ⟨n, q, hrun⟩
    have hrun : ((E.st n).rest d).chan.handler c = .running q := hrun n (Nat.le_refl _)
    have A : Chan.AnsInv ((E.st n).rest d).chan := (fair_all (F.chans d).2 n).ans
    have hq : q < ((E.st n).rest d).chan.n ∧ (((E.st n).rest d).chan.req q).callee = c := by
      obtain ⟨h1, -, h3⟩ := A.inHandler c q (by rw [hrun]; rfl)
      exact ⟨fair_exists A h3, h1⟩
    have := course_callee n d q hq.1
    rw [hq.2] at this
    refine ⟨Nat.lt_of_not_le fun h => ?_, this⟩
    have h0 := hD n d h
    omega
  obtain ⟨n0, _, h⟩ := Trace.eventually_list (β := Nat × Nat)
    (fun x m => RunsForever (World.chanCourse E F.chan x.1) x.2 →
      ∃ d' c', RunsForever (World.chanCourse E F.chan d') c' ∧ Waits C (E.st m) x.1 x.2 d' c') 0
    ((List.range D).flatMap fun d => (List.range (C d).length).map fun c => (d, c)) (by
      rintro ⟨d, c⟩ _
      by_cases hs : RunsForever (World.chanCourse E F.chan d) c
      · obtain ⟨n0, d', c', h1, h2⟩ := stuck_waits F hd hb ho hs
        exact ⟨n0, Nat.zero_le _, fun m hm _ => ⟨d', c', h1, h2 m hm⟩⟩
      · exact ⟨0, Nat.le_refl _, fun m _ h => absurd h hs⟩)
  refine ⟨n0, fun m hm d c hs => ?_⟩
  obtain ⟨h1, h2⟩ := few d c hs
  exact h m hm (d, c) (List.mem_flatMap.mpr ⟨d, List.mem_range.mpr h1, List.mem_map.mpr ⟨c, List.mem_range.mpr h2, rfl⟩⟩) hs

/-- **C127, exactly which remote calls.**  Suppose that features are called at finitely many docks only, that no method runs for
ever by itself: one that never returns waits for ever for one of its calls, and that methods call features that are offered.  Then in every fair
execution in which nothing is lost and nothing stops, and clocks give no reading twice, a call of a feature that is offered
returns if and only if it is not at some time left, before its method is started, to a callee of a set of callees that wait
for one another, within docks or across docks. -/
theorem C127_exact (F : World.Fair E) (hd : ∀ d, ReadingsDiffer E d) (D : Nat) (hD : ∀ n d, D ≤ d → ((E.st n).rest d).chan.n = 0)
    (hb : ∀ n d c q, (∀ m, n ≤ m → ((E.st m).rest d).chan.handler c = .running q) →
      ∃ k, (∃ j, ∀ m, k ≤ m → ((E.st m).rest d).chan.waits q = some j) ∨ ∃ i, ∀ m, k ≤ m → ((E.st m).rest d).blocked q = some i)
    (ho : ∀ n d c clock p, E.act n = some (.dock d (.call c clock (some p))) → (∀ f ∈ C d, f.name ≠ c.slot) → Offered E n d c.slot)
    (n d : Nat) (c : Dock.Call) (clock : BitVec 64) (p : Option Nat) (hcall : E.act n = some (.dock d (.call c clock p)))
    (hc : ∀ f ∈ C d, f.name ≠ c.slot) (hoff : Offered E n d c.slot) :
    (∃ m r, n < m ∧ ((E.st m).sys.dock d).phase ((E.st n).sys.dock d).n = .returned r) ↔
      ¬ ∃ m X d' k c', n < m ∧ Circular C (E.st m) X ∧ X d' c' ∧ LeftTo C (E.st m) d ((E.st n).sys.dock d).n d' k c' := by
  constructor
  · rintro ⟨m1, r, hm1, hret⟩ ⟨m, X, d', k, c', hm, hX, hx, L⟩
    obtain ⟨as, h⟩ := E.reach m
    obtain ⟨more, h'⟩ := course_suffix (E := E) (show m ≤ max m m1 by omega)
    have hlt := course_called F hm1 hcall hc
    have := course_returned F (show m1 ≤ max m m1 by omega) hlt hret
    exact ((C121_behind C T H R black as more _ _ h h' (fun d => hd d _) X hX d' c' hx).2 d _ k L.exec L.owner L.lt L.index L.last
      L.unstarted r).2 this
  · intro hno
    refine Classical.byContradiction fun hnr => ?_
    obtain ⟨m0, d', k, c', hm0, hstuck, hleft⟩ := call_stuck F (hd d) hcall hc hoff fun m r hm h => hnr ⟨m, r, hm, h⟩
    obtain ⟨n0, hcirc⟩ := stuck_circle F hd D hD hb ho
    exact hno ⟨max m0 n0, _, d', k, c', by omega, hcirc _ (by omega), hstuck, hleft _ (by omega)⟩

/-- **C127, exactly which local calls.**  The same for a call of a feature of the own dock. -/
theorem C127_local (F : World.Fair E) (hd : ∀ d, ReadingsDiffer E d) (D : Nat) (hD : ∀ n d, D ≤ d → ((E.st n).rest d).chan.n = 0)
    (hb : ∀ n d c q, (∀ m, n ≤ m → ((E.st m).rest d).chan.handler c = .running q) →
      ∃ k, (∃ j, ∀ m, k ≤ m → ((E.st m).rest d).chan.waits q = some j) ∨ ∃ i, ∀ m, k ≤ m → ((E.st m).rest d).blocked q = some i)
    (ho : ∀ n d c clock p, E.act n = some (.dock d (.call c clock (some p))) → (∀ f ∈ C d, f.name ≠ c.slot) → Offered E n d c.slot)
    (n d : Nat) (c : Dock.Call) (clock : BitVec 64) (p : Option Nat) (hcall : E.act n = some (.dock d (.call c clock p)))
    (c' : Nat) (hc : LastAt (C d) c.slot c') :
    (∃ m a, n < m ∧ ((E.st m).rest d).chan.result ((E.st n).rest d).chan.n = some (((E.st n).rest d).chan.n, a)) ↔
      ¬ ∃ m X, n < m ∧ Circular C (E.st m) X ∧ X d c' ∧ ((E.st m).rest d).chan.startedAt ((E.st n).rest d).chan.n = none := by
  obtain ⟨FC, U⟩ := F.chans d
  have hreq : ((E.st n).rest d).chan.n < ((E.st (n + 1)).rest d).chan.n ∧
      (((E.st (n + 1)).rest d).chan.req ((E.st n).rest d).chan.n).callee = c' := by
    have h := World.chan_part (E.some_step hcall) d
    simp only [World.State.chanAct, if_pos, last_callee hc, Option.map_some] at h
    obtain ⟨h1, h2, -⟩ := Whole.chan_call h
    rw [h1, h2, upd_same]
    exact ⟨Nat.lt_succ_self _, rfl⟩
  have later : ∀ m, n < m → ((E.st n).rest d).chan.n < ((E.st m).rest d).chan.n ∧
      (((E.st m).rest d).chan.req ((E.st n).rest d).chan.n).callee = c' := by
    intro m hm
    have := fair_later (E := World.chanCourse E F.chan d) (show n + 1 ≤ m by omega) ((E.st n).rest d).chan.n
    refine ⟨this.1 hreq.1, ?_⟩
    have h2 : ((E.st m).rest d).chan.req ((E.st n).rest d).chan.n = ((E.st (n + 1)).rest d).chan.req ((E.st n).rest d).chan.n :=
      this.2.1 hreq.1
    rw [h2]
    exact hreq.2
  constructor
  · rintro ⟨m1, a, hm1, hres⟩ ⟨m, X, hm, hX, hx, h0⟩
    obtain ⟨as, h⟩ := E.reach m
    obtain ⟨more, h'⟩ := course_suffix (E := E) (show m ≤ max m m1 by omega)
    have h1 := (C121_behind C T H R black as more _ _ h h' (fun d => hd d _) X hX d c' hx).1 _ (later _ (by omega)).2 h0
    have h2 := result_started (course_facts (E := E) (max m m1) d).1 (course_facts (E := E) (max m m1) d).2.1 h1
    have h3 : ((E.st (max m m1)).rest d).chan.result _ = ((E.st m1).rest d).chan.result _ :=
      (fair_later (E := World.chanCourse E F.chan d) (show m1 ≤ max m m1 by omega) ((E.st n).rest d).chan.n).2.2.2.2.1
        (show ((E.st m1).rest d).chan.result _ ≠ none by rw [hres]; simp)
    have h2 : ((E.st (max m m1)).rest d).chan.result ((E.st n).rest d).chan.n = none := h2
    rw [h3, hres] at h2
    cases h2
  · intro hno
    refine Classical.byContradiction fun hnr => ?_
    have unstarted : ∀ m, n < m → ((E.st m).rest d).chan.startedAt ((E.st n).rest d).chan.n = none := by
      intro m hm
      refine Classical.byContradiction fun hne => ?_
      obtain ⟨m', a, hm', h⟩ := fair_returns FC U (n := m) (i := ((E.st n).rest d).chan.n) hne
      exact hnr ⟨m', a, by omega, h⟩
    have hstuck : RunsForever (World.chanCourse E F.chan d) c' := by
      refine Classical.byContradiction fun hs => ?_
      obtain ⟨m, hm, h⟩ := fair_served FC U (n := n + 1) (i := ((E.st n).rest d).chan.n) hreq.1 (by
        have : (((World.chanCourse E F.chan d).st (n + 1)).req ((E.st n).rest d).chan.n).callee = c' := hreq.2
        rw [this]; exact hs)
      exact h (unstarted m (by omega))
    obtain ⟨n0, hcirc⟩ := stuck_circle F hd D hD hb ho
    exact hno ⟨max (n + 1) n0, _, by omega, hcirc _ (by omega), hstuck, unstarted _ (by omega)⟩

/-! ## Fair executions -/

/-- An execution of docks below `D` that has come to rest, and in which no dock has used a reading of its clock for two remote
calls, is the beginning of a fair execution. -/
theorem course_from {D : Nat} {w : Bool} {as : List World.Act} {S : World.State}
    (h : run (World.State.step C T H R black) (World.State.init T) as = some S) (ha : (as.all fun a => a.tame D) = true)
    (hq : World.quietOn w D S = true)
    (h1 : ∀ d, d < D → ∀ i j, i < (S.sys.dock d).n → j < (S.sys.dock d).n → (S.sys.dock d).index i = (S.sys.dock d).index j → i = j) :
    ∃ E : World.Course C T H R black, World.Fair E ∧ (∀ d, ReadingsDiffer E d) ∧
      (∀ n d, D ≤ d → ((E.st n).rest d).chan.n = 0) ∧ (∀ n, n < as.length → E.act n = as[n]?) ∧
      (∀ n, n ≤ as.length → run (World.State.step C T H R black) (World.State.init T) (as.take n) = some (E.st n)) ∧
      (∀ n, as.length ≤ n → S.later (E.st n) ∧ ∃ d, E.act n = some (.dock d (.chan .tick))) := by
  obtain ⟨Q, q1, q2, -⟩ := World.quiet_of h ha hq
  have J := World.tame_run h (List.all_eq_true.mp ha) fun d => (Q.chan d).alive
  have J' := World.tame_rest h (List.all_eq_true.mp ha)
  obtain ⟨E, F, hact, hst, htail⟩ := World.fair_of h Q (fun e k hm => by
    have := List.all_eq_true.mp ha _ hm
    cases this) q1 q2
  refine ⟨E, F, ?_, ?_, hact, hst, htail⟩
  · intro d n i j hi hj hij
    have hle : n ≤ max n as.length := by omega
    have e := (htail (max n as.length) (by omega)).1.1
    have h2 := course_index hle hi
    have h3 := course_index hle hj
    rw [e] at h2 h3
    rcases Nat.lt_or_ge d D with hd | hd
    · exact h1 d hd i j h2.1 h3.1 (by rw [h2.2, h3.2, hij])
    · have h2 := h2.1
      rw [J.dock d hd] at h2
      exact absurd h2 (Nat.not_lt_zero _)
  · intro n d hd
    refine Nat.eq_zero_of_not_pos fun hpos => ?_
    have h2 : ((E.st (max n as.length)).rest d).chan.n > 0 :=
      (fair_later (E := World.chanCourse E F.chan d) (show n ≤ max n as.length by omega) 0).1 hpos
    obtain ⟨k, e⟩ := (htail (max n as.length) (by omega)).1.2 d
    have e : ((E.st (max n as.length)).rest d).chan = { (S.rest d).chan with clock := k } := congrArg Whole.State.chan e
    rw [e, J' d hd] at h2
    cases h2

/-- As `course_from`, for docks that have made at most one remote call each. -/
theorem course_of {D : Nat} {w : Bool} {as : List World.Act} {S : World.State}
    (h : run (World.State.step C T H R black) (World.State.init T) as = some S) (ha : (as.all fun a => a.tame D) = true)
    (hq : World.quietOn w D S = true) (h1 : ∀ d, d < D → (S.sys.dock d).n ≤ 1) :
    ∃ E : World.Course C T H R black, World.Fair E ∧ (∀ d, ReadingsDiffer E d) ∧
      (∀ n d, D ≤ d → ((E.st n).rest d).chan.n = 0) ∧ (∀ n, n < as.length → E.act n = as[n]?) ∧
      (∀ n, n ≤ as.length → run (World.State.step C T H R black) (World.State.init T) (as.take n) = some (E.st n)) ∧
      (∀ n, as.length ≤ n → S.later (E.st n) ∧ ∃ d, E.act n = some (.dock d (.chan .tick))) :=
  course_from h ha hq fun d hd i j hi hj _ => by
    have := h1 d hd
    omega

/-- Requests time out at once. -/
def impatient : List World.Act := [.dock 0 (.chan (.setTimeout 0 methM 0)), .dock 1 (.chan (.setTimeout 0 methM 0))]

/-- Dock 1 calls a feature of dock 0 and gets the answer; all methods return. -/
def worldRest : List World.Act := impatient ++ worldAsk ++
  [.sys (.deliver 5), .dock 0 (.invoke 0), .dock 0 (.chan (.push 1)), .dock 0 (.chan (.ret 0 [])),
   .dock 0 (.chan (.settleH 0)), .dock 0 (.chan (.deliverH 0)), .dock 0 (.chan (.start 0)),
   .dock 0 (.chan (.ret 0 [.bool 0 true])), .dock 0 (.chan (.settleH 0)), .dock 0 (.chan (.deliverH 0)),
   .dock 0 (.chan (.receive 1)), .dock 0 (.finish 0), .dock 0 (.respond 0), .sys (.deliver 4), .dock 1 (.dock (.callback 0)),
   .dock 1 (.dock (.receive 0)), .dock 1 (.returns 0), .dock 1 (.dock (.delete 0)), .dock 1 (.chan (.ret 0 [])),
   .dock 1 (.chan (.settleH 0)), .dock 1 (.chan (.deliverH 0)), .dock 1 (.chan (.receive 0)), .dock 1 (.chan (.wake 0)),
   .dock 1 (.chan (.settleT 0)), .dock 0 (.chan (.receive 0)), .dock 0 (.chan (.wake 0)), .dock 0 (.chan (.settleT 0)),
   .dock 0 (.chan (.wake 1)), .dock 0 (.chan (.settleT 1))]

/-- The two docks of `worldCross`; the requests with which it began time out. -/
def crossRest : List World.Act := impatient ++ worldCross ++
  [.dock 0 (.chan (.wake 0)), .dock 0 (.chan (.settleT 0)), .dock 0 (.chan (.deliverT 0)), .dock 0 (.chan (.receive 0)),
   .dock 1 (.chan (.wake 0)), .dock 1 (.chan (.settleT 0)), .dock 1 (.chan (.deliverT 0)), .dock 1 (.chan (.receive 0))]

/-- A fair execution in which all methods return, and what C127 says of it. -/
example : ∃ E : World.Course worldC worldT sysH sysR [], World.Fair E ∧ BodiesReturn E ∧ (∀ d, ReadingsDiffer E d) ∧
    E.act 32 = some (.dock 1 (.call ⟨nameA, methM, [], true⟩ 77 (some 0))) ∧ Offered E 32 1 nameA ∧
    ∃ m r, 32 < m ∧ ((E.st m).sys.dock 1).phase ((E.st 32).sys.dock 1).n = .returned r := by
  obtain ⟨S, h, hv⟩ := worldWitness (C := worldC) (T := worldT) (H := sysH) (R := sysR) (as := worldRest)
    (f := fun S => (World.quietOn false 2 S, (S.sys.dock 0).n, (S.sys.dock 1).n)) (b := (true, 0, 1)) (by decide +kernel)
  obtain ⟨S1, hs1, hv1⟩ := worldWitness (C := worldC) (T := worldT) (H := sysH) (R := sysR) (as := worldRest.take 32)
    (f := fun S => (S.sys.dock 1).sockets.head?) (b := some .hub) (by decide +kernel)
  simp only [Prod.mk.injEq] at hv
  have ht : (worldRest.all fun a => a.tame 2) = true := by decide +kernel
  obtain ⟨E, F, hd, -, hact, hst, htail⟩ := course_of (w := false) h ht hv.1 (by
    intro d hd
    match d, hd with
    | 0, _ => omega
    | 1, _ => omega)
  have hb : BodiesReturn E := by
    intro n d c q _
    refine ⟨max n 94, by omega, fun hr => ?_⟩
    obtain ⟨k, e⟩ := (htail (max n 94) (by show 94 ≤ _; omega)).1.2 d
    have e : ((E.st (max n 94)).rest d).chan = { (S.rest d).chan with clock := k } := congrArg Whole.State.chan e
    rw [e] at hr
    have hi : (S.rest d).chan.handler c = .idle := (World.quiet_of h ht hv.1).2.2.2 rfl d c
    have hr : (S.rest d).chan.handler c = .running q := hr
    rw [hi] at hr
    cases hr
  have ho : Offered E 32 1 nameA := by
    refine ⟨?_, 8, 0, ⟨nameA, 3, true⟩, hact 8 (by decide), ⟨[], [], rfl, rfl, by simp⟩, rfl⟩
    have h2 := hst 32 (by decide)
    rw [hs1] at h2
    rw [← Option.some.inj h2]
    exact hv1
  have h32 : E.act 32 = some (.dock 1 (.call ⟨nameA, methM, [], true⟩ 77 (some 0))) := hact 32 (by decide)
  exact ⟨E, F, hb, hd, h32, ho, C127_returns F hb 1 (hd 1) 32 _ 77 (some 0) h32 (by decide +kernel) ho⟩

/-- The remote calls that methods make. -/
def methodCalls (as : List World.Act) : List (Nat × Nat × Str) :=
  (List.range as.length).filterMap fun n =>
    match as[n]? with
    | some (World.Act.dock d (Whole.Act.call c _ (some _))) => some (n, d, c.slot)
    | _ => none

set_option synthInstance.maxSize 100000 in
/-- **C127, why methods have to return.**  There is a fair execution, nothing lost, nothing stopped, in which no method runs for
ever by itself, that meets all that `C127_exact` requires, and in which a call of a feature that is offered never returns. -/
theorem C127_unreturned : ∃ E : World.Course worldC worldT sysH sysR [], World.Fair E ∧ (∀ d, ReadingsDiffer E d) ∧
    (∀ n d, 2 ≤ d → ((E.st n).rest d).chan.n = 0) ∧
    (∀ n d c q, (∀ m, n ≤ m → ((E.st m).rest d).chan.handler c = .running q) →
      ∃ k, (∃ j, ∀ m, k ≤ m → ((E.st m).rest d).chan.waits q = some j) ∨ ∃ i, ∀ m, k ≤ m → ((E.st m).rest d).blocked q = some i) ∧
    (∀ n d c clock p, E.act n = some (.dock d (.call c clock (some p))) → (∀ f ∈ worldC d, f.name ≠ c.slot) → Offered E n d c.slot) ∧
    E.act 32 = some (.dock 1 (.call ⟨nameA, methM, [], true⟩ 77 (some 0))) ∧ Offered E 32 1 nameA ∧
    ∀ m r, 32 < m → ((E.st m).sys.dock 1).phase ((E.st 32).sys.dock 1).n ≠ .returned r := by
  obtain ⟨S, h, hv⟩ := worldWitness (C := worldC) (T := worldT) (H := sysH) (R := sysR) (as := crossRest)
    (f := fun S => (World.quietOn true 2 S, ((S.sys.dock 0).n, (S.sys.dock 1).n, (S.sys.dock 0).nx), ((S.sys.dock 1).phase 0).result.isNone,
      [0, 1].map fun d => ((List.range (S.rest d).chan.n).map fun i => ((S.rest d).chan.req i).callee, (S.rest d).chan.handler 0, (S.rest d).blocked 0)))
    (b := (true, (1, 1, 1), true, [([0, 0], .running 0, some 0), ([0, 0], .running 0, some 0)])) (by decide +kernel)
  obtain ⟨S1, hs1, hv1⟩ := worldWitness (C := worldC) (T := worldT) (H := sysH) (R := sysR) (as := crossRest.take 32)
    (f := fun S => ((S.sys.dock 1).sockets.head?, (S.sys.dock 1).n)) (b := (some .hub, 0)) (by decide +kernel)
  obtain ⟨S2, hs2, hv2⟩ := worldWitness (C := worldC) (T := worldT) (H := sysH) (R := sysR) (as := crossRest.take 65)
    (f := fun S => (S.sys.dock 0).sockets.head?) (b := some .hub) (by decide +kernel)
  simp only [Prod.mk.injEq] at hv hv1
  obtain ⟨hq, ⟨n0, n1, -⟩, hret, hlist⟩ := hv
  simp only [List.map_cons, List.map_nil, List.cons.injEq, Prod.mk.injEq, and_true] at hlist
  obtain ⟨⟨a1, a2, a3⟩, b1, b2, b3⟩ := hlist
  have ht : (crossRest.all fun a => a.tame 2) = true := by decide +kernel
  have hlen : crossRest.length = 83 := by decide
  obtain ⟨E, F, hd, hD, hact, hst, htail⟩ := course_of (w := true) h ht hq (by
    intro d hd
    match d, hd with
    | 0, _ => omega
    | 1, _ => omega)
  rw [hlen] at hact hst htail
  have st32 : E.st 32 = S1 := Option.some.inj ((hst 32 (by omega)).symm.trans hs1)
  have st65 : E.st 65 = S2 := Option.some.inj ((hst 65 (by omega)).symm.trans hs2)
  have o1 : Offered E 32 1 nameA := by
    refine ⟨?_, 8, 0, ⟨nameA, 3, true⟩, hact 8 (by omega), ⟨[], [], rfl, rfl, by simp⟩, rfl⟩
    rw [st32]; exact hv1.1
  have o2 : Offered E 65 0 nameB := by
    refine ⟨?_, 20, 1, ⟨nameB, 2, true⟩, hact 20 (by omega), ⟨[], [], rfl, rfl, by simp⟩, rfl⟩
    rw [st65]; exact hv2
  have h32 : E.act 32 = some (.dock 1 (.call ⟨nameA, methM, [], true⟩ 77 (some 0))) := hact 32 (by omega)
  refine ⟨E, F, hd, hD, ?_, ?_, h32, o1, ?_⟩
  · intro n d c q hrun
    obtain ⟨t, e⟩ := (htail (max n 83) (by omega)).1.2 d
    have e : ((E.st (max n 83)).rest d).chan = { (S.rest d).chan with clock := t } := congrArg Whole.State.chan e
    have hr := hrun (max n 83) (by omega)
    rw [e] at hr
    have hr : (S.rest d).chan.handler c = .running q := hr
    have A : Chan.AnsInv (S.rest d).chan := (Reach.facts ⟨_, h⟩ d).2.1.ans
    obtain ⟨h1, -, h3⟩ := A.inHandler c q (by rw [hr]; rfl)
    have hqn := fair_exists A h3
    have hb : (S.rest d).blocked q = some 0 := by
      have hd2 : d < 2 := Nat.lt_of_not_le fun hle => by
        have := hD (max n 83) d hle
        rw [e] at this
        have this : (S.rest d).chan.n = 0 := this
        omega
      have hc : ∀ l : List Nat, (∀ x ∈ l, x = 0) → (List.range (S.rest d).chan.n).map (fun i => ((S.rest d).chan.req i).callee) = l → c = 0 := by
        intro l hl he
        rw [← h1]
        exact hl _ (by rw [← he]; exact List.mem_map.mpr ⟨q, List.mem_range.mpr hqn, rfl⟩)
      rcases (show d = 0 ∨ d = 1 by omega) with rfl | rfl
      · have := hc [0, 0] (by simp) a1
        subst this
        rw [a2] at hr
        cases hr
        exact a3
      · have := hc [0, 0] (by simp) b1
        subst this
        rw [b2] at hr
        cases hr
        exact b3
    refine ⟨83, Or.inr ⟨0, fun m hm => ?_⟩⟩
    obtain ⟨t, e⟩ := (htail m hm).1.2 d
    have e : ((E.st m).rest d).blocked = (S.rest d).blocked := (congrArg Whole.State.blocked e :)
    rw [e]
    exact hb
  · intro n d c clock p ha _
    have hn : n < 83 := Nat.lt_of_not_le fun hle => by
      obtain ⟨d', e⟩ := (htail n hle).2
      rw [e] at ha
      cases ha
    have hm : (n, d, c.slot) ∈ methodCalls crossRest := by
      refine List.mem_filterMap.mpr ⟨n, List.mem_range.mpr (by omega), ?_⟩
      rw [hact n hn] at ha
      rw [ha]
    have : methodCalls crossRest = [(32, 1, nameA), (65, 0, nameB)] := by decide +kernel
    rw [this] at hm
    simp only [List.mem_cons, Prod.mk.injEq, List.not_mem_nil, or_false] at hm
    rcases hm with ⟨rfl, rfl, e⟩ | ⟨rfl, rfl, e⟩ <;> rw [e]
    · exact o1
    · exact o2
  · intro m r hm hr
    have hlt := course_called F hm h32 (by decide +kernel)
    have h2 := course_returned F (show m ≤ max m 83 by omega) hlt hr
    rw [(htail (max m 83) (by omega)).1.1, st32, hv1.2] at h2
    rw [h2] at hret
    cases hret

/-- That execution, and what `C127_exact` says of it: at some time callees wait for one another, and the call is left to
one of them. -/
example : ∃ E : World.Course worldC worldT sysH sysR [], World.Fair E ∧
    E.act 32 = some (.dock 1 (.call ⟨nameA, methM, [], true⟩ 77 (some 0))) ∧
    ∃ m X d' k c', 32 < m ∧ Circular worldC (E.st m) X ∧ X d' c' ∧ LeftTo worldC (E.st m) 1 ((E.st 32).sys.dock 1).n d' k c' := by
  obtain ⟨E, F, hd, hD, hb, ho, h32, o, hno⟩ := C127_unreturned
  refine ⟨E, F, h32, Classical.byContradiction fun hc => ?_⟩
  obtain ⟨m, r, hm, h⟩ := (C127_exact F hd 2 hD hb ho 32 1 _ 77 (some 0) h32 (by decide +kernel) o).mpr hc
  exact hno m r hm h

end Verif.Props
