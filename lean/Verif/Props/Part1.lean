import Verif.Props.System8
import Verif.System.Quiet

/-!
# C151: failures elsewhere

Executions in which the hub and docks stop, and packets are lost, except for two docks and a connection between them.
-/

namespace Verif.Props

open Verif Verif.Codec Verif.Proto Verif.System

variable {C : Nat → List Dock.Carried} {H : Nat → Str} {R : Nat → Str} {black : List Int} {E : System.Course C H R black}

/-- Whatever happens elsewhere, goroutines that can go on do so; docks `d` and `d'` keep running, which includes that
their dials do not fail (/repo/network/socket.go:69-72 ends the process if they do), and on the connection with end `e`
nothing is lost. -/
structure Linked (E : System.Course C H R black) (d d' e : Nat) : Prop where
  weak : E.WeaklyFair System.Turn
  strong : E.StronglyFair System.Loop
  kept : ∀ n k, E.act n ≠ some (.lose e k) ∧ E.act n ≠ some (.lose (other e) k)
  up : ∀ n, (E.st n).down (.dock d) = false ∧ (E.st n).down (.dock d') = false
  alive : ∀ n, ((E.st n).dock d).dead = false ∧ ((E.st n).dock d').dead = false
  short : ∀ n, ∀ pkt, pkt ∈ (E.st n).queue e ∨ pkt ∈ (E.st n).queue (other e) → fate pkt ≠ .tooLong
  dials : ∀ n p addr, (((E.st n).dock d).handler p = .dialling addr → ∃ m, n ≤ m ∧ ((E.st m).dock d).handler p ≠ .dialling addr) ∧
    (((E.st n).dock d').handler p = .dialling addr → ∃ m, n ≤ m ∧ ((E.st m).dock d').handler p ≠ .dialling addr)

theorem Linked.swap {d d' e : Nat} (L : Linked E d d' e) : Linked E d' d (other e) :=
  ⟨L.weak, L.strong, fun n k => by rw [other_other]; exact (L.kept n k).symm, fun n => (L.up n).symm, fun n => (L.alive n).symm,
    fun n pkt h => L.short n pkt (by rw [other_other] at h; exact h.symm), fun n p addr => (L.dials n p addr).symm⟩

/-- The dock takes a fair course. -/
theorem Linked.course {d d' e : Nat} (L : Linked E d d' e) : Dock.FairCourse (C d) (dockCourse E d) := by
  have can : ∀ (m : Nat) (x : Dock.Act), dockAlone x = true → ((E.st m).dock d).step (C d) x ≠ none →
      (E.st m).step C H R black (.dock d x) ≠ none := by
    intro m x h1 h2
    simp only [System.State.step]
    rw [if_pos ⟨(L.up m).1, h1⟩]
    split
    · simp
    · exact absurd ‹_› h2
  refine ⟨?_, ?_, fun n => (L.alive n).1, fun n => (exec_inv n).parts.dock d, ?_⟩
  · intro K hK n h
    obtain ⟨m, a, hm, ha, x, hx, hk⟩ := L.weak _ (.dock d hK) n (by
      intro m hm
      obtain ⟨x, h1, h2⟩ := h m hm
      exact ⟨_, ⟨x, rfl, h1⟩, can m x (turn_alone (Or.inl hK) h1) h2⟩)
    refine ⟨m, x, hm, ?_, hk⟩
    rw [dock_acts ha, hx]
    simp [System.State.dockAct]
  · intro K hK n h
    obtain ⟨m, a, hm, ha, x, hx, hk⟩ := L.strong _ (.dock d hK) n (by
      intro k hk
      obtain ⟨m, x, hm, h1, h2⟩ := h k hk
      exact ⟨m, _, hm, ⟨x, rfl, h1⟩, can m x (turn_alone (Or.inr hK) h1) h2⟩)
    refine ⟨m, x, hm, ?_, hk⟩
    rw [dock_acts ha, hx]
    simp [System.State.dockAct]
  · intro n p addr h
    refine Classical.byContradiction fun hno => ?_
    obtain ⟨m, hm, hne⟩ := (L.dials n p addr).1 h
    refine hne ?_
    refine Trace.keep (P := fun m => ((E.st m).dock d).handler p = .dialling addr) h ?_ m hm
    intro m hm hp
    rcases Dock.course_hand (T := dockCourse E d) m p with h | ⟨a, ha, h⟩
    · exact h.trans hp
    · have hp' : ((dockCourse E d).st m).handler p = .dialling addr := hp
      cases h with
      | starts pkt h => rw [hp'] at h; cases h
      | visits i x y z w h => rw [hp'] at h; cases h
      | works o =>
        have hs := (dockCourse E d).some_step ha
        have hw := Dock.work_step hs (L.alive (m + 1)).1
        rw [hp'] at hw
        exact hw.elim
      | dials e addr' h => exact absurd ⟨m, e, hm, hp', ha⟩ hno

/-- What an action does to the packets on their way to an end of the connection. -/
theorem Linked.queue {d d' e : Nat} (L : Linked E d d' e) {n : Nat} {a : System.Act} (hn : E.act n = some a) :
    ∃ y z, (E.st (n + 1)).queue e = y ++ z ∧ (a ≠ .deliver e → y = (E.st n).queue e) ∧
      (a = .deliver e → y = ((E.st n).queue e).tail) ∧
      ∀ d'' l, (E.st n).owner (other e) = some (.dock d'') → ((E.st (n + 1)).dock d'').log = ((E.st n).dock d'').log ++ l →
        z = dockSent (other e) l := by
  by_cases hl : ∃ e' k, a = .lose e' k
  · obtain ⟨e', k, rfl⟩ := hl
    have hs := E.some_step hn
    simp only [System.State.step] at hs
    split at hs
    swap
    · cases hs
    have hS := Option.some.inj hs
    have he : e' ≠ e := fun h => (L.kept n k).1 (by rw [hn, h])
    refine ⟨(E.st n).queue e, [], ?_, fun _ => rfl, fun h => (by cases h), fun d'' l _ hlog => ?_⟩
    · rw [← hS]
      simp only [List.append_nil]
      exact upd_other _ _ (Ne.symm he)
    · rw [← hS] at hlog
      have := congrArg List.length hlog
      simp only [List.length_append] at this
      have : l = [] := List.eq_nil_of_length_eq_zero (by omega)
      rw [this]
      rfl
  · obtain ⟨y, z, h1, h2, h3, h4, -⟩ := queue_step (exec_inv n).shape (E.some_step hn) (fun e k h => hl ⟨e, k, h⟩) e
    exact ⟨y, z, h1, h2, h3, h4⟩

/-- Packets stay on their way until they are delivered. -/
theorem Linked.keeps {d d' e : Nat} (L : Linked E d d' e) {n k : Nat} {pkt : Proto} (h : ((E.st n).queue e)[k]? = some pkt) :
    (E.act n ≠ some (.deliver e) → ((E.st (n + 1)).queue e)[k]? = some pkt) ∧
    (E.act n = some (.deliver e) → ∀ j, k = j + 1 → ((E.st (n + 1)).queue e)[j]? = some pkt) := by
  cases hn : E.act n with
  | none =>
    rw [E.none_step hn]
    exact ⟨fun _ => h, fun h => by cases h⟩
  | some a =>
  simp only [ne_eq, Option.some.injEq]
  obtain ⟨y, z, h1, h2, h3, _⟩ := L.queue hn
  refine ⟨fun ha => ?_, fun ha j hj => ?_⟩
  · rw [h1, h2 ha]
    exact List.getElem?_append_left (List.getElem?_eq_some_iff.mp h).1 |>.trans h
  · rw [h1, h3 ha]
    subst hj
    have h' : (E.st n).queue e |>.tail[j]? = some pkt := by rw [List.getElem?_tail]; exact h
    exact (List.getElem?_append_left (List.getElem?_eq_some_iff.mp h').1).trans h'

/-- If packets are on their way to dock `d`, one arrives. -/
theorem Linked.moves {d d' e : Nat} (L : Linked E d d' e) {n t : Nat} (hq : (E.st n).queue e ≠ [])
    (ho : (E.st t).owner e = some (.dock d)) (hp : ((E.st t).dock d).isPeer e = true) :
    ∃ m, n ≤ m ∧ E.act m = some (.deliver e) := by
  refine Classical.byContradiction fun hno => ?_
  have hno : ∀ m, n ≤ m → E.act m ≠ some (.deliver e) := fun m hm h => hno ⟨m, hm, h⟩
  obtain ⟨pkt, rest, hq⟩ := List.exists_cons_of_ne_nil hq
  have hk : ∀ m, n ≤ m → ((E.st m).queue e)[0]? = some pkt :=
    Trace.keep (P := fun m => ((E.st m).queue e)[0]? = some pkt) (by rw [hq]; rfl) fun m hm h => (L.keeps h).1 (hno m hm)
  have hk' : ∀ m, n ≤ m → ∃ rest, (E.st m).queue e = pkt :: rest := by
    intro m hm
    have := hk m hm
    cases x : (E.st m).queue e with
    | nil => rw [x] at this; cases this
    | cons y l => rw [x] at this; cases this; exact ⟨l, rfl⟩
  have hnt := Nat.le_max_left n t
  have htt := Nat.le_max_right n t
  obtain ⟨m1, hm1, h1⟩ := L.course.idle (max n t) e
  have hid : ∀ m, m1 ≤ m → ((dockCourse E d).st m).handler e = .idle :=
    Trace.keep (P := fun m => ((dockCourse E d).st m).handler e = .idle) h1 fun m hm h => by
      rcases Dock.course_hand (T := dockCourse E d) m e with h' | ⟨a, ha, h'⟩
      · exact h'.trans h
      · cases h' with
        | starts pkt h =>
          obtain ⟨b, hb, hx, hs⟩ := dock_act ha
          exact (hno m (by omega) (by rw [hb, (dockAct_recv hs hx).1])).elim
        | visits i x y z w h' => rw [h] at h'; cases h'
        | works o =>
          have hs := (dockCourse E d).some_step ha
          have hw := Dock.work_step hs (L.alive (m + 1)).1
          rw [h] at hw
          exact hw.elim
        | dials e addr h' => rw [h] at h'; cases h'
  obtain ⟨m, a, hm, ha, e'⟩ := L.weak _ (.deliver e) m1 (by
    intro m hm
    obtain ⟨rest, hq⟩ := hk' m (by omega)
    exact ⟨_, rfl, deliver_can (exec_inv m) hq (exec_owner (by omega) ho).1 (exec_isPeer (by omega) hp) (hid m hm) (L.alive m).1
      (L.up m).1 (L.short m pkt (Or.inl (by rw [hq]; simp)))⟩)
  exact hno m (by omega) (by rw [ha, e'])

/-- Every packet on its way to dock `d` arrives. -/
theorem Linked.arrives {d d' e : Nat} (L : Linked E d d' e) {n t k : Nat} {pkt : Proto} (hk : ((E.st n).queue e)[k]? = some pkt)
    (ho : (E.st t).owner e = some (.dock d)) (ho' : (E.st t).owner (other e) = some (.dock d'))
    (hp : ((E.st t).dock d).isPeer e = true) (htn : t ≤ n) :
    ∃ m rest q, n ≤ m ∧ E.act m = some (.deliver e) ∧ (E.st m).queue e = pkt :: rest ∧ fate pkt = .arrives q := by
  induction k generalizing n with
  | zero =>
    obtain ⟨m, hm, ha, hno⟩ := Trace.first (L.moves (n := n) (by intro h; rw [h] at hk; cases hk) ho hp)
    have hq : ∀ j, n ≤ j → j ≤ m → ((E.st j).queue e)[0]? = some pkt := by
      intro j hj
      exact Trace.keep (P := fun j => j ≤ m → ((E.st j).queue e)[0]? = some pkt) (fun _ => hk)
        (fun j hj h hjm => (L.keeps (h (by omega))).1 (hno j hj (by omega))) j hj
    have := hq m hm (Nat.le_refl _)
    cases x : (E.st m).queue e with
    | nil => rw [x] at this; cases this
    | cons y l =>
      rw [x] at this
      cases this
      have hs := E.some_step ha
      simp only [System.State.step, x] at hs
      cases f : fate pkt with
      | arrives q => exact ⟨m, l, q, hm, ha, x, rfl⟩
      | killsSender =>
        simp only [f, (exec_owner (show t ≤ m by omega) ho').1] at hs
        have := (L.up (m + 1)).2
        rw [← Option.some.inj hs] at this
        simp at this
      | killsReceiver =>
        simp only [f, (exec_owner (show t ≤ m by omega) ho).1] at hs
        have := (L.up (m + 1)).1
        rw [← Option.some.inj hs] at this
        simp at this
      | tooLong => simp only [f] at hs; cases hs
  | succ k ih =>
    obtain ⟨m, hm, ha, hno⟩ := Trace.first (L.moves (n := n) (by intro h; rw [h] at hk; cases hk) ho hp)
    have hq : ∀ j, n ≤ j → j ≤ m → ((E.st j).queue e)[k + 1]? = some pkt := by
      intro j hj
      exact Trace.keep (P := fun j => j ≤ m → ((E.st j).queue e)[k + 1]? = some pkt) (fun _ => hk)
        (fun j hj h hjm => (L.keeps (h (by omega))).1 (hno j hj (by omega))) j hj
    obtain ⟨m', rest, q, hm', h⟩ := ih (n := m + 1) ((L.keeps (hq m hm (Nat.le_refl _))).2 ha k rfl) (by omega)
    exact ⟨m', rest, q, by omega, h⟩

/-- What dock `d'` sends is on its way. -/
theorem Linked.queued {d d' e : Nat} (L : Linked E d d' e) {n : Nat} {pkt : Proto} {l : List Dock.Ev}
    (ho : (E.st n).owner (other e) = some (.dock d'))
    (hl : ((E.st (n + 1)).dock d').log = ((E.st n).dock d').log ++ l) (hm : Dock.Ev.sent (other e) pkt ∈ l) :
    ∃ k : Nat, ((E.st (n + 1)).queue e)[k]? = some pkt := by
  cases hn : E.act n with
  | none =>
    rw [E.none_step hn] at hl
    have := congrArg List.length hl
    simp at this
    subst this
    cases hm
  | some a =>
  obtain ⟨y, z, h1, _, _, h2⟩ := L.queue hn
  refine List.mem_iff_getElem?.mp ?_
  rw [h1, h2 d' l ho hl]
  exact List.mem_append_right _ (mem_dockSent.mpr hm)

/-- Packets on their way to dock `d` are handed to it. -/
theorem Linked.gets {d d' e : Nat} (L : Linked E d d' e) {n t k : Nat} {pkt : Proto} (hk : ((E.st n).queue e)[k]? = some pkt)
    (ho : (E.st t).owner e = some (.dock d)) (ho' : (E.st t).owner (other e) = some (.dock d'))
    (hp : ((E.st t).dock d).isPeer e = true) (htn : t ≤ n) :
    ∃ m q, n ≤ m ∧ fate pkt = .arrives q ∧ ((E.st m).dock d).handler e = .idle ∧ (E.st (m + 1)).dock d =
      ({ (E.st m).dock d with log := ((E.st m).dock d).log ++ [.recv e q] } : Dock.State).onPacket (C d) e q := by
  obtain ⟨m, rest, q, hm, ha, hq, hf⟩ := L.arrives hk ho ho' hp htn
  have hact : (dockCourse E d).act m = some (.recv e q) := by
    simp [dock_acts ha, System.State.dockAct, hq, hf, (exec_owner (show t ≤ m by omega) ho).1]
  obtain ⟨h1, _, h2⟩ := recv_inv ((dockCourse E d).some_step hact)
  exact ⟨m, q, hm, hf, h1, h2⟩

/-- A response to a call on its way to the dock makes the call return. -/
theorem Linked.response {d d' e : Nat} (L : Linked E d d' e) (hd : DistinctReadings E d) {n k i : Nat} {slot meth : Str}
    {res : List Val} {err : Str} (hi : i < ((E.st n).dock d).n) (hph : ((E.st n).dock d).phase i ≠ .created)
    (hk : ((E.st n).queue e)[k]? = some (.rpcResponse (((E.st n).dock d).index i) slot meth res err))
    (ho : (E.st n).owner e = some (.dock d)) (ho' : (E.st n).owner (other e) = some (.dock d')) (hp : ((E.st n).dock d).isPeer e = true) :
    ∃ m r, n ≤ m ∧ ((E.st m).dock d).phase i = .returned r := by
  obtain ⟨m, q, hm, hf, hh, hnx⟩ := L.gets hk ho ho' hp (Nat.le_refl n)
  have hq := fate_head hf
  cases q <;> simp [head] at hq
  rename_i x slot' meth' res' err'
  obtain ⟨rfl, rfl, rfl⟩ := hq
  have hcall := Dock.course_call (T := dockCourse E d) hm hi
  have hcall' := Dock.course_call (T := dockCourse E d) (show n ≤ m + 1 by omega) hi
  have e1 : ((E.st m).dock d).index i = ((E.st n).dock d).index i := hcall.2.2
  have e2 : ((E.st (m + 1)).dock d).index i = ((E.st n).dock d).index i := hcall'.2.2
  -- it is the first response
  have hresp := one_answer C H R black (exec_inv (m + 1)) d (hd (m + 1)) (((E.st n).dock d).index i)
  have hlog : ((E.st (m + 1)).dock d).log = ((E.st m).dock d).log ++ [.recv e (.rpcResponse (((E.st n).dock d).index i) slot' meth' res' err')] := by
    rw [hnx]
    simp only [Dock.State.onPacket]
    split <;> rfl
  have hnone : ∀ r, ¬ Dock.Answered ((E.st m).dock d).log (((E.st m).dock d).index i) r := by
    rintro r ⟨p, a, b, h⟩
    rw [hlog, responses_append] at hresp
    have h1 : 0 < responses (((E.st n).dock d).index i) ((E.st m).dock d).log :=
      List.countP_pos_iff.mpr ⟨_, h, by simp [e1]⟩
    have h2 : 0 < responses (((E.st n).dock d).index i) [.recv e (.rpcResponse (((E.st n).dock d).index i) slot' meth' res' err')] :=
      List.countP_pos_iff.mpr ⟨_, List.mem_singleton.mpr rfl, by simp⟩
    omega
  -- the call is in the table
  have hph' : ((E.st m).dock d).phase i ≠ .created := by
    refine Trace.keep (P := fun m => ((E.st m).dock d).phase i ≠ .created) hph ?_ m hm
    intro j hj h
    have hij := (Dock.course_call (T := dockCourse E d) hj hi).1
    rcases Dock.course_phase (T := dockCourse E d) j i hij with h1 | ⟨_, _, h1⟩ | ⟨_, _, h1⟩ | ⟨_, _, h1⟩ | ⟨_, _, r, _, h1⟩ | ⟨_, r, _, h1⟩
    all_goals
      show ((dockCourse E d).st (j + 1)).phase i ≠ .created
      rw [h1]
    · exact h
    all_goals simp
  obtain ⟨as, hrun⟩ := (exec_inv (E := E) m).parts.dock d
  have htab := Dock.kept_run as _ hrun i hcall.1 hph' (fun j hj e => hd m j i hj hcall.1 e) hnone
  rw [e1] at htab
  -- it is delivered
  have hcb : ((E.st (m + 1)).dock d).nc = ((E.st m).dock d).nc + 1 ∧ ((E.st (m + 1)).dock d).cb ((E.st m).dock d).nc =
      ⟨i, ((E.st n).dock d).index i, ⟨res', err'⟩, .sending⟩ := by
    rw [hnx]
    simp [Dock.State.onPacket, htab]
  have hfree : ∀ j, m + 1 ≤ j → (((E.st j).dock d).cb ((E.st m).dock d).nc).phase = .sending →
      ¬ (((E.st j).dock d).chan (((E.st j).dock d).cb ((E.st m).dock d).nc).rpc ≠ none ∨
        ((E.st j).dock d).chanClosed (((E.st j).dock d).cb ((E.st m).dock d).nc).rpc = true ∨
        (((E.st j).dock d).phase (((E.st j).dock d).cb ((E.st m).dock d).nc).rpc).result ≠ none) := by
    intro j hj hs
    obtain ⟨as, hrun⟩ := (exec_inv (E := E) j).parts.dock d
    exact single_unused (C d) as _ hrun _ hs (one_answer C H R black (exec_inv j) d (hd j) _)
  obtain ⟨j, hj, h⟩ := L.course.delivers (n := m + 1) (k := ((E.st m).dock d).nc)
    (show ((E.st m).dock d).nc < ((E.st (m + 1)).dock d).nc by omega)
    (show (((E.st (m + 1)).dock d).cb ((E.st m).dock d).nc).phase = .sending by rw [hcb.2])
    (fun j hj hs => by
      have := hfree j hj hs
      constructor
      · cases h : ((dockCourse E d).st j).chanClosed (((dockCourse E d).st j).cb ((E.st m).dock d).nc).rpc with
        | false => rfl
        | true => exact absurd (Or.inr (Or.inl h)) this
      · cases h : ((dockCourse E d).st j).chan (((dockCourse E d).st j).cb ((E.st m).dock d).nc).rpc with
        | none => rfl
        | some r =>
          refine absurd (Or.inl ?_) this
          show ((dockCourse E d).st j).chan _ ≠ none
          intro h'
          exact absurd (h.symm.trans h') (by simp))
    (fun j hj hs r => by
      have := hfree j hj hs
      constructor
      · intro h
        refine this (Or.inr (Or.inr ?_))
        show (((dockCourse E d).st j).phase (((dockCourse E d).st j).cb ((E.st m).dock d).nc).rpc).result ≠ none
        rw [h]; simp [Dock.CallPhase.result]
      · intro h
        refine this (Or.inr (Or.inr ?_))
        show (((dockCourse E d).st j).phase (((dockCourse E d).st j).cb ((E.st m).dock d).nc).rpc).result ≠ none
        rw [h]; simp [Dock.CallPhase.result])
  have hr : (((dockCourse E d).st (m + 1)).cb ((E.st m).dock d).nc).rpc = i := by
    show (((E.st (m + 1)).dock d).cb ((E.st m).dock d).nc).rpc = i
    rw [hcb.2]
  rw [hr] at h
  exact ⟨j, _, by omega, h⟩

/-- **C151.**  Whatever becomes of the hub, of other docks and of other connections: if dock `d` knows the connection `e` to
dock `d'` for the feature that it calls, as long as it needs it, if both docks keep running and nothing is lost between them, and
the method returns, then the call returns. -/
theorem C151_returns {d d' e : Nat} (L : Linked E d d' e) (hd : DistinctReadings E d)
    (M : ∀ n k, (((E.st n).dock d').exec k).phase = .running → ∃ m, n ≤ m ∧ (((E.st m).dock d').exec k).phase ≠ .running)
    (n : Nat) (c : Dock.Call) (clock : BitVec 64) (hcall : E.act n = some (.dock d (.call c clock)))
    (hc : ∀ f ∈ C d, f.name ≠ c.slot) (hknown : ∀ m, n ≤ m → ((E.st m).dock d).remote c.slot = some e)
    (ho' : (E.st n).owner (other e) = some (.dock d')) :
    ∃ m r, n < m ∧ ((E.st m).dock d).call ((E.st n).dock d).n = c ∧ ((E.st m).dock d).phase ((E.st n).dock d).n = .returned r := by
  have hact : (dockCourse E d).act n = some (.call c clock) := by
    simp [dock_acts hcall, System.State.dockAct]
  have hs : ((E.st n).dock d).step (C d) (.call c clock) = some ((E.st (n + 1)).dock d) := (dockCourse E d).some_step hact
  have hnone : Dock.slotsOf (C d) c.slot = none := (Dock.slotsOf_none _ _).mpr hc
  simp only [Dock.State.step, (L.alive n).1, hnone] at hs
  rw [if_neg (by simp)] at hs
  have hS := Option.some.inj hs
  generalize hi : ((E.st n).dock d).n = i at *
  have hin : i < ((E.st (n + 1)).dock d).n := by rw [← hS]; simp
  have hci : ((E.st (n + 1)).dock d).call i = c := by rw [← hS]; simp
  have hph : ((E.st (n + 1)).dock d).phase i = .created := by rw [← hS]; simp
  -- it is sent
  obtain ⟨m0, hm0, hp0, ha0, hw0⟩ := L.course.commits (n := n + 1) (i := i) hin (Or.inl hph)
  have hp0 : ((E.st m0).dock d).phase i = .set := hp0
  have hw0 : ((E.st (m0 + 1)).dock d).phase i = .waiting := hw0
  obtain ⟨hi0, hc0, -⟩ := Dock.course_call (T := dockCourse E d) hm0 hin
  have hc0 : ((E.st m0).dock d).call i = c := hc0.trans hci
  have hr0 := hknown m0 (by omega)
  have h : ((E.st m0).dock d).step (C d) (.commit i) = some ((E.st (m0 + 1)).dock d) := (dockCourse E d).some_step ha0
  simp only [Dock.State.step, (L.alive m0).1, hp0] at h
  rw [if_neg (by simp)] at h
  have hS0 := Option.some.inj h
  have hq0 : ((E.st m0).dock d).req i = true := by
    cases hq : ((E.st m0).dock d).req i with
    | true => rfl
    | false =>
      have := (L.alive (m0 + 1)).1
      rw [← hS0] at this
      simp [Dock.State.doCommit, hq] at this
  have hl : ((E.st (m0 + 1)).dock d).log = ((E.st m0).dock d).log ++ [.sent e (((E.st m0).dock d).request i)] := by
    rw [← hS0]
    simp [Dock.State.doCommit, hq0, hc0, hr0]
  -- the two docks
  have I := exec_inv (E := E) m0
  have htold := (dock_inv I d).1.remote _ _ hr0
  obtain ⟨ho, d2, f, ho2, hf, _⟩ := told_true I htold
  have ho' : (E.st m0).owner (other e) = some (.dock d') := (exec_owner (by omega) ho').1
  rw [ho'] at ho2
  cases ho2
  obtain ⟨hp, hp'⟩ := told_peers I htold ho'
  have hoo : ∀ m, m0 ≤ m → (E.st m).owner (other (other e)) = some (.dock d) := fun m hm => by
    rw [other_other]; exact (exec_owner hm ho).1
  -- it arrives and is answered
  obtain ⟨j, hj⟩ := L.swap.queued (n := m0) (hoo m0 (Nat.le_refl _)) hl (by rw [other_other]; exact List.mem_singleton.mpr rfl)
  obtain ⟨m1, q, hm1, hf1, hh1, hn1⟩ := L.swap.gets hj ho' (hoo m0 (Nat.le_refl _)) hp' (by omega)
  have hq := fate_head hf1
  simp only [Dock.State.request, hc0] at hq
  cases q <;> simp [head] at hq
  rename_i x' slot' meth' args' wr'
  obtain ⟨rfl, rfl, rfl⟩ := hq
  have hslot := (Dock.slotsOf_some (C d') _ f).mpr hf
  have hex : ((E.st (m1 + 1)).dock d').nx = ((E.st m1).dock d').nx + 1 ∧ ((E.st (m1 + 1)).dock d').exec ((E.st m1).dock d').nx =
      ⟨other e, ((E.st m0).dock d).index i, ⟨c.slot, c.meth, args', wr'⟩, f.feature, .spawned⟩ := by
    rw [hn1]
    simp [Dock.State.onPacket, hslot]
  obtain ⟨m2, r, hm2, hl2⟩ := L.swap.course.answers (n := m1 + 1) (k := ((E.st m1).dock d').nx)
    (show ((E.st m1).dock d').nx < ((E.st (m1 + 1)).dock d').nx by omega)
    (show (((E.st (m1 + 1)).dock d').exec ((E.st m1).dock d').nx).phase ≠ .over by rw [hex.2]; simp)
    (fun m _ h => M m _ h)
  have hst : ((dockCourse E d').st (m1 + 1)).exec ((E.st m1).dock d').nx = _ := hex.2
  rw [hst] at hl2
  -- the response arrives
  obtain ⟨j', hj'⟩ := L.queued (n := m2) (exec_owner (show m0 ≤ m2 by omega) ho').1 hl2 (List.mem_singleton.mpr rfl)
  obtain ⟨hi2, hc2, hx2⟩ := Dock.course_call (T := dockCourse E d) (show m0 ≤ m2 + 1 by omega) hi0
  have hx2 : ((E.st (m2 + 1)).dock d).index i = ((E.st m0).dock d).index i := hx2
  have hphase : ((E.st (m2 + 1)).dock d).phase i ≠ .created := by
    refine Trace.keep (n := m0) (P := fun m => ((E.st m).dock d).phase i ≠ .created) (by rw [hp0]; simp) ?_ (m2 + 1) (by omega)
    intro j hj h
    have hij := (Dock.course_call (T := dockCourse E d) hj hi0).1
    rcases Dock.course_phase (T := dockCourse E d) j i hij with h1 | ⟨_, _, h1⟩ | ⟨_, _, h1⟩ | ⟨_, _, h1⟩ | ⟨_, _, r, _, h1⟩ | ⟨_, r, _, h1⟩
    all_goals
      show ((dockCourse E d).st (j + 1)).phase i ≠ .created
      rw [h1]
    · exact h
    all_goals simp
  obtain ⟨m3, r', hm3, hret⟩ := L.response hd (n := m2 + 1) (i := i) (k := j') hi2 hphase
    (by rw [hx2]; exact hj') (exec_owner (by omega) ho).1 (exec_owner (show m0 ≤ m2 + 1 by omega) ho').1 (exec_isPeer (by omega) hp)
  exact ⟨m3, r', by omega, ((Dock.course_call (T := dockCourse E d) (show n + 1 ≤ m3 by omega) hin).2.1).trans hci, hret⟩

/-! ## An execution -/

/-- The system without its hub, which has stopped; /repo/hub.go:61-98 runs no more. -/
def gone (S : System.State) : System.State := { S with down := upd S.down .hub true }

theorem gone_down (S : System.State) (d : Nat) : (gone S).down (.dock d) = S.down (.dock d) := by
  simp [gone, upd]

theorem gone_step {S T : System.State} {a : System.Act} (h : (gone S).step C H R black a = some T) :
    ∃ S', S.step C H R black a = some S' ∧ T = gone S' := by
  have hd : ∀ d, (gone S).down (.dock d) = S.down (.dock d) := gone_down S
  have hh : (gone S).down .hub = true := by simp [gone]
  cases a with
  | dock d a =>
    simp only [System.State.step, hd] at h ⊢
    split at h
    swap
    · cases h
    rw [if_pos ‹_›]
    split at h
    swap
    · cases h
    rename_i e
    have e : (S.dock d).step (C d) a = _ := e
    rw [e]
    exact ⟨_, rfl, (Option.some.inj h).symm⟩
  | hub a => simp [System.State.step, hh] at h
  | join d => simp [System.State.step, hh] at h
  | dial d p d' port =>
    simp only [System.State.step, hd] at h ⊢
    have hg : (gone S).dock = S.dock := rfl
    simp only [hg] at h
    split at h
    swap
    · cases h
    split at h
    swap
    · cases h
    rw [if_pos ‹_›]
    split at h
    swap
    · cases h
    rename_i e
    have e : (S.dock d).step (C d) (.dialOK p (2 * S.n)) = _ := e
    rw [e]
    exact ⟨_, rfl, (Option.some.inj h).symm⟩
  | accept e =>
    have hg : (gone S).owner = S.owner := rfl
    simp only [System.State.step, hd, hg] at h ⊢
    split at h
    swap
    · cases h
    split at h
    swap
    · cases h
    rw [if_pos ‹_›]
    split at h
    swap
    · cases h
    rename_i d _ _ _ _ e
    have e : (S.dock d).step (C d) (.accept _ (S.port _)) = _ := e
    rw [e]
    exact ⟨_, rfl, (Option.some.inj h).symm⟩
  | deliver e =>
    have hg : (gone S).queue = S.queue := rfl
    have hg' : (gone S).owner = S.owner := rfl
    simp only [System.State.step, hg, hg'] at h ⊢
    split at h
    · cases h
    rename_i pkt rest hq
    cases hf : fate pkt with
    | arrives q =>
      simp only [hf] at h ⊢
      simp only [System.State.receive] at h ⊢
      split at h
      · rename_i d ho
        have ho : S.owner e = some (.dock d) := ho
        have hx : (gone S).down (.dock d) = S.down (.dock d) := hd d
        split at h
        · cases h
        rename_i hdown
        have hdown : ¬ S.down (.dock d) = true := by rw [← hx]; exact hdown
        split at h
        swap
        · cases h
        rename_i st he
        have he : (S.dock d).step (C d) (.recv e q) = some st := he
        simp only [ho, he]
        rw [if_neg hdown]
        exact ⟨_, rfl, (Option.some.inj h).symm⟩
      · split at h
        · cases h
        · rename_i hn
          exact absurd hh hn
      · cases h
    | killsSender =>
      simp only [hf] at h ⊢
      split at h
      swap
      · cases h
      refine ⟨_, rfl, (Option.some.inj h).symm.trans ?_⟩
      simp only [gone]
      congr 1
      funext x
      simp only [upd]
      repeat' split
      all_goals rfl
    | killsReceiver =>
      simp only [hf] at h ⊢
      split at h
      swap
      · cases h
      refine ⟨_, rfl, (Option.some.inj h).symm.trans ?_⟩
      simp only [gone]
      congr 1
      funext x
      simp only [upd]
      repeat' split
      all_goals rfl
    | tooLong => simp only [hf] at h; cases h
  | lose e k =>
    have hg : (gone S).queue = S.queue := rfl
    simp only [System.State.step, hg] at h ⊢
    split at h
    swap
    · cases h
    rw [if_pos ‹_›]
    exact ⟨_, rfl, (Option.some.inj h).symm⟩
  | crash p =>
    simp only [System.State.step] at h ⊢
    refine ⟨_, rfl, (Option.some.inj h).symm.trans ?_⟩
    simp only [gone]
    congr 1
    funext x
    simp only [upd]
    repeat' split
    all_goals rfl

theorem gone_run {as : List System.Act} : ∀ {S T : System.State}, run (System.State.step C H R black) (gone S) as = some T →
    ∃ S', run (System.State.step C H R black) S as = some S' ∧ T = gone S' := by
  induction as with
  | nil => intro S T h; exact ⟨S, rfl, (Option.some.inj h).symm⟩
  | cons a as ih =>
    intro S T h
    simp only [run] at h ⊢
    split at h
    · cases h
    · rename_i U e
      obtain ⟨V, h1, rfl⟩ := gone_step e
      rw [h1]
      exact ih h

/-- An execution in which the hub stops and that comes to rest. -/
theorem gone_linked {D : Nat} {as bs : List System.Act} {S S' : System.State}
    (h : run (System.State.step C H R black) .init (as ++ bs) = some S)
    (ha : ((as ++ bs).all fun a => a.tame D) = true) (hq : quietOn false D S = true)
    (h' : run (System.State.step C H R black) .init (as ++ .crash .hub :: bs) = some S')
    (d : Nat) (c : Dock.Call) (clock : BitVec 64) (f : Dock.Carried) (hf : Dock.slotsOf (C d) c.slot = some f) :
    ∃ E : System.Course C H R black, (∀ d d' e, Linked E d d' e) ∧
      (∀ n, n < (as ++ .crash .hub :: bs).length → E.act n = (as ++ System.Act.crash .hub :: bs)[n]?) ∧
      (∀ n, n ≤ (as ++ .crash .hub :: bs).length →
        run (System.State.step C H R black) .init ((as ++ System.Act.crash .hub :: bs).take n) = some (E.st n)) ∧
      ∀ n, (as ++ .crash .hub :: bs).length ≤ n → (∃ S, Quiet false S ∧ E.st n = gone S) ∧
        E.act n = some (.dock d (.call c clock)) := by
  obtain ⟨hQ, s1, s2⟩ := quiet_of (inv_run C H R black h) (ends_run C H R black h) (tame_run h (List.all_eq_true.mp ha)) hq
  have hg : S' = gone S := by
    rw [run_append] at h h'
    cases h1 : run (System.State.step C H R black) .init as with
    | none => rw [h1] at h; cases h
    | some U =>
      rw [h1] at h h'
      simp only [Option.bind, run] at h h'
      have h' : run (System.State.step C H R black) (gone U) bs = some S' := h'
      obtain ⟨V, h2, e⟩ := gone_run h'
      rw [h] at h2
      cases h2
      exact e
  have hP : ∃ S, Quiet false S ∧ S' = gone S := ⟨S, hQ, hg⟩
  have hb : ∀ T (_ : Nat), (∃ S, Quiet false S ∧ T = gone S) →
      ∃ U, T.step C H R black (.dock d (.call c clock)) = some U ∧ ∃ S, Quiet false S ∧ U = gone S := by
    rintro _ _ ⟨V, Q, rfl⟩
    obtain ⟨U, h1, h2⟩ := quiet_call Q (C := C) (H := H) (R := R) (black := black) d c clock f hf
    have hd := gone_down V d
    refine ⟨gone U, ?_, U, h2, rfl⟩
    simp only [System.State.step, hd] at h1 ⊢
    split at h1
    swap
    · cases h1
    rw [if_pos ‹_›]
    split at h1
    swap
    · cases h1
    rename_i e
    have e : ((gone V).dock d).step (C d) (.call c clock) = _ := e
    rw [e]
    rw [← Option.some.inj h1]
    rfl
  generalize hcs : as ++ System.Act.crash .hub :: bs = cs at *
  obtain ⟨t1, t2⟩ := Exec.ofLasso_tail h' hP hb
  generalize hEx : Exec.ofLasso (System.State.step C H R black) .init cs (fun _ => .dock d (.call c clock)) h' hP hb = X at t1 t2
  have hact : ∀ n, n < cs.length → (courseOf X).act n = cs[n]? := by
    intro n hn
    rw [← hEx]
    show some (cs[n]?.getD _) = _
    rw [List.getElem?_eq_getElem hn]
    rfl
  have htail : ∀ n, cs.length ≤ n → (∃ S, Quiet false S ∧ (courseOf X).st n = gone S) ∧
      (courseOf X).act n = some (.dock d (.call c clock)) := by
    intro n hn
    exact ⟨(t2 n hn).1, congrArg some (t2 n hn).2⟩
  have kept : ∀ n e k, (courseOf X).act n ≠ some (.lose e k) := by
    intro n e k hl
    rcases Nat.lt_or_ge n cs.length with hn | hn
    · have := hact n hn
      rw [hl, ← hcs] at this
      have := List.mem_of_getElem? this.symm
      rcases List.mem_append.mp this with hm | hm
      · cases List.all_eq_true.mp ha _ (List.mem_append_left _ hm)
      · rcases List.mem_cons.mp hm with hm | hm
        · cases hm
        · cases List.all_eq_true.mp ha _ (List.mem_append_right _ hm)
    · rw [(htail n hn).2] at hl
      cases hl
  have back : ∀ (P : System.State → Prop), (∀ S a T, System.State.step C H R black S a = some T → P S → P T) →
      (∀ S, Quiet false S → ¬ P (gone S)) → ∀ n, ¬ P ((courseOf X).st n) := by
    intro P h1 h2 n hP
    have := (courseOf X).stays (P := P) (fun s a t h hs => h1 s a t hs h) (n := n) hP (max n cs.length) (by omega)
    obtain ⟨⟨V, Q, e⟩, -⟩ := htail (max n cs.length) (by omega)
    rw [e] at this
    exact h2 V Q this
  have stuck : ∀ {K : System.State → System.Act → Prop} (_ : System.Turn K ∨ System.Loop K) {V : System.State} {a : System.Act},
      Quiet false V → K (gone V) a → (gone V).step C H R black a = none := by
    intro K hK V a Q hx
    have hx' : K V a := by
      rcases hK with h | h
      · cases h <;> exact hx
      · cases h <;> exact hx
    cases hs : (gone V).step C H R black a with
    | none => rfl
    | some T =>
      obtain ⟨T', h1, -⟩ := gone_step hs
      rw [quiet_stuck Q hK hx'] at h1
      cases h1
  have weak : (courseOf X).WeaklyFair System.Turn := by
    intro K hK n h
    obtain ⟨a, h1, h2⟩ := h (max n cs.length) (by omega)
    obtain ⟨⟨V, Q, e⟩, -⟩ := htail (max n cs.length) (by omega)
    rw [e] at h1 h2
    exact absurd (stuck (Or.inl hK) Q h1) h2
  have strong : (courseOf X).StronglyFair System.Loop := by
    intro K hK n h
    obtain ⟨m, a, hm, h1, h2⟩ := h (max n cs.length) (by omega)
    obtain ⟨⟨V, Q, e⟩, -⟩ := htail m (by omega)
    rw [e] at h1 h2
    exact absurd (stuck (Or.inr hK) Q h1) h2
  have up : ∀ n x, ((courseOf X).st n).down (.dock x) = false := by
    intro n x
    have := back (fun S => S.down (.dock x) = true) (fun _ _ _ h => down_step h)
      (fun S Q h => by
        rw [gone_down, Q.up] at h; cases h) n
    simpa using this
  have alive : ∀ n x, (((courseOf X).st n).dock x).dead = false := by
    intro n x
    have := back (fun S => (S.dock x).dead = true) (fun _ _ _ h => dock_dead_step h)
      (fun S Q h => by
        have h : (S.dock x).dead = true := h
        rw [(Q.dock x).alive] at h; cases h) n
    simpa using this
  have short : ∀ n e, ∀ pkt ∈ ((courseOf X).st n).queue e, fate pkt ≠ .tooLong := by
    intro n e pkt hp
    rcases Nat.lt_or_ge n cs.length with hn | hn
    · have e1 : (courseOf X).st cs.length = S' := t1
      obtain ⟨del, _, h⟩ := (exec_inv (E := courseOf X) n).fifo e
      have hs := h.subset (List.mem_append_right _ hp)
      unfold System.State.sentBy at hs
      split at hs
      · rename_i d' _
        obtain ⟨l, hl⟩ := Dock.course_log (T := dockCourse (courseOf X) d') (show n ≤ cs.length by omega)
        have hl : (((courseOf X).st cs.length).dock d').log = (((courseOf X).st n).dock d').log ++ l := hl
        rw [e1, hg] at hl
        have hl : (S.dock d').log = _ := hl
        exact s1 d' _ pkt (by rw [hl]; exact List.mem_append_left _ (mem_dockSent.mp hs))
      · obtain ⟨l, hl⟩ : ∃ l, ((courseOf X).st cs.length).hub.log = ((courseOf X).st n).hub.log ++ l :=
          (hubCourse (courseOf X)).later (Q := fun s t => ∃ l, t.log = s.log ++ l) (fun s => ⟨[], (List.append_nil _).symm⟩)
            (fun s t u ⟨l, h1⟩ ⟨l', h2⟩ => ⟨l ++ l', by rw [h2, h1, List.append_assoc]⟩) (fun s a t h => Hub.log_step h) (by omega)
        rw [e1, hg] at hl
        have hl : S.hub.log = _ := hl
        exact s2 _ pkt (by rw [hl]; exact List.mem_append_left _ (mem_hubSent.mp hs))
      · cases hs
    · obtain ⟨⟨V, Q, e1⟩, -⟩ := htail n hn
      rw [e1] at hp
      have hp : pkt ∈ V.queue e := hp
      rw [Q.queue] at hp
      cases hp
  have dials : ∀ n x p addr, (((courseOf X).st n).dock x).handler p = .dialling addr →
      ∃ m, n ≤ m ∧ (((courseOf X).st m).dock x).handler p ≠ .dialling addr := by
    intro n x p addr _
    obtain ⟨⟨V, Q, e⟩, -⟩ := htail (max n cs.length) (by omega)
    refine ⟨max n cs.length, by omega, ?_⟩
    rw [e]
    have : ((gone V).dock x).handler p = .idle := (Q.dock x).handler p
    rw [this]
    simp
  refine ⟨courseOf X, fun d d' e => ⟨weak, strong, fun n k => ⟨kept n _ k, kept n _ k⟩, fun n => ⟨up n d, up n d'⟩,
    fun n => ⟨alive n d, alive n d'⟩, fun n pkt h => h.elim (short n _ pkt) (short n _ pkt),
    fun n p addr => ⟨dials n d p addr, dials n d' p addr⟩⟩, hact, fun n hn => ?_, htail⟩
  rw [← hEx]
  exact lasso_run h' n hn

/-- A second call of dock 1, over the connection that it knows. -/
def goneCall : List System.Act :=
  [.dock 1 (.call ⟨nameA, methM, [], true⟩ 78), .dock 1 (.store 1), .dock 1 (.setReq 1), .dock 1 (.commit 1), .deliver 5,
   .dock 0 (.invoke 1), .dock 0 (.finish 1 ⟨[.bool 0 true], []⟩), .dock 0 (.respond 1), .deliver 4,
   .dock 1 (.callback 1), .dock 1 (.receive 1), .dock 1 (.closeChan 1), .dock 1 (.delete 1)]

set_option synthInstance.maxSize 100000 in
/-- After the hub has stopped dock 1 calls a feature of dock 0 again, and the call returns. -/
example : ∃ E : System.Course sysC sysH sysR [], Linked E 1 0 4 ∧ DistinctReadings E 1 ∧ (E.st 62).down .hub = true ∧
    E.act 62 = some (.dock 1 (.call ⟨nameA, methM, [], true⟩ 78)) ∧
    (∀ m, 62 ≤ m → ((E.st m).dock 1).remote nameA = some 4) ∧ (E.st 62).owner 5 = some (.dock 0) ∧
    ∃ m r, 62 < m ∧ ((E.st m).dock 1).call ((E.st 62).dock 1).n = ⟨nameA, methM, [], true⟩ ∧
      ((E.st m).dock 1).phase ((E.st 62).dock 1).n = .returned r := by
  obtain ⟨S, h, hv⟩ := sysWitness (C := sysC) (H := sysH) (R := sysR) (as := sysDone ++ goneCall)
    (f := fun S => quietOn false 2 S) (b := true) (by decide +kernel)
  obtain ⟨S', h', hv'⟩ := sysWitness (C := sysC) (H := sysH) (R := sysR) (as := sysDone ++ .crash .hub :: goneCall)
    (f := fun S => ((S.dock 1).n, (S.dock 1).remote nameA, (S.dock 1).index 0, (S.dock 1).index 1)) (b := (2, some 4, 77, 78))
    (by decide +kernel)
  simp only [Prod.mk.injEq] at hv'
  obtain ⟨v1, v2, v3, v4⟩ := hv'
  obtain ⟨E, L, hact, hst, htail⟩ := gone_linked (D := 2) h (by decide +kernel) hv h' 0 ⟨nameA, methM, [], true⟩ 5 ⟨nameA, 3, true⟩
    (by decide +kernel)
  have hlen : (sysDone ++ System.Act.crash .hub :: goneCall).length = 75 := by decide +kernel
  rw [hlen] at hact hst htail
  have hS : E.st 75 = S' := by
    have h1 := hst 75 (Nat.le_refl 75)
    rw [List.take_of_length_le (Nat.le_of_eq hlen), h'] at h1
    exact (Option.some.inj h1).symm
  have hlate : ∀ m, 75 ≤ m → (E.st m).dock 1 = S'.dock 1 := by
    refine Trace.keep (P := fun m => (E.st m).dock 1 = S'.dock 1) (by rw [hS]) ?_
    intro m hm ih
    have hn := System.dock_part (E.some_step (htail m hm).2) 1
    simp only [System.State.dockAct] at hn
    rw [← ih]
    simpa using hn
  have look : ∀ (n : Nat) {β : Type} (f : System.State → β) (b : β), n ≤ 75 →
      (∃ S, run (System.State.step sysC sysH sysR []) .init ((sysDone ++ .crash .hub :: goneCall).take n) = some S ∧ f S = b) →
      f (E.st n) = b := by
    rintro n β f b hn ⟨S', h1, h2⟩
    rw [hst n hn] at h1
    cases h1
    exact h2
  have hd : DistinctReadings E 1 := by
    intro n i j hi hj hij
    have e := hlate (max n 75) (by omega)
    obtain ⟨i1, -, i2⟩ := Dock.course_call (T := dockCourse E 1) (show n ≤ max n 75 by omega) (i := i) hi
    obtain ⟨j1, -, j2⟩ := Dock.course_call (T := dockCourse E 1) (show n ≤ max n 75 by omega) (i := j) hj
    have i1 : i < ((E.st (max n 75)).dock 1).n := i1
    have j1 : j < ((E.st (max n 75)).dock 1).n := j1
    have i2 : ((E.st (max n 75)).dock 1).index i = ((E.st n).dock 1).index i := i2
    have j2 : ((E.st (max n 75)).dock 1).index j = ((E.st n).dock 1).index j := j2
    rw [e] at i1 j1 i2 j2
    rw [v1] at i1 j1
    rw [← i2, ← j2] at hij
    match i, j, i1, j1 with
    | 0, 0, _, _ => rfl
    | 0, 1, _, _ => rw [v3, v4] at hij; exact absurd hij (by decide)
    | 1, 0, _, _ => rw [v3, v4] at hij; exact absurd hij (by decide)
    | 1, 1, _, _ => rfl
  have hknown : ∀ m, 62 ≤ m → ((E.st m).dock 1).remote nameA = some 4 := by
    intro m hm
    rcases Nat.lt_or_ge m 75 with h | h
    · have : ∀ k, k < 13 → ((E.st (62 + k)).dock 1).remote nameA = some 4 := by
        intro k hk
        refine look (62 + k) (fun S => (S.dock 1).remote nameA) (some 4) (by omega) (sysWitness ?_)
        revert k
        decide +kernel
      have := this (m - 62) (by omega)
      rwa [show 62 + (m - 62) = m by omega] at this
    · rw [hlate m h, v2]
  have ho : (E.st 62).owner 5 = some (.dock 0) := look 62 (fun S => S.owner 5) _ (by omega) (sysWitness (by decide +kernel))
  have hcall : E.act 62 = some (.dock 1 (.call ⟨nameA, methM, [], true⟩ 78)) := hact 62 (by omega)
  refine ⟨E, L 1 0 4, hd, look 62 (fun S => S.down .hub) true (by omega) (sysWitness (by decide +kernel)), hcall, hknown, ho, ?_⟩
  refine C151_returns (L 1 0 4) hd (fun n k _ => ?_) 62 _ 78 hcall (by decide +kernel) hknown ho
  obtain ⟨⟨V, Q, e⟩, -⟩ := htail (max n 75) (by omega)
  refine ⟨max n 75, by omega, ?_⟩
  rw [e]
  rcases (Q.dock 0).exec k with h | ⟨h, -⟩
  · have : (((gone V).dock 0).exec k).phase = .over := h
    rw [this]
    simp
  · cases h

end Verif.Props
