import Verif.Props.World6

/-!
# C121: packets under way on the connections
-/

namespace Verif.Props

open Verif Verif.Codec Verif.Proto Verif.Dock Verif.System

section
variable (C : Nat → List Carried) (T : Nat → Nat → Chan.Target)

/-- A request or response that dock `d` can receive; the arguments of a request suit the method. -/
def Passing (d : Nat) (q : Proto) : Prop :=
  (∃ x slot meth args w, q = .rpcRequest x slot meth args w ∧
    ∀ c, Whole.calleeOf (C d) slot = some c → (T d c).invoke meth args ≠ .panics) ∨
  ∃ x slot meth res err, q = .rpcResponse x slot meth res err

/-- Dock `d` is alive and waits for packets at its end `e` of a connection, and only requests and responses are under way to
it. -/
structure Settled (S : World.State) (d e : Nat) : Prop where
  alive : Alive S d
  owner : S.sys.owner e = some (.dock d)
  peer : (S.sys.dock d).isPeer e = true
  idle : (S.sys.dock d).handler e = .idle
  passing : ∀ pkt ∈ S.sys.queue e, ∃ q, fate pkt = .arrives q ∧ Passing C T d q

/-- What stays as it is while requests and responses arrive. -/
structure Drained (S S' : World.State) : Prop where
  down : S'.sys.down = S.sys.down
  owner : S'.sys.owner = S.sys.owner
  rest : S'.rest = S.rest
  n : ∀ d, (S'.sys.dock d).n = (S.sys.dock d).n
  index : ∀ d, (S'.sys.dock d).index = (S.sys.dock d).index
  phase : ∀ d, (S'.sys.dock d).phase = (S.sys.dock d).phase
  handler : ∀ d, (S'.sys.dock d).handler = (S.sys.dock d).handler
  peers : ∀ d e, (S'.sys.dock d).isPeer e = (S.sys.dock d).isPeer e
  dead : ∀ d, (S'.sys.dock d).dead = (S.sys.dock d).dead
  nx : ∀ d, (S.sys.dock d).nx ≤ (S'.sys.dock d).nx
  exec : ∀ d k, k < (S.sys.dock d).nx → (S'.sys.dock d).exec k = (S.sys.dock d).exec k
  suits : ∀ d k c, (S.sys.dock d).nx ≤ k → k < (S'.sys.dock d).nx →
    Whole.calleeOf (C d) ((S'.sys.dock d).exec k).call.slot = some c →
    (T d c).invoke ((S'.sys.dock d).exec k).call.meth ((S'.sys.dock d).exec k).call.args ≠ .panics
  queue : ∀ e, ∃ l, S.sys.queue e = l ++ S'.sys.queue e

end

section
variable {C : Nat → List Carried} {T : Nat → Nat → Chan.Target} {H R : Nat → Str} {black : List Int}

theorem Drained.refl (S : World.State) : Drained C T S S :=
  ⟨rfl, rfl, rfl, fun _ => rfl, fun _ => rfl, fun _ => rfl, fun _ => rfl, fun _ _ => rfl, fun _ => rfl, fun _ => Nat.le_refl _,
    fun _ _ _ => rfl, fun _ _ _ h1 h2 => by omega, fun _ => ⟨[], rfl⟩⟩

theorem Drained.trans {S S' S'' : World.State} (a : Drained C T S S') (b : Drained C T S' S'') : Drained C T S S'' where
  down := b.down.trans a.down
  owner := b.owner.trans a.owner
  rest := b.rest.trans a.rest
  n d := (b.n d).trans (a.n d)
  index d := (b.index d).trans (a.index d)
  phase d := (b.phase d).trans (a.phase d)
  handler d := (b.handler d).trans (a.handler d)
  peers d e := (b.peers d e).trans (a.peers d e)
  dead d := (b.dead d).trans (a.dead d)
  nx d := Nat.le_trans (a.nx d) (b.nx d)
  exec d k h := (b.exec d k (Nat.lt_of_lt_of_le h (a.nx d))).trans (a.exec d k h)
  suits d k c h1 h2 := by
    rcases Nat.lt_or_ge k (S'.sys.dock d).nx with h | h
    · rw [b.exec d k h]
      exact a.suits d k c h1 h
    · exact b.suits d k c h h2
  queue e := by
    obtain ⟨l, h1⟩ := a.queue e
    obtain ⟨l', h2⟩ := b.queue e
    exact ⟨l ++ l', by rw [h1, h2, List.append_assoc]⟩

theorem Drained.settled {S S' : World.State} (a : Drained C T S S') {d e : Nat} (h : Settled C T S d e) : Settled C T S' d e where
  alive := ⟨by rw [a.down]; exact h.alive.1, by rw [a.dead]; exact h.alive.2.1, by rw [a.rest]; exact h.alive.2.2⟩
  owner := by rw [a.owner]; exact h.owner
  peer := by rw [a.peers]; exact h.peer
  idle := by rw [a.handler]; exact h.idle
  passing pkt hp := by
    obtain ⟨l, hl⟩ := a.queue e
    exact h.passing pkt (by rw [hl]; exact List.mem_append_right _ hp)

/-- One packet arrives. -/
theorem drain_step {S : World.State} {d e : Nat} (h : Settled C T S d e) {pkt : Proto} {rest : List Proto}
    (hq : S.sys.queue e = pkt :: rest) :
    ∃ S', S.step C T H R black (.sys (.deliver e)) = some S' ∧ Drained C T S S' ∧ S'.sys.queue e = rest := by
  obtain ⟨q, hf, hp⟩ := h.passing pkt (by rw [hq]; exact List.mem_cons_self)
  have hdead : (S.sys.dock d).dead = false := h.alive.2.1
  -- what the dock does
  obtain ⟨u, hu, u1, u2, u3, u4, u5, u6, u7, u8, u9, u10⟩ : ∃ u, (S.sys.dock d).step (C d) (.recv e q) = some u ∧
      u.log = (S.sys.dock d).log ++ [.recv e q] ∧ u.n = (S.sys.dock d).n ∧ u.index = (S.sys.dock d).index ∧
      u.phase = (S.sys.dock d).phase ∧ u.handler = (S.sys.dock d).handler ∧ (∀ e, u.isPeer e = (S.sys.dock d).isPeer e) ∧
      u.dead = (S.sys.dock d).dead ∧ (S.sys.dock d).nx ≤ u.nx ∧
      (∀ k, k < (S.sys.dock d).nx → u.exec k = (S.sys.dock d).exec k) ∧
      ∀ k c, (S.sys.dock d).nx ≤ k → k < u.nx → Whole.calleeOf (C d) (u.exec k).call.slot = some c →
        (T d c).invoke (u.exec k).call.meth (u.exec k).call.args ≠ .panics := by
    rcases hp with ⟨x, slot, meth, args, w, rfl, hs⟩ | ⟨x, slot, meth, res, err, rfl⟩
    · simp only [Dock.State.step, hdead, h.idle, h.peer, Dock.State.onPacket]
      cases hc : slotsOf (C d) slot with
      | none =>
        exact ⟨_, rfl, rfl, rfl, rfl, rfl, rfl, fun _ => rfl, rfl, Nat.le_refl _, fun _ _ => rfl, fun k c h1 h2 => by
          simp only at h2; omega⟩
      | some f =>
        refine ⟨_, rfl, rfl, rfl, rfl, rfl, rfl, fun _ => rfl, rfl, Nat.le_succ _, fun k hk => ?_, fun k c h1 h2 => ?_⟩
        · exact upd_other _ _ (by omega)
        · simp only at h2
          have : k = (S.sys.dock d).nx := by omega
          subst this
          simp only [upd_same]
          exact hs c
    · simp only [Dock.State.step, hdead, h.idle, h.peer, Dock.State.onPacket]
      cases hc : (S.sys.dock d).rpcs x with
      | none =>
        exact ⟨_, rfl, rfl, rfl, rfl, rfl, rfl, fun _ => rfl, rfl, Nat.le_refl _, fun _ _ => rfl, fun k c h1 h2 => by
          simp only at h2; omega⟩
      | some f =>
        exact ⟨_, rfl, rfl, rfl, rfl, rfl, rfl, fun _ => rfl, rfl, Nat.le_refl _, fun _ _ => rfl, fun k c h1 h2 => by
          simp only at h2; omega⟩
  have hdown := h.alive.1
  refine ⟨{ S with sys := (S.sys.took e q rest).setDock d u }, ?_, ?_, ?_⟩
  · simp only [World.State.step, System.State.step, hq, hf, System.State.receive, h.owner, hdown]
    rw [if_neg (by simp), hu]
    rfl
  · have hdock : ∀ x, ((S.sys.took e q rest).setDock d u).dock x = if x = d then u else S.sys.dock x := by
      intro x
      by_cases hx : x = d
      · subst hx; simp [System.State.setDock, upd_same]
      · simp [System.State.setDock, upd_other _ _ hx, System.State.took, hx]
    refine ⟨rfl, rfl, rfl, ?_, ?_, ?_, ?_, ?_, ?_, ?_, ?_, ?_, ?_⟩
    all_goals simp only [hdock]
    · intro x; split
      · rename_i hx; subst hx; exact u2
      · rfl
    · intro x; split
      · rename_i hx; subst hx; exact u3
      · rfl
    · intro x; split
      · rename_i hx; subst hx; exact u4
      · rfl
    · intro x; split
      · rename_i hx; subst hx; exact u5
      · rfl
    · intro x y; split
      · rename_i hx; subst hx; exact u6 y
      · rfl
    · intro x; split
      · rename_i hx; subst hx; exact u7
      · rfl
    · intro x; split
      · rename_i hx; subst hx; exact u8
      · exact Nat.le_refl _
    · intro x k hk; split
      · rename_i hx; subst hx; exact u9 k hk
      · rfl
    · intro x k c; split
      · rename_i hx; subst hx; exact u10 k c
      · intro h1 h2; omega
    · intro y
      rw [queue_setDock (S := S.sys.took e q rest) u1]
      by_cases hy : y = e
      · subst hy
        exact ⟨[pkt], by simp [System.State.took, upd_same, hq, dockSent]⟩
      · exact ⟨[], by simp [System.State.took, upd_other _ _ hy, dockSent]⟩
  · show ((S.sys.took e q rest).setDock d u).queue e = rest
    rw [queue_setDock (S := S.sys.took e q rest) u1]
    simp [System.State.took, upd_same, dockSent]

/-- All packets under way to one end arrive. -/
theorem drain_end {d e : Nat} (l : List Proto) : ∀ {S : World.State}, Settled C T S d e → S.sys.queue e = l →
    ∃ more S', (∀ a ∈ more, ∃ e, a = World.Act.sys (.deliver e)) ∧ run (World.State.step C T H R black) S more = some S' ∧
      Drained C T S S' ∧ S'.sys.queue e = [] := by
  induction l with
  | nil => exact fun {S} _ hq => ⟨[], S, by simp, rfl, Drained.refl S, hq⟩
  | cons pkt l ih =>
    intro S h hq
    obtain ⟨S1, s1, d1, q1⟩ := drain_step (H := H) (R := R) (black := black) h hq
    obtain ⟨more, S2, m2, r2, d2, q2⟩ := ih (d1.settled h) q1
    refine ⟨.sys (.deliver e) :: more, S2, ?_, ?_, d1.trans d2, q2⟩
    · intro a ha
      rcases List.mem_cons.mp ha with rfl | ha
      · exact ⟨e, rfl⟩
      · exact m2 a ha
    · simp only [run, s1]; exact r2

/-- All packets arrive where only requests and responses are under way. -/
theorem drain_all (ends : List Nat) : ∀ S : World.State, ∃ more S', (∀ a ∈ more, ∃ e, a = World.Act.sys (.deliver e)) ∧
    run (World.State.step C T H R black) S more = some S' ∧ Drained C T S S' ∧
    ∀ d e, e ∈ ends → Settled C T S d e → S'.sys.queue e = [] := by
  induction ends with
  | nil => exact fun S => ⟨[], S, by simp, rfl, Drained.refl S, by simp⟩
  | cons e ends ih =>
    intro S
    by_cases h : ∃ d, Settled C T S d e
    · obtain ⟨d, h⟩ := h
      obtain ⟨as, S1, a1, r1, d1, q1⟩ := drain_end (H := H) (R := R) (black := black) _ h rfl
      obtain ⟨bs, S2, b2, r2, d2, q2⟩ := ih S1
      refine ⟨as ++ bs, S2, ?_, by rw [run_append, r1]; exact r2, d1.trans d2, ?_⟩
      · intro a ha
        rcases List.mem_append.mp ha with ha | ha
        · exact a1 a ha
        · exact b2 a ha
      · intro d' e' he hs
        rcases List.mem_cons.mp he with rfl | he
        · obtain ⟨l, hl⟩ := d2.queue e'
          rw [q1] at hl
          exact (List.append_eq_nil_iff.mp hl.symm).2
        · exact q2 d' e' he (d1.settled hs)
    · obtain ⟨bs, S2, b2, r2, d2, q2⟩ := ih S
      refine ⟨bs, S2, b2, r2, d2, fun d' e' he hs => ?_⟩
      rcases List.mem_cons.mp he with rfl | he
      · exact absurd ⟨d', hs⟩ h
      · exact q2 d' e' he hs

end

/-! ## C121 -/

/-- Call `i` of dock `d` waits for dock `d'` to answer request `k`: both processes are alive; only requests and responses are
under way on the connection to dock `d`, and it is not handling another packet of the connection; and the packets that may carry the
answer — one with no results, one for a timeout, or one with the result the method has — fit into the receiver's buffer. -/
structure Under (C : Nat → List Carried) (T : Nat → Nat → Chan.Target) (S : World.State) (d i d' k : Nat) : Prop where
  alive' : Alive S d'
  lt : i < (S.sys.dock d).n
  waiting : (S.sys.dock d).phase i = .waiting
  lt' : k < (S.sys.dock d').nx
  index : (S.sys.dock d).index i = ((S.sys.dock d').exec k).index
  over : ((S.sys.dock d').exec k).phase ≠ .over
  settled : Settled C T S d (other ((S.sys.dock d').exec k).peer)
  sendNone : CanSend S d' k ⟨[], []⟩
  sendTimeout : CanSend S d' k (Whole.retOf ((S.sys.dock d').exec k).call.meth .timeout)
  sendResult : ∀ q v, (S.rest d').served k = some q → (S.rest d').chan.ret q = some v →
    CanSend S d' k (Whole.retOf ((S.sys.dock d').exec k).call.meth (.ok v))

/-- The chain of waiting that begins at feature `c` of dock `d` ends: it does not go round in circles, and every remote
call on it is under way to a dock that is alive. -/
inductive Closes (C : Nat → List Carried) (T : Nat → Nat → Chan.Target) (S : World.State) : Nat → Nat → Prop where
  | intro (d c : Nat) :
    (∀ p i, (S.rest d).chan.handler c = .running p → (S.rest d).blocked p = some i → ∃ d' k, Under C T S d i d' k) →
    (∀ d' c', Waits C S d c d' c' → Closes C T S d' c') → Closes C T S d c

section
variable {C : Nat → List Carried} {T : Nat → Nat → Chan.Target} {H R : Nat → Str} {black : List Int}

theorem Drained.way {S S' : World.State} (D : Drained C T S S') {d i d' k : Nat} (P : Under C T S d i d' k)
    (hq : S'.sys.queue (other ((S.sys.dock d').exec k).peer) = []) : Way S' d i d' k := by
  have e := D.exec d' k P.lt'
  have hS := D.settled P.settled
  rw [← e] at hS hq
  refine ⟨⟨hS.alive, ⟨by rw [D.down]; exact P.alive'.1, by rw [D.dead]; exact P.alive'.2.1, by rw [D.rest]; exact P.alive'.2.2⟩,
    by rw [D.n]; exact P.lt, by rw [D.phase]; exact P.waiting, Nat.lt_of_lt_of_le P.lt' (D.nx d'), hS.owner,
    by rw [D.index, e]; exact P.index, by rw [e]; exact P.over, hS.idle, hq⟩, ?_, ?_, ?_⟩
  · simp only [CanSend, e]; exact P.sendNone
  · simp only [CanSend, e]; exact P.sendTimeout
  · intro q v h1 h2
    rw [D.rest] at h1 h2
    simp only [CanSend, e]
    exact P.sendResult q v h1 h2

theorem Drained.ending {S S' : World.State} (D : Drained C T S S') (hS' : Reach C T H R black S') (hd : Distinct S')
    (hq : ∀ d e, Settled C T S d e → S'.sys.queue e = []) {d c : Nat} (h : Closes C T S d c) : Ending C S' d c := by
  induction h with
  | intro d c hb _ ih =>
    refine .intro d c ?_ ?_
    · intro p i hp hi
      rw [D.rest] at hp hi
      obtain ⟨d', k, P⟩ := hb p i hp hi
      exact ⟨d', k, D.way P (hq _ _ P.settled)⟩
    · rintro d' c' ⟨p, hp, hor⟩
      have hp0 := hp
      rw [D.rest] at hp0
      refine ih d' c' ⟨p, hp0, ?_⟩
      rcases hor with ⟨rfl, q, h1, h2, h3⟩ | ⟨i, k, h1, h2, h3, h4, h5, h6, h7⟩
      · rw [D.rest] at h1 h2 h3
        exact .inl ⟨rfl, q, h1, h2, h3⟩
      · have h1' := h1
        rw [D.rest] at h1'
        obtain ⟨d2, k2, P⟩ := hb p i hp0 h1'
        have W := D.way P (hq _ _ P.settled)
        obtain ⟨as, has⟩ := hS'
        obtain ⟨bs, hbs⟩ := World.sys_reach has
        obtain ⟨rfl, rfl⟩ := exec_unique hbs (hd d) h3 W.lt' h4 W.owner (h5.trans W.index)
        have e := D.exec d' k P.lt'
        rw [e] at h6
        refine .inr ⟨i, k, h1', P.lt, P.lt', P.settled.owner, P.index.symm, h6, fun q hs => ?_⟩
        have := h7 q (by rw [D.rest]; exact hs)
        rw [D.rest] at this
        exact this

theorem Drained.distinct {S S' : World.State} (D : Drained C T S S') (h : Distinct S) : Distinct S' := by
  intro d i j hi hj hij
  rw [D.n] at hi hj
  rw [D.index] at hij
  exact h d i j hi hj hij

theorem Drained.apt {S S' : World.State} (D : Drained C T S S') (h : ∀ d, Apt (C d) (T d) (S.at d)) (d : Nat) :
    Apt (C d) (T d) (S'.at d) := by
  obtain ⟨h1, h2⟩ := h d
  refine ⟨?_, fun k c hk hc => ?_⟩
  · show Suitable (T d) (S'.rest d).chan
    rw [D.rest]; exact h1
  · rcases Nat.lt_or_ge k (S.sys.dock d).nx with hlt | hge
    · have e : (S'.at d).dock.exec k = (S.at d).dock.exec k := D.exec d k hlt
      rw [e] at hc ⊢
      exact h2 k c hlt hc
    · exact D.suits d k c hge hk hc

end

/-- **C121, the other direction.**  In every reachable state of a system (no two calls of a dock with the same clock
reading, arguments suitable): let call `i` of dock `d` wait for dock `d'` to answer request `k`, with both processes
alive and only requests and responses under way on the connection.  If the method has been started, or if the chain of waiting
that begins at the feature it belongs to comes to an end, then the call can return, without any application making a
further call.

Missing from C121: that a call returns in the other cases, see `C121_circle_refuted`. -/
theorem C121_returns_partial (C : Nat → List Carried) (T : Nat → Nat → Chan.Target) (H R : Nat → Str) (black : List Int)
    (as : List World.Act) (S : World.State) (h : run (World.State.step C T H R black) (World.State.init T) as = some S)
    (hd : Distinct S) (ha : ∀ d, Apt (C d) (T d) (S.at d)) (d i d' k : Nat) (P : Under C T S d i d' k)
    (he : (∃ q, (S.rest d').served k = some q ∧ (S.rest d').chan.startedAt q ≠ none) ∨
      ∀ c, LastAt (C d') ((S.sys.dock d').exec k).call.slot c → Closes C T S d' c) :
    ∃ more S' r, (∀ a ∈ more, benign a = true) ∧ run (World.State.step C T H R black) S more = some S' ∧ Distinct S' ∧
      (S'.sys.dock d).phase i = .returned r := by
  obtain ⟨as0, S0, b0, h0, D, q0⟩ := drain_all (C := C) (T := T) (H := H) (R := R) (black := black) (List.range (2 * S.sys.n)) S
  have hq : ∀ d e, Settled C T S d e → S0.sys.queue e = [] := by
    intro d e hs
    refine q0 d e (List.mem_range.mpr ?_) hs
    obtain ⟨bs, hb⟩ := World.sys_reach h
    have I := System.inv_run C H R black hb
    exact Nat.lt_of_not_le fun hle => by
      have := I.shape.fresh e hle
      rw [hs.owner] at this
      cases this
  have hr0 : run (World.State.step C T H R black) (World.State.init T) (as ++ as0) = some S0 := by rw [run_append, h]; exact h0
  have hd0 := D.distinct hd
  obtain ⟨more, S', r, m1, m2, m3, m4⟩ := idle_returns C T H R black _ S0 hr0 hd0 (D.apt ha) d i d' k
    (D.way P (hq _ _ P.settled)) (by
      rw [D.exec d' k P.lt', D.rest]
      rcases he with he | he
      · exact .inl he
      · exact .inr fun c hc => D.ending ⟨_, hr0⟩ hd0 hq (he c hc))
  refine ⟨as0 ++ more, S', r, ?_, by rw [run_append, h0]; exact m2, m3, m4⟩
  intro a ha
  rcases List.mem_append.mp ha with ha | ha
  · obtain ⟨e, rfl⟩ := b0 a ha
    rfl
  · exact m1 a ha

/-- **C121, exactly.**  In every reachable state in which each remote call that a method waits for is under way (and the
clock readings of the calls of a dock differ, and the arguments suit the methods): a remote call that is under way can
return, in an execution in which no dock's clock returns the same reading twice, if and only if its method has been
started or the chain of waiting that begins at its feature comes to an end. -/
theorem C121_exact_partial (C : Nat → List Carried) (T : Nat → Nat → Chan.Target) (H R : Nat → Str) (black : List Int)
    (as : List World.Act) (S : World.State) (h : run (World.State.step C T H R black) (World.State.init T) as = some S)
    (hd : Distinct S) (ha : ∀ d, Apt (C d) (T d) (S.at d))
    (hw : ∀ d p i, (S.rest d).blocked p = some i → ∃ d' k, Under C T S d i d' k) (d i d' k : Nat) (P : Under C T S d i d' k) :
    (∃ more S' r, run (World.State.step C T H R black) S more = some S' ∧ Distinct S' ∧ (S'.sys.dock d).phase i = .returned r) ↔
    ((∃ q, (S.rest d').served k = some q ∧ (S.rest d').chan.startedAt q ≠ none) ∨
      ∀ c, LastAt (C d') ((S.sys.dock d').exec k).call.slot c → Closes C T S d' c) := by
  constructor
  · rintro ⟨more, S', r, h', hd', hr⟩
    refine Classical.byContradiction fun hno => ?_
    have h1 : ∀ q, (S.rest d').served k = some q → (S.rest d').chan.startedAt q = none := fun q hq =>
      Classical.byContradiction fun e => hno (.inl ⟨q, hq, e⟩)
    have : ∃ c, LastAt (C d') ((S.sys.dock d').exec k).call.slot c ∧ ¬ Closes C T S d' c := by
      refine Classical.byContradiction fun e => hno (.inr fun c hc => ?_)
      exact Classical.byContradiction fun e' => e ⟨c, hc, e'⟩
    obtain ⟨c, hc, hne⟩ := this
    have hX : ∀ d c, ¬ Closes C T S d c → ∃ d' c', ¬ Closes C T S d' c' ∧ Waits C S d c d' c' := by
      intro d c hn
      refine Classical.byContradiction fun e => hn (.intro d c (fun p i _ hb => hw d p i hb) fun d' c' hwt => ?_)
      exact Classical.byContradiction fun e' => e ⟨d', c', e', hwt⟩
    exact ((C121_behind C T H R black as more S S' h h' hd' (fun d c => ¬ Closes C T S d c) hX d' c hne).2 d i k P.lt'
      P.settled.owner P.lt P.index.symm hc h1 r).2 hr
  · intro he
    obtain ⟨more, S', r, -, h1, h2, h3⟩ := C121_returns_partial C T H R black as S h hd ha d i d' k P he
    exact ⟨more, S', r, h1, h2, h3⟩

end Verif.Props
