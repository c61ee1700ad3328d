import Verif.Props.World3
import Verif.Props.Dock4

/-!
# C121, positive part: the steps by which a remote call is completed
-/

namespace Verif.Props

open Verif Verif.Codec Verif.Proto Verif.Dock Verif.System

section
variable {C : Nat → List Carried} {T : Nat → Nat → Chan.Target} {H R : Nat → Str} {black : List Int}

/-- A request that has been received is handed to its callee. -/
theorem invoke_op {S : World.State} (hS : Reach C T H R black S) {d k c : Nat} (hA : Alive S d) (hk : k < (S.sys.dock d).nx)
    (hph : ((S.sys.dock d).exec k).phase = .spawned)
    (hc : Whole.calleeOf (C d) ((S.sys.dock d).exec k).call.slot = some c) (hg : Apt (C d) (T d) (S.at d)) :
    ∃ S', Advances C T H R black S S' ∧ ((S'.sys.dock d).exec k).phase = .running ∧
      (S'.rest d).served k = some (S.rest d).chan.n ∧ (S.rest d).chan.n < (S'.rest d).chan.n ∧
      ((S'.rest d).chan.req (S.rest d).chan.n).callee = c ∧
      (S'.rest d).chan.startedAt (S.rest d).chan.n = none ∧ (S'.rest d).chan.handler = (S.rest d).chan.handler ∧
      (S'.rest d).chan.waits = (S.rest d).chan.waits ∧ (S'.rest d).blocked = (S.rest d).blocked ∧
      ∀ x, x ≠ d → S'.at x = S.at x := by
  obtain ⟨-, A, Ti, Bl, W⟩ := hS.facts d
  have fr := hS.fresh d
  have hd : (S.at d).dock.dead = false := hA.2.1
  have hcd : (S.at d).chan.dead = false := hA.2.2
  have hph' : ((S.at d).dock.exec k).phase = .spawned := hph
  have hc' : Whole.calleeOf (C d) ((S.at d).dock.exec k).call.slot = some c := hc
  have hk' : k < (S.at d).dock.nx := hk
  have key : ∀ s : Whole.State, s = S.at d → ∃ w, s.step (C d) (T d) (.invoke k) = some w ∧
      w.dock = { s.dock with
        exec := upd s.dock.exec k { s.dock.exec k with phase := .running }
        log := s.dock.log ++ [.invoke (some ((s.dock.exec k).peer, (s.dock.exec k).index)) (s.dock.exec k).feature
          (s.dock.exec k).call] } ∧
      w.chan = { s.chan with
        n := s.chan.n + 1
        req := upd s.chan.req s.chan.n ⟨c, s.chan.n, (s.dock.exec k).call.meth, (s.dock.exec k).call.args, none, s.chan.clock⟩ } ∧
      w.served = upd s.served k (some s.chan.n) ∧ w.blocked = s.blocked := by
    intro s e
    subst e
    apply Exists.intro
    apply And.intro
    · simp only [Whole.State.step, hd, hcd, Bool.or_self, Bool.false_eq_true, if_false, hc']
      simp only [Dock.State.step, hd, hph', Chan.State.step, hcd, Bool.false_eq_true, if_false]
      rfl
    · refine ⟨?_, ?_, rfl, rfl⟩ <;> simp [hd, hcd]
  obtain ⟨w, st, e1, e2, e3, e4⟩ := key _ rfl
  have hp : Part (C d) (T d) (S.at d) w := by
    refine ⟨by rw [e1], by rw [e2], by rw [e1], by rw [e1], by rw [e1], by rw [e1], ?_, ?_, by rw [e2]; exact Nat.le_succ _, ?_,
      ?_, ?_, ?_, ?_, ?_, ?_, ?_, ?_⟩
    · intro j
      rw [e1]
      by_cases e : j = k
      · subst e; simp [upd_same]
      · simp [upd_other _ _ e]
    · intro i; rw [e1]; exact Or.inl rfl
    · intro q hq
      rw [e2]
      exact upd_other _ _ (Nat.ne_of_lt hq)
    · intro p q h; rw [e2] at h; exact h
    · intro p i h; rw [e4] at h; exact h
    · intro p i h; rw [e4]; exact Or.inl h
    · intro j q h
      rw [e3]
      have : j ≠ k := by
        rintro rfl
        exact (W.served j q h).2.2.2.2 hph'
      rw [upd_other _ _ this]
      exact h
    · intro j q h
      rw [e3] at h
      by_cases e : j = k
      · subst e
        rw [upd_same] at h
        cases h
        exact Or.inr (Nat.le_refl _)
      · rw [upd_other _ _ e] at h
        exact Or.inl h
    · intro q hq
      rw [e2] at hq ⊢
      exact fr q (Nat.le_of_succ_le hq)
    · intro p q _ _ _ h
      rw [e2]
      exact h
    · rintro ⟨g1, g2⟩
      refine ⟨?_, ?_⟩
      · intro i hi h0
        rw [e2] at hi h0 ⊢
        by_cases e : i = (S.at d).chan.n
        · subst e
          simp only [upd_same]
          exact g2 k c hk hc'
        · simp only [upd_other _ _ e]
          have hi' : i < (S.at d).chan.n + 1 := hi
          exact g1 i (by omega) h0
      · intro j x hj hx
        rw [e1] at hj hx ⊢
        by_cases e : j = k
        · subst e
          simp only [upd_same] at hx ⊢
          exact g2 j x hj hx
        · simp only [upd_other _ _ e] at hx ⊢
          exact g2 j x hj hx
  obtain ⟨S', m1, m2, m3⟩ := move_solo (H := H) (R := R) (black := black) hS hA rfl st ⟨_, by rw [e1], fun e => rfl⟩ hp (by
    intro j hj
    rw [e1] at hj
    by_cases e : j = k
    · subst e
      simp only [upd_same] at hj
      cases hj
    · simp only [upd_other _ _ e] at hj
      exact hj)
  refine ⟨S', m1, ?_, ?_, ?_, ?_, ?_, ?_, ?_, ?_, m3⟩
  · show ((S'.at d).dock.exec k).phase = .running
    rw [m2, e1]
    simp only [upd_same]
  · show (S'.at d).served k = _
    rw [m2, e3, upd_same]
    rfl
  · show _ < (S'.at d).chan.n
    rw [m2, e2]
    exact Nat.lt_succ_self _
  · show ((S'.at d).chan.req (S.at d).chan.n).callee = c
    rw [m2, e2]
    simp only [upd_same]
  · show (S'.at d).chan.startedAt (S.at d).chan.n = none
    rw [m2, e2]
    exact fr _ (Nat.le_refl _)
  · show (S'.at d).chan.handler = (S.at d).chan.handler
    rw [m2, e2]
  · show (S'.at d).chan.waits = (S.at d).chan.waits
    rw [m2, e2]
  · show (S'.at d).blocked = (S.at d).blocked
    rw [m2, e4]

/-- The call made for a request returns. -/
theorem finish_op {S : World.State} (hS : Reach C T H R black S) {d k q j : Nat} {a : Chan.Ans} (hA : Alive S d)
    (hph : ((S.sys.dock d).exec k).phase = .running) (hs : (S.rest d).served k = some q)
    (hr : (S.rest d).chan.result q = some (j, a)) :
    ∃ S', Advances C T H R black S S' ∧
      ((S'.sys.dock d).exec k).phase = .returned (Whole.retOf ((S.sys.dock d).exec k).call.meth a) ∧
      (S'.rest d).chan = (S.rest d).chan ∧ (S'.rest d).blocked = (S.rest d).blocked ∧ ∀ x, x ≠ d → S'.at x = S.at x := by
  have fr := hS.fresh d
  have hd : (S.at d).dock.dead = false := hA.2.1
  have hcd : (S.at d).chan.dead = false := hA.2.2
  have hph' : ((S.at d).dock.exec k).phase = .running := hph
  have hs' : (S.at d).served k = some q := hs
  have hr' : (S.at d).chan.result q = some (j, a) := hr
  have key : ∀ s : Whole.State, s = S.at d → ∃ w, s.step (C d) (T d) (.finish k) = some w ∧
      w.dock = { s.dock with
        exec := upd s.dock.exec k { s.dock.exec k with phase := .returned (Whole.retOf (s.dock.exec k).call.meth a) }
        log := s.dock.log ++ [.returned ((s.dock.exec k).peer, (s.dock.exec k).index) (s.dock.exec k).feature
          (s.dock.exec k).call (Whole.retOf (s.dock.exec k).call.meth a)] } ∧
      w.chan = s.chan ∧ w.served = s.served ∧ w.blocked = s.blocked := by
    intro s e
    subst e
    apply Exists.intro
    apply And.intro
    · simp only [Whole.State.step, hd, hcd, Bool.or_self, Bool.false_eq_true, if_false, hs', hr']
      simp only [Dock.State.step, hd, hph', Bool.false_eq_true, if_false]
      rfl
    · refine ⟨?_, ?_, rfl, rfl⟩ <;> simp [hd, hcd]
  obtain ⟨w, st, e1, e2, e3, e4⟩ := key _ rfl
  have hx : ∀ j, (w.dock.exec j).peer = ((S.at d).dock.exec j).peer ∧ (w.dock.exec j).index = ((S.at d).dock.exec j).index ∧
      (w.dock.exec j).call = ((S.at d).dock.exec j).call := by
    intro j
    rw [e1]
    by_cases e : j = k
    · subst e; simp [upd_same]
    · simp [upd_other _ _ e]
  have hnx : w.dock.nx = (S.at d).dock.nx := by rw [e1]
  have hp : Part (C d) (T d) (S.at d) w := by
    refine ⟨by rw [e1], by rw [e2], by rw [e1], by rw [e1], by rw [e1], hnx, hx, ?_, Nat.le_of_eq (by rw [e2]), ?_, ?_, ?_, ?_, ?_, ?_, ?_, ?_, ?_⟩
    · intro i; rw [e1]; exact Or.inl rfl
    · intro q hq; rw [e2]
    · intro p q h; rw [e2] at h; exact h
    · intro p i h; rw [e4] at h; exact h
    · intro p i h; rw [e4]; exact Or.inl h
    · intro j q h; rw [e3]; exact h
    · intro j q h; rw [e3] at h; exact Or.inl h
    · intro q hq; rw [e2] at hq ⊢; exact fr q hq
    · intro p q _ _ _ h; rw [e2]; exact h
    · rintro ⟨g1, g2⟩
      refine ⟨by rw [e2]; exact g1, ?_⟩
      intro j x hj hx'
      rw [(hx j).2.2] at hx' ⊢
      rw [hnx] at hj
      exact g2 j x hj hx'
  obtain ⟨S', m1, m2, m3⟩ := move_solo (H := H) (R := R) (black := black) hS hA rfl st ⟨_, by rw [e1], fun e => rfl⟩ hp (by
    intro j hj
    rw [e1] at hj
    by_cases e : j = k
    · subst e
      simp only [upd_same] at hj
      cases hj
    · simp only [upd_other _ _ e] at hj
      exact hj)
  refine ⟨S', m1, ?_, ?_, ?_, m3⟩
  · show ((S'.at d).dock.exec k).phase = _
    rw [m2, e1]
    simp only [upd_same]
    rfl
  · show (S'.at d).chan = (S.at d).chan
    rw [m2, e2]
  · show (S'.at d).blocked = (S.at d).blocked
    rw [m2, e4]

/-- While a request has not been answered, no response for it has been received. -/
theorem no_response {S : World.State} (hS : Reach C T H R black S) (hd : Distinct S) {d i d' k : Nat}
    (hk : k < (S.sys.dock d').nx) (ho : S.sys.owner (other ((S.sys.dock d').exec k).peer) = some (.dock d))
    (hx : (S.sys.dock d).index i = ((S.sys.dock d').exec k).index) (hp : ((S.sys.dock d').exec k).phase ≠ .over) :
    responses ((S.sys.dock d).index i) (S.sys.dock d).log = 0 := by
  obtain ⟨as, h⟩ := id hS
  obtain ⟨bs, hb⟩ := World.sys_reach h
  have I := System.inv_run C H R black hb
  refine Classical.byContradiction fun hne => ?_
  have hpos : 0 < responses ((S.sys.dock d).index i) (S.sys.dock d).log := Nat.pos_of_ne_zero hne
  unfold responses at hpos
  obtain ⟨a, ha, hq⟩ := List.countP_pos_iff.mp hpos
  split at hq
  · rename_i p y slot meth res err
    have hy : y = (S.sys.dock d).index i := by simpa [eq_comm] using hq
    subst hy
    obtain ⟨o, d2, res, err, o', h2, -⟩ := response_sent I ha
    have W := (hS.facts d2).2.2.2.2
    have h4 : (other p, (S.sys.dock d).index i, slot, meth, res, err) ∈ (S.at d2).dock.log.filterMap Whole.answerOf :=
      List.mem_filterMap.mpr ⟨_, h2, rfl⟩
    rw [W.sent] at h4
    obtain ⟨k2, hk2, e⟩ := List.mem_map.mp h4
    have hlt : k2 < (S.sys.dock d2).nx := Nat.lt_of_not_le fun hge => (W.fresh k2 hge).2.2 hk2
    simp only [Whole.answerTo, Prod.mk.injEq] at e
    have e1 : ((S.sys.dock d2).exec k2).peer = other p := e.1
    have e2 : ((S.sys.dock d2).exec k2).index = (S.sys.dock d).index i := e.2.1
    obtain ⟨rfl, rfl⟩ := exec_unique hb (hd d) hk hlt ho (by rw [e1, other_other]; exact o) (hx.symm.trans e2.symm)
    exact hp ((W.over k hlt).mpr hk2)
  · cases hq

/-- The response to request `k` of dock `d'` with result `r` can be sent. -/
def CanSend (S : World.State) (d' k : Nat) (r : Ret) : Prop :=
  let x := (S.sys.dock d').exec k
  let pkt := Proto.rpcResponse x.index x.call.slot x.call.meth (if x.call.withResult then r.result else []) r.err
  pkt.sendable = true ∧ Short pkt

/-- Call `i` of dock `d` waits for dock `d'` to answer request `k`, and nothing is happening on the connection. -/
structure Pends (S : World.State) (d i d' k : Nat) : Prop where
  alive : Alive S d
  alive' : Alive S d'
  lt : i < (S.sys.dock d).n
  waiting : (S.sys.dock d).phase i = .waiting
  lt' : k < (S.sys.dock d').nx
  owner : S.sys.owner (other ((S.sys.dock d').exec k).peer) = some (.dock d)
  index : (S.sys.dock d).index i = ((S.sys.dock d').exec k).index
  over : ((S.sys.dock d').exec k).phase ≠ .over
  idle : (S.sys.dock d).handler (other ((S.sys.dock d').exec k).peer) = .idle
  queue : S.sys.queue (other ((S.sys.dock d').exec k).peer) = []

theorem Pends.facts {S : World.State} (hS : Reach C T H R black S) (hd : Distinct S) {d i d' k : Nat} (P : Pends S d i d' k) :
    d ≠ d' ∧ S.sys.owner ((S.sys.dock d').exec k).peer = some (.dock d') ∧
    (S.sys.dock d).isPeer (other ((S.sys.dock d').exec k).peer) = true ∧
    (S.sys.dock d).rpcs ((S.sys.dock d).index i) = some i ∧ (S.sys.dock d).chan i = none ∧
    (S.sys.dock d).chanClosed i = false := by
  have h0 := no_response hS hd P.lt' P.owner P.index P.over
  obtain ⟨as, h⟩ := id hS
  obtain ⟨bs, hb⟩ := World.sys_reach h
  have I := System.inv_run C H R black hb
  obtain ⟨o, d2, j, o2, j1, j2, j3, j4, j5, f, j6, -⟩ := exec_call I P.lt'
  rw [P.owner] at o2
  cases o2
  have hji : j = i := hd d j i j1 P.lt (j2.trans P.index.symm)
  subst hji
  obtain ⟨ds, hds⟩ := I.parts.dock d
  have hne : d ≠ d' := by
    rintro rfl
    have h1 := (dock_inv I d).2.2.2.callRemote j j1
    have h2 : slotsOf (C d) ((S.sys.dock d).exec k).call.slot = some f := (slotsOf_some _ _ _).mpr j6
    rw [j3, h2] at h1
    cases h1
  have hpeer : (S.sys.dock d).isPeer (other ((S.sys.dock d').exec k).peer) = true := by
    have g1 := exec_received (dock_inv I d').2.2.2 P.lt'
    obtain ⟨-, d2, args, wr, o2, g2, -⟩ := request_sent I g1
    rw [P.owner] at o2
    cases o2
    exact (dock_inv I d).2.1.sent _ _ g2
  have hreg : (S.sys.dock d).rpcs ((S.sys.dock d).index j) = some j := by
    rcases regInv_run (C d) ds _ hds j P.lt (by rw [P.waiting]; simp) with h' | ⟨x, h2, h3, h4⟩ | h'
    · exact h'
    · exact absurd (hd d x j h3 P.lt h4) h2
    · omega
  obtain ⟨_, hC⟩ := chanInv_run (C d) ds _ hds
  have hC := (hC j).2 P.lt
  have hnone : callbacks (S.sys.dock d) j = [] := by
    have := hC.count
    rw [h0] at this
    exact List.length_eq_zero_iff.mp (Nat.le_zero.mp this)
  have hno : ¬ ((S.sys.dock d).chan j ≠ none ∨ (S.sys.dock d).chanClosed j = true ∨ ((S.sys.dock d).phase j).result ≠ none) := by
    intro hu
    obtain ⟨x, hx, _⟩ := hC.used hu
    rw [hnone] at hx
    cases hx
  refine ⟨hne, o, hpeer, hreg, Classical.byContradiction fun hc => hno (Or.inl hc), ?_⟩
  cases hc : (S.sys.dock d).chanClosed j
  · rfl
  · exact absurd (Or.inr (Or.inl hc)) hno

/-- A packet arrives. -/
theorem deliver_step {S : World.State} {d e : Nat} {pkt q : Proto} {rest : List Proto} {u : Dock.State}
    (hq : S.sys.queue e = pkt :: rest) (hf : fate pkt = .arrives q) (ho : S.sys.owner e = some (.dock d))
    (hd : S.sys.down (.dock d) = false) (h : (S.sys.dock d).step (C d) (.recv e q) = some u)
    (hl : ∃ l, u.log = (S.sys.dock d).log ++ l ∧ ∀ e, dockSent e l = []) :
    ∃ S', S.step C T H R black (.sys (.deliver e)) = some S' ∧ S'.at d = { S.at d with dock := u } ∧
      (∀ x, x ≠ d → S'.at x = S.at x) ∧ S'.sys.down = S.sys.down ∧ S'.sys.owner = S.sys.owner ∧
      S'.sys.queue = upd S.sys.queue e rest := by
  refine ⟨{ S with sys := (S.sys.took e q rest).setDock d u }, ?_, ?_, ?_, rfl, rfl, ?_⟩
  · simp only [World.State.step, System.State.step, hq, hf, System.State.receive, ho, hd]
    rw [if_neg (by simp), h]
    rfl
  · simp [World.State.at, System.State.setDock, upd_same]
  · intro x hx
    simp [World.State.at, System.State.setDock, upd_other _ _ hx, System.State.took]
  · obtain ⟨l, h1, h2⟩ := hl
    funext y
    rw [queue_setDock (S := S.sys.took e q rest) h1, h2]
    show upd S.sys.queue e rest y ++ _ = _
    split <;> exact List.append_nil _

/-- A dock receives a response, and the call returns. -/
theorem reply_whole {cs : List Carried} {T : Nat → Chan.Target} (s : Whole.State) {e i : Nat} {x : BitVec 64} {slot meth : Str}
    {res : List Val} {err : Str} (hd : s.dock.dead = false) (hc : s.chan.dead = false) (hh : s.dock.handler e = .idle)
    (hp : s.dock.isPeer e = true) (hx : s.dock.rpcs x = some i) (hw : s.dock.phase i = .waiting) (hch : s.dock.chan i = none)
    (hcl : s.dock.chanClosed i = false) :
    ∃ (u : Dock.State) (w3 w4 w5 w6 : Whole.State),
      s.dock.step cs (.recv e (.rpcResponse x slot meth res err)) = some u ∧
      u.log = s.dock.log ++ [.recv e (.rpcResponse x slot meth res err)] ∧
      Whole.State.step cs T { s with dock := u } (.dock (.callback s.dock.nc)) = some w3 ∧
      w3.step cs T (.dock (.receive i)) = some w4 ∧ w4.step cs T (.returns i) = some w5 ∧
      w5.step cs T (.dock (.delete s.dock.nc)) = some w6 ∧
      (w3.dock.log = u.log ∧ w4.dock.log = u.log ∧ w5.dock.log = u.log ∧ w6.dock.log = u.log) ∧
      (w3.chan = s.chan ∧ w4.chan = s.chan ∧ w5.chan = s.chan ∧ w6.chan = s.chan) ∧
      w6.dock.dead = false ∧ w6.dock.n = s.dock.n ∧ w6.dock.index = s.dock.index ∧ w6.dock.handler = s.dock.handler ∧
      w6.dock.nx = s.dock.nx ∧ w6.dock.exec = s.dock.exec ∧ w6.dock.phase = upd s.dock.phase i (.returned ⟨res, err⟩) ∧
      w6.served = s.served ∧ w6.blocked = fun p => if s.blocked p = some i then none else s.blocked p := by
  have e1 : s.dock.step cs (.recv e (.rpcResponse x slot meth res err)) = some { s.dock with
      log := s.dock.log ++ [.recv e (.rpcResponse x slot meth res err)]
      nc := s.dock.nc + 1
      cb := upd s.dock.cb s.dock.nc ⟨i, x, ⟨res, err⟩, .sending⟩ } := by
    unfold Dock.State.step
    rw [if_neg (by rw [hd]; simp)]
    simp only [hh, hp, Dock.State.onPacket, hx]
    rfl
  generalize hu : ({ s.dock with
      log := s.dock.log ++ [.recv e (.rpcResponse x slot meth res err)]
      nc := s.dock.nc + 1
      cb := upd s.dock.cb s.dock.nc ⟨i, x, ⟨res, err⟩, .sending⟩ } : Dock.State) = u at e1
  have ud : u.dead = false := by rw [← hu]; exact hd
  have ucb : u.cb s.dock.nc = ⟨i, x, ⟨res, err⟩, .sending⟩ := by rw [← hu]; exact upd_same ..
  have ucl : u.chanClosed i = false := by rw [← hu]; exact hcl
  have uch : u.chan i = none := by rw [← hu]; exact hch
  have uph : u.phase i = .waiting := by rw [← hu]; exact hw
  have e3 : Whole.State.step cs T { s with dock := u } (.dock (.callback s.dock.nc)) = some { s with dock := { u with
      chan := upd u.chan i (some ⟨res, err⟩)
      cb := upd u.cb s.dock.nc ⟨i, x, ⟨res, err⟩, .deleting⟩ } } := by
    simp [Whole.State.step, ud, hc, Whole.tiedD, Dock.State.step, ucb, ucl, uch]
  have e4 : Whole.State.step cs T { s with dock := { u with
      chan := upd u.chan i (some ⟨res, err⟩)
      cb := upd u.cb s.dock.nc ⟨i, x, ⟨res, err⟩, .deleting⟩ } } (.dock (.receive i)) = some { s with dock := { u with
      chan := upd (upd u.chan i (some ⟨res, err⟩)) i none
      phase := upd u.phase i (.received ⟨res, err⟩)
      cb := upd u.cb s.dock.nc ⟨i, x, ⟨res, err⟩, .deleting⟩ } } := by
    simp [Whole.State.step, ud, hc, Whole.tiedD, Dock.State.step, uph, upd_same]
  have e5 : Whole.State.step cs T { s with dock := { u with
      chan := upd (upd u.chan i (some ⟨res, err⟩)) i none
      phase := upd u.phase i (.received ⟨res, err⟩)
      cb := upd u.cb s.dock.nc ⟨i, x, ⟨res, err⟩, .deleting⟩ } } (.returns i) = some { s with
      dock := { u with
        chan := upd (upd u.chan i (some ⟨res, err⟩)) i none
        chanClosed := upd u.chanClosed i true
        phase := upd (upd u.phase i (.received ⟨res, err⟩)) i (.returned ⟨res, err⟩)
        cb := upd u.cb s.dock.nc ⟨i, x, ⟨res, err⟩, .deleting⟩ }
      blocked := fun p => if s.blocked p = some i then none else s.blocked p } := by
    simp [Whole.State.step, ud, hc, Dock.State.step, upd_same]
  have e6 : Whole.State.step cs T { s with
      dock := { u with
        chan := upd (upd u.chan i (some ⟨res, err⟩)) i none
        chanClosed := upd u.chanClosed i true
        phase := upd (upd u.phase i (.received ⟨res, err⟩)) i (.returned ⟨res, err⟩)
        cb := upd u.cb s.dock.nc ⟨i, x, ⟨res, err⟩, .deleting⟩ }
      blocked := fun p => if s.blocked p = some i then none else s.blocked p } (.dock (.delete s.dock.nc)) = some { s with
      dock := { u with
        chan := upd (upd u.chan i (some ⟨res, err⟩)) i none
        chanClosed := upd u.chanClosed i true
        phase := upd (upd u.phase i (.received ⟨res, err⟩)) i (.returned ⟨res, err⟩)
        rpcs := upd u.rpcs x none
        cb := upd (upd u.cb s.dock.nc ⟨i, x, ⟨res, err⟩, .deleting⟩) s.dock.nc ⟨i, x, ⟨res, err⟩, .over⟩ }
      blocked := fun p => if s.blocked p = some i then none else s.blocked p } := by
    simp [Whole.State.step, ud, hc, Whole.tiedD, Dock.State.step, upd_same]
  refine ⟨u, _, _, _, _, e1, by rw [← hu], e3, e4, e5, e6, ⟨rfl, rfl, rfl, rfl⟩, ⟨rfl, rfl, rfl, rfl⟩, ud, ?_⟩
  rw [← hu]
  refine ⟨rfl, rfl, rfl, rfl, rfl, ?_, rfl, rfl⟩
  exact Dock.upd_upd ..

/-- A dock answers a request, and the call returns. -/
theorem reply_op {S : World.State} (hS : Reach C T H R black S) (hD : Distinct S) {d i d' k : Nat} (P : Pends S d i d' k)
    {r : Ret} (hr : ((S.sys.dock d').exec k).phase = .returned r) (hf : CanSend S d' k r) :
    ∃ S' r', Advances C T H R black S S' ∧ (S'.sys.dock d).phase i = .returned r' ∧ (∀ x, (S'.rest x).chan = (S.rest x).chan) ∧
      (∀ x p, (S'.rest x).blocked p = if x = d ∧ (S.rest x).blocked p = some i then none else (S.rest x).blocked p) := by
  obtain ⟨hne, hown, hpeer, hreg, hch, hcl⟩ := P.facts hS hD
  have hdd : (S.sys.dock d).dead = false := P.alive.2.1
  have hdd' : (S.sys.dock d').dead = false := P.alive'.2.1
  have hcd : (S.rest d).chan.dead = false := P.alive.2.2
  have hcd' : (S.rest d').chan.dead = false := P.alive'.2.2
  obtain ⟨f1, f2⟩ := hf
  have hfate := fate_arrives f1 f2
  simp only [Proto.received] at hfate
  -- the response is sent
  have st1 : (S.at d').step (C d') (T d') (.respond k) = some { S.at d' with
      dock := { S.sys.dock d' with
        exec := upd (S.sys.dock d').exec k { (S.sys.dock d').exec k with phase := .over }
        log := (S.sys.dock d').log ++ [.sent ((S.sys.dock d').exec k).peer (.rpcResponse ((S.sys.dock d').exec k).index
          ((S.sys.dock d').exec k).call.slot ((S.sys.dock d').exec k).call.meth
          (if ((S.sys.dock d').exec k).call.withResult then r.result else []) r.err)] }
      answered := (S.rest d').answered ++ [k] } := by
    simp only [Whole.State.step, World.State.at, hdd', hcd', Dock.State.step, hr, Bool.or_self, Bool.false_eq_true, if_false]
    rfl
  generalize hw1 : ({ S.at d' with
      dock := { S.sys.dock d' with
        exec := upd (S.sys.dock d').exec k { (S.sys.dock d').exec k with phase := .over }
        log := (S.sys.dock d').log ++ [.sent ((S.sys.dock d').exec k).peer (.rpcResponse ((S.sys.dock d').exec k).index
          ((S.sys.dock d').exec k).call.slot ((S.sys.dock d').exec k).call.meth
          (if ((S.sys.dock d').exec k).call.withResult then r.result else []) r.err)] }
      answered := (S.rest d').answered ++ [k] } : Whole.State) = w1 at st1
  have c1 : w1.chan = (S.at d').chan := by rw [← hw1]
  have s1 : S.step C T H R black (.dock d' (.respond k)) = some (S.put d' w1) := by
    simp only [World.State.step]
    rw [if_pos ⟨P.alive'.1, rfl⟩, st1]
    rfl
  have S1d : (S.put d' w1).at d = S.at d := World.at_put_other S w1 hne
  have S1dn : (S.put d' w1).sys.down = S.sys.down := by
    have : w1.chan.dead = false := by rw [c1]; exact hcd'
    simp [World.State.put, this]
  have S1q : ∀ y, (S.put d' w1).sys.queue y = if y = other ((S.sys.dock d').exec k).peer then
      [.rpcResponse ((S.sys.dock d').exec k).index ((S.sys.dock d').exec k).call.slot ((S.sys.dock d').exec k).call.meth
        (if ((S.sys.dock d').exec k).call.withResult then r.result else []) r.err] else S.sys.queue y := by
    intro y
    have := queue_setDock (S := S.sys) (d := d') (s := w1.dock) (by rw [← hw1]) y
    show (S.sys.setDock d' w1.dock).queue y = _
    rw [this]
    by_cases hy : y = other ((S.sys.dock d').exec k).peer
    · subst hy
      rw [if_pos rfl, P.queue, other_other, if_pos hown]
      simp [dockSent]
    · rw [if_neg hy]
      have : ((S.sys.dock d').exec k).peer ≠ other y := fun e => hy (by rw [e, other_other])
      simp [dockSent, this]
  generalize hS1 : S.put d' w1 = S1 at *
  have S1o : S1.sys.owner = S.sys.owner := by rw [← hS1]; rfl
  have S1a : S1.at d' = w1 := by rw [← hS1]; exact World.at_put S d' w1
  have S1x : ∀ x, x ≠ d' → S1.at x = S.at x := by rw [← hS1]; exact fun x hx => World.at_put_other S w1 hx
  -- it is received, and the call returns
  obtain ⟨u, w3, w4, w5, w6, t2, ul, t3, t4, t5, t6, ⟨l3, l4, l5, l6⟩, ⟨c3, c4, c5, c6⟩, g1, g2, g3, g4, g5, g6, g7, g8, g9⟩ :=
    reply_whole (cs := C d) (T := T d) (S.at d) (e := other ((S.sys.dock d').exec k).peer) (i := i)
      (x := ((S.sys.dock d').exec k).index) (slot := ((S.sys.dock d').exec k).call.slot)
      (meth := ((S.sys.dock d').exec k).call.meth)
      (res := canonList (if ((S.sys.dock d').exec k).call.withResult then r.result else [])) (err := r.err)
      hdd hcd P.idle hpeer (by rw [← P.index]; exact hreg) P.waiting hch hcl
  have S1dk : S1.sys.dock d = S.sys.dock d := congrArg Whole.State.dock S1d
  obtain ⟨S2, s2, a2, x2, dn2, o2, q2⟩ := deliver_step (C := C) (T := T) (H := H) (R := R) (black := black) (S := S1) (d := d)
    (by rw [S1q, if_pos rfl]) hfate (by rw [S1o]; exact P.owner) (by rw [S1dn]; exact P.alive.1) (u := u)
    (by rw [S1dk]; exact t2) ⟨_, by rw [S1dk]; exact ul, fun _ => rfl⟩
  rw [S1d] at a2
  have quiet : ∀ {w w' : Whole.State}, w'.dock.log = w.dock.log → ∃ l, w'.dock.log = w.dock.log ++ l ∧ ∀ e, dockSent e l = [] :=
    fun h => ⟨[], by rw [h, List.append_nil], fun _ => rfl⟩
  have hcd0 : (S.at d).chan.dead = false := hcd
  obtain ⟨S3, s3, a3, x3, dn3, o3, q3⟩ := solo_step (C := C) (T := T) (H := H) (R := R) (black := black) (S := S2) (d := d)
    (a := .dock (.callback (S.at d).dock.nc)) (w := w3) (by rw [dn2, S1dn]; exact P.alive.1) rfl (by rw [a2]; exact t3)
    (by rw [c3]; exact hcd0) (quiet (by rw [a2]; exact l3))
  obtain ⟨S4, s4, a4, x4, dn4, o4, q4⟩ := solo_step (C := C) (T := T) (H := H) (R := R) (black := black) (S := S3) (d := d)
    (a := .dock (.receive i)) (w := w4) (by rw [dn3, dn2, S1dn]; exact P.alive.1) rfl (by rw [a3]; exact t4)
    (by rw [c4]; exact hcd0) (quiet (by rw [a3, l4, l3]))
  obtain ⟨S5, s5, a5, x5, dn5, o5, q5⟩ := solo_step (C := C) (T := T) (H := H) (R := R) (black := black) (S := S4) (d := d)
    (a := .returns i) (w := w5) (by rw [dn4, dn3, dn2, S1dn]; exact P.alive.1) rfl (by rw [a4]; exact t5)
    (by rw [c5]; exact hcd0) (quiet (by rw [a4, l5, l4]))
  obtain ⟨S6, s6, a6, x6, dn6, o6, q6⟩ := solo_step (C := C) (T := T) (H := H) (R := R) (black := black) (S := S5) (d := d)
    (a := .dock (.delete (S.at d).dock.nc)) (w := w6) (by rw [dn5, dn4, dn3, dn2, S1dn]; exact P.alive.1) rfl (by rw [a5]; exact t6)
    (by rw [c6]; exact hcd0) (quiet (by rw [a5, l6, l5]))
  have X : ∀ x, x ≠ d → S6.at x = S1.at x := fun x hx => by rw [x6 x hx, x5 x hx, x4 x hx, x3 x hx, x2 x hx]
  have Ad' : S6.at d' = w1 := by rw [X d' hne.symm, S1a]
  have Ax : ∀ x, x ≠ d → x ≠ d' → S6.at x = S.at x := fun x h1 h2 => by rw [X x h1, S1x x h2]
  have phi : (S6.sys.dock d).phase i = .returned
      ⟨canonList (if ((S.sys.dock d').exec k).call.withResult then r.result else []), r.err⟩ := by
    show (S6.at d).dock.phase i = _
    rw [a6, g7, upd_same]
  have fr := hS.fresh d
  have fr' := hS.fresh d'
  have hx1 : ∀ j, (w1.dock.exec j).peer = ((S.at d').dock.exec j).peer ∧ (w1.dock.exec j).index = ((S.at d').dock.exec j).index ∧
      (w1.dock.exec j).call = ((S.at d').dock.exec j).call := by
    intro j
    rw [← hw1]
    by_cases e : j = k
    · subst e; simp only [upd_same]; exact ⟨rfl, rfl, rfl⟩
    · simp only [upd_other _ _ e]; exact ⟨rfl, rfl, rfl⟩
  have part1 : Part (C d') (T d') (S.at d') w1 := by
    refine ⟨by rw [← hw1]; rfl, by rw [c1], by rw [← hw1]; rfl, by rw [← hw1]; rfl, by rw [← hw1]; rfl, by rw [← hw1]; rfl, hx1, ?_,
      Nat.le_of_eq (by rw [c1]), ?_, ?_, ?_, ?_, ?_, ?_, ?_, ?_, ?_⟩
    · intro j; rw [← hw1]; exact Or.inl rfl
    · intro q _; rw [c1]
    · intro p q h; rw [c1] at h; exact h
    · intro p j h; rw [← hw1] at h; exact h
    · intro p j h; rw [← hw1]; exact Or.inl h
    · intro j q h; rw [← hw1]; exact h
    · intro j q h; rw [← hw1] at h; exact Or.inl h
    · intro q hq; rw [c1] at hq ⊢; exact fr' q hq
    · intro p q _ _ _ h; rw [c1]; exact h
    · rintro ⟨g1, g2⟩
      refine ⟨by rw [c1]; exact g1, ?_⟩
      intro j x hj hx'
      rw [(hx1 j).2.2] at hx' ⊢
      rw [← hw1] at hj
      exact g2 j x hj hx'
  have part6 : Part (C d) (T d) (S.at d) w6 := by
    refine ⟨g1.trans P.alive.2.1.symm, by rw [c6], g2, g3, g4, g5, fun j => by rw [g6]; exact ⟨rfl, rfl, rfl⟩, ?_,
      Nat.le_of_eq (by rw [c6]), ?_, ?_, ?_, ?_, ?_, ?_, ?_, ?_, ?_⟩
    · intro j
      rw [g7]
      by_cases e : j = i
      · subst e; rw [upd_same]; exact Or.inr ⟨_, rfl⟩
      · rw [upd_other _ _ e]; exact Or.inl rfl
    · intro q _; rw [c6]
    · intro p q h; rw [c6] at h; exact h
    · intro p j h
      rw [g9] at h
      simp only at h
      split at h
      · cases h
      · exact h
    · intro p j h
      rw [g9, g7]
      by_cases e : j = i
      · subst e; rw [upd_same]; exact Or.inr ⟨_, rfl⟩
      · left
        simp only
        rw [if_neg (by rw [h]; intro e'; cases e'; exact e rfl)]
        exact h
    · intro j q h; rw [g8]; exact h
    · intro j q h; rw [g8] at h; exact Or.inl h
    · intro q hq; rw [c6] at hq ⊢; exact fr q hq
    · intro p q _ _ _ h; rw [c6]; exact h
    · rintro ⟨y1, y2⟩
      refine ⟨by rw [c6]; exact y1, ?_⟩
      intro j x hj hx'
      rw [g6] at hx' ⊢
      rw [g5] at hj
      exact y2 j x hj hx'
  have fr6 : Frame C T S S6 := by
    refine ⟨by rw [dn6, dn5, dn4, dn3, dn2, S1dn], by rw [o6, o5, o4, o3, o2, S1o], ?_, ?_, ?_⟩
    · rw [q6, q5, q4, q3, q2]
      funext y
      by_cases e : y = other ((S.sys.dock d').exec k).peer
      · subst e; rw [upd_same, P.queue]
      · rw [upd_other _ _ e, S1q, if_neg e]
    · intro x
      by_cases e : x = d
      · subst e; rw [a6]; exact part6
      · by_cases e' : x = d'
        · subst e'; rw [Ad']; exact part1
        · rw [Ax x e e']; exact Part.refl (hS.fresh x)
    · intro y j h1 h2 z n h3 h4 h5
      have h2' : ((S6.at y).dock.exec j).phase = .over := h2
      by_cases e : y = d
      · subst e
        rw [a6, g6] at h2'
        exact absurd h2' h1
      · by_cases e' : y = d'
        · subst e'
          rw [Ad', ← hw1] at h2'
          by_cases ej : j = k
          · subst ej
            rw [P.owner] at h3
            cases h3
            have : n = i := hD d n i h4 P.lt (h5.trans P.index.symm)
            subst this
            exact ⟨_, phi⟩
          · simp only [upd_other _ _ ej] at h2'
            exact absurd h2' h1
        · rw [Ax y e e'] at h2'
          exact absurd h2' h1
  refine ⟨S6, _, ⟨[.dock d' (.respond k), .sys (.deliver (other ((S.sys.dock d').exec k).peer)),
    .dock d (.dock (.callback (S.at d).dock.nc)), .dock d (.dock (.receive i)), .dock d (.returns i),
    .dock d (.dock (.delete (S.at d).dock.nc))], ?_, ?_, fr6⟩, phi, ?_, ?_⟩
  · intro a ha
    simp only [List.mem_cons, List.not_mem_nil, or_false] at ha
    rcases ha with rfl | rfl | rfl | rfl | rfl | rfl <;> rfl
  · simp only [run, s1, s2, s3, s4, s5, s6]
  · intro x
    show (S6.at x).chan = (S.at x).chan
    by_cases e : x = d
    · subst e; rw [a6, c6]
    · by_cases e' : x = d'
      · subst e'; rw [Ad', c1]
      · rw [Ax x e e']
  · intro x p
    show (S6.at x).blocked p = if x = d ∧ (S.at x).blocked p = some i then none else (S.at x).blocked p
    by_cases e : x = d
    · subst e
      rw [a6, g9]
      simp
    · rw [if_neg fun h => e h.1]
      by_cases e' : x = d'
      · subst e'; rw [Ad', ← hw1]
      · rw [Ax x e e']

end

end Verif.Props
