import Verif.Props.Chan2
import Verif.Props.Dock1

/-!
# C57, C58, C64: concurrent and failing remote calls
-/

namespace Verif.Props

open Verif Verif.Codec Verif.Proto Verif.Dock

/-! ## C57: Concurrent remote calls never mix -/

/-- Two goroutines call different methods of `c` and read the same clock value 5. -/
def mixActs : List Act := bootActs ++
  [.call ⟨nameC, methM, [], true⟩ 5, .call ⟨nameC, methN, [], true⟩ 5, .store 0, .store 1, .setReq 0, .setReq 1,
   .commit 0, .commit 1, .recv 2 (.rpcResponse 5 nameC methM [.bool 0 true] []), .callback 0, .receive 1, .closeChan 1,
   .delete 0]

/-- The method named in a received response. -/
def methodOf : Ev → Option Str
  | .recv _ (.rpcResponse _ _ meth _ _) => some meth
  | _ => none

/-- C57 (refuted): two calls are in progress, the clock returns the same index for both, the peer answers the first of
them, and the second call returns the answer. -/
theorem C57_mixed_refuted : ∃ cs as s i, run (State.step cs) State.init as = some s ∧ i < s.n ∧
    (∃ r, s.phase i = .returned r) ∧
    ∀ p x slot meth result err, Ev.recv p (.rpcResponse x slot meth result err) ∈ s.log → meth ≠ (s.call i).meth := by
  obtain ⟨s, h, e⟩ := witness (cs := dockDemo) (as := mixActs)
    (f := fun s => (s.n, s.phase 1, s.call 1, s.log.filterMap methodOf))
    (b := (2, .returned ⟨[.bool 0 true], []⟩, ⟨nameC, methN, [], true⟩, [methM])) rfl
  simp only [Prod.mk.injEq] at e
  obtain ⟨h1, h2, h3, h4⟩ := e
  refine ⟨dockDemo, _, s, 1, h, by omega, ⟨_, h2⟩, ?_⟩
  intro p x slot meth result err hm
  have hm' : meth ∈ s.log.filterMap methodOf := List.mem_filterMap.mpr ⟨_, hm, rfl⟩
  rw [h4] at hm'
  simp at hm'
  rw [hm', h3]
  decide

/-- Nothing can reach call `i` any more. -/
def Lost (s : State) (i : Nat) : Prop :=
  i < s.n ∧ (s.phase i).isSet = true ∧ (s.phase i).result = none ∧ s.chan i = none ∧ (∀ x, s.rpcs x ≠ some i) ∧
    ∀ k, (s.cb k).phase = .sending → (s.cb k).rpc ≠ i

theorem lost_step (cs : List Carried) (i : Nat) (s : State) (a : Act) (t : State) (hL : Lost s i)
    (h : s.step cs a = some t) : Lost t i := by
  obtain ⟨h1, h2, h3, h4, h5, h6⟩ := hL
  have kp : ∀ (j : Nat) (ph : CallPhase), (j = i → ph.isSet = true ∧ ph.result = none) →
      (upd s.phase j ph i).isSet = true ∧ (upd s.phase j ph i).result = none := by
    intro j ph hj
    by_cases e : i = j
    · subst e; rw [upd_same]; exact hj rfl
    · rw [upd_other _ _ e]; exact ⟨h2, h3⟩
  unfold State.step at h
  split at h
  · cases h
  cases a with
  | call c clock =>
    simp only at h
    split at h
    · cases h; exact ⟨h1, h2, h3, h4, h5, h6⟩
    · cases h
      obtain ⟨k1, k2⟩ := kp s.n .created (by omega)
      exact ⟨by simp only; omega, k1, k2, h4, h5, h6⟩
  | store j =>
    simp only at h
    repeat' split at h
    all_goals cases h
    rename_i hlt _ hph
    have hne : j ≠ i := by rintro rfl; rw [hph] at h2; cases h2
    obtain ⟨k1, k2⟩ := kp j .stored (fun e => absurd e hne)
    refine ⟨h1, k1, k2, h4, ?_, h6⟩
    intro x hx
    simp only at hx
    by_cases e : x = s.index j
    · subst e; rw [upd_same] at hx; cases hx; exact hne rfl
    · rw [upd_other _ _ e] at hx; exact h5 x hx
  | setReq j =>
    simp only at h
    split at h
    · cases h
      obtain ⟨k1, k2⟩ := kp j .set (fun _ => ⟨rfl, rfl⟩)
      exact ⟨h1, k1, k2, h4, h5, h6⟩
    · cases h
  | commit j =>
    simp only at h
    split at h
    · cases h
      have hs := doCommit_same s j
      obtain ⟨k1, k2⟩ := kp j .waiting (fun _ => ⟨rfl, rfl⟩)
      refine ⟨?_, k1, k2, ?_, ?_, ?_⟩
      · show i < (s.doCommit j).n; rw [hs.1]; exact h1
      · show (s.doCommit j).chan i = none; rw [hs.2.2.2.2.1]; exact h4
      · show ∀ x, (s.doCommit j).rpcs x ≠ some i; rw [hs.2.2.2.2.2.2.1]; exact h5
      · show ∀ k, ((s.doCommit j).cb k).phase = .sending → ((s.doCommit j).cb k).rpc ≠ i
        rw [hs.2.2.2.2.2.2.2.2.2.2.2.2.1]; exact h6
    · cases h
  | receive j =>
    simp only at h
    split at h
    · cases h
      rename_i r hph hch
      have hne : j ≠ i := by rintro rfl; rw [hch] at h4; cases h4
      obtain ⟨k1, k2⟩ := kp j (.received r) (fun e => absurd e hne)
      exact ⟨h1, k1, k2, by simp only; rw [upd_other _ _ (Ne.symm hne)]; exact h4, h5, h6⟩
    · cases h
  | closeChan j =>
    simp only at h
    split at h
    · cases h
      rename_i r hph
      have hne : j ≠ i := by rintro rfl; rw [hph] at h3; cases h3
      obtain ⟨k1, k2⟩ := kp j (.returned r) (fun e => absurd e hne)
      exact ⟨h1, k1, k2, h4, h5, h6⟩
    · cases h
  | recv p pkt =>
    simp only [State.onPacket] at h
    repeat' split at h
    all_goals cases h
    all_goals try exact ⟨h1, h2, h3, h4, h5, h6⟩
    rename_i j hj
    refine ⟨h1, h2, h3, h4, h5, ?_⟩
    intro k hk
    simp only at hk ⊢
    by_cases e : k = s.nc
    · subst e; rw [upd_same]; rintro rfl; exact h5 _ hj
    · rw [upd_other _ _ e] at hk ⊢; exact h6 k hk
  | work p order =>
    simp only [State.work] at h
    repeat' split at h
    all_goals cases h
    all_goals try exact ⟨h1, h2, h3, h4, h5, h6⟩
    rename_i j _
    have hs := doCommit_same s j
    refine ⟨?_, ?_, ?_, ?_, ?_, ?_⟩
    · show i < (s.doCommit j).n; rw [hs.1]; exact h1
    · show ((s.doCommit j).phase i).isSet = true; rw [hs.2.2.2.1]; exact h2
    · show ((s.doCommit j).phase i).result = none; rw [hs.2.2.2.1]; exact h3
    · show (s.doCommit j).chan i = none; rw [hs.2.2.2.2.1]; exact h4
    · show ∀ x, (s.doCommit j).rpcs x ≠ some i; rw [hs.2.2.2.2.2.2.1]; exact h5
    · show ∀ k, ((s.doCommit j).cb k).phase = .sending → ((s.doCommit j).cb k).rpc ≠ i
      rw [hs.2.2.2.2.2.2.2.2.2.2.2.2.1]; exact h6
  | callback k =>
    simp only at h
    repeat' split at h
    all_goals cases h
    · exact ⟨h1, h2, h3, h4, h5, h6⟩
    · rename_i hph _ _ _
      have hne := h6 k hph
      refine ⟨h1, h2, h3, by simp only; rw [upd_other _ _ (Ne.symm hne)]; exact h4, h5, ?_⟩
      intro j hj
      simp only at hj ⊢
      by_cases e : j = k
      · subst e; rw [upd_same] at hj; cases hj
      · rw [upd_other _ _ e] at hj ⊢; exact h6 j hj
  | delete k =>
    simp only at h
    split at h
    · cases h
      refine ⟨h1, h2, h3, h4, ?_, ?_⟩
      · intro x hx
        simp only at hx
        by_cases e : x = (s.cb k).index
        · subst e; rw [upd_same] at hx; cases hx
        · rw [upd_other _ _ e] at hx; exact h5 x hx
      · intro j hj
        simp only at hj ⊢
        by_cases e : j = k
        · subst e; rw [upd_same] at hj; cases hj
        · rw [upd_other _ _ e] at hj ⊢; exact h6 j hj
    · cases h
  | _ =>
    simp only [State.connected] at h
    repeat' split at h
    all_goals cases h
    all_goals exact ⟨h1, h2, h3, h4, h5, h6⟩

/-- A request packet and the peer it was sent to. -/
def requestTo : Ev → Option (Nat × Proto)
  | .sent p (.rpcRequest a b c d e) => some (p, .rpcRequest a b c d e)
  | _ => none

theorem requestTo_mem {log : List Ev} {p : Nat} {pkt : Proto} (h : (p, pkt) ∈ log.filterMap requestTo) :
    Ev.sent p pkt ∈ log := by
  obtain ⟨e, he, h⟩ := List.mem_filterMap.mp h
  unfold requestTo at h
  split at h
  · cases h; exact he
  · cases h

/-- C57 (refuted), continued: the other of the two calls never returns, whatever happens afterwards and although its
request has been sent. -/
theorem C57_lost_refuted : ∃ cs as s i, run (State.step cs) State.init as = some s ∧ i < s.n ∧
    (∃ p, Ev.sent p (.rpcRequest (s.index i) (s.call i).slot (s.call i).meth (s.call i).args (s.call i).withResult)
      ∈ s.log) ∧
    ∀ bs t, run (State.step cs) s bs = some t → ∀ r, t.phase i ≠ .returned r := by
  obtain ⟨s, h, e⟩ := witness (cs := dockDemo) (as := mixActs)
    (f := fun s => (s.n, s.phase 0, s.chan 0, s.rpcs 5, s.nc, (s.cb 0).phase, s.index 0, s.call 0,
      s.log.filterMap requestTo))
    (b := (2, .waiting, none, none, 1, .over, 5, ⟨nameC, methM, [], true⟩,
      [(2, .rpcRequest 5 nameC methM [] true), (2, .rpcRequest 5 nameC methN [] true)])) rfl
  simp only [Prod.mk.injEq] at e
  obtain ⟨h1, h2, h3, h4, h5, h6, h7, h8, h9⟩ := e
  have hR := (rpcInv_run dockDemo _ s h).1
  refine ⟨dockDemo, _, s, 0, h, by omega, ⟨2, ?_⟩, ?_⟩
  · rw [h7, h8]
    refine requestTo_mem ?_
    rw [h9]; simp
  · intro bs t ht r hr
    have hL : Lost t 0 := by
      refine run_inv (I := fun s => Lost s 0) (lost_step dockDemo 0) bs s t ?_ ht
      refine ⟨by omega, by rw [h2]; rfl, by rw [h2]; rfl, h3, ?_, ?_⟩
      · intro x hx
        have := (hR.rpcs x 0 hx).2
        rw [h7] at this
        rw [← this, h4] at hx
        cases hx
      · intro k hk
        by_cases e : k = 0
        · subst e; rw [h6] at hk; cases hk
        · rw [hR.cbFresh k (by omega)] at hk; cases hk
    have := hL.2.2.1
    rw [hr] at this
    cases this

/-! ## C58: Committing a pending call is race free -/

/-- C58 (refuted): a goroutine has set the request of its call and is about to commit it; the handler of a ready packet
finds the call and commits it first, which sets `rpc.req` to nil; then the goroutine dereferences nil. -/
theorem C58_nil_refuted : ∃ cs as s i, run (State.step cs) State.init as = some s ∧ s.dead = false ∧
    s.phase i = .set ∧ ∃ t, s.step cs (.commit i) = some t ∧ t.dead = true := by
  obtain ⟨s, h, e⟩ := witness (cs := dockDemo) (as := bootActs ++ [.call ⟨nameC, methM, [], true⟩ 5, .store 0, .setReq 0,
      .recv 2 (.ready [nameC]), .work 2 [], .visit 2 0, .work 2 [], .work 2 []])
    (f := fun s => (s.dead, s.phase 0, (s.step dockDemo (.commit 0)).map State.dead))
    (b := (false, .set, some true)) rfl
  simp only [Prod.mk.injEq] at e
  exact ⟨dockDemo, _, s, 0, h, e.1, e.2.1, Option.map_eq_some_iff.mp e.2.2⟩

/-- C58 (refuted): the handlers of the ready packets of two peers both see the request of a call; the second one
dereferences nil. -/
theorem C58_handlers_refuted : ∃ cs as s p, run (State.step cs) State.init as = some s ∧ s.dead = false ∧
    (∃ slot rest start visited i, s.handler p = .commit slot rest start visited i) ∧
    ∃ t, s.step cs (.work p []) = some t ∧ t.dead = true := by
  obtain ⟨s, h, e⟩ := witness (cs := dockDemo) (as := bootActs ++ [.accept 3 20001, .call ⟨[100], methM, [], true⟩ 6,
      .store 0, .setReq 0, .commit 0, .recv 2 (.registerRequest [[100]]), .work 2 [nameA], .work 2 [], .work 2 [],
      .recv 2 (.ready [[100]]), .recv 3 (.ready [[100]]), .work 2 [], .work 3 [], .visit 2 0, .visit 3 0, .work 2 [],
      .work 3 [], .work 2 []])
    (f := fun s => (s.dead, s.handler 3, (s.step dockDemo (.work 3 [])).map State.dead))
    (b := (false, .commit [100] [] [0] [0] 0, some true)) rfl
  simp only [Prod.mk.injEq] at e
  exact ⟨dockDemo, _, s, 3, h, e.1, ⟨_, _, _, _, _, e.2.1⟩, Option.map_eq_some_iff.mp e.2.2⟩

/-- C58 (refuted): the register response of the hub is handled before `run` has stored the socket of the hub, so that
`d.sockets[0]` is the listening socket: the query of a call is sent to nobody. -/
theorem C58_socket_refuted : ∃ cs as s i, run (State.step cs) State.init as = some s ∧ s.phase i = .waiting ∧
    s.req i = true ∧ Sock.hub ∈ s.sockets ∧ ∀ p slot, Ev.sent p (.queryRequest slot) ∉ s.log := by
  obtain ⟨s, h, e⟩ := witness (cs := dockDemo) (as := [.dialHub 0, .greet 0 [nameA], .recv 0 (.registerResponse 20001),
      .work 0 [], .work 0 [nameA], .storeHub, .call ⟨nameC, methM, [], true⟩ 5, .store 0, .setReq 0, .commit 0])
    (f := fun s => (s.phase 0, s.req 0, s.sockets, s.log.filterMap sentOf))
    (b := (.waiting, true, [.listener 20001, .hub], [(0, .registerRequest [nameA]), (0, .ready [nameA])])) rfl
  simp only [Prod.mk.injEq] at e
  obtain ⟨h1, h2, h3, h4⟩ := e
  refine ⟨dockDemo, _, s, 0, h, h1, h2, by rw [h3]; simp, ?_⟩
  intro p slot hm
  have hm' : (p, Proto.queryRequest slot) ∈ s.log.filterMap sentOf := List.mem_filterMap.mpr ⟨_, hm, rfl⟩
  rw [h4] at hm'
  simp at hm'

/-- A goroutine or handler is going to commit call `i`. -/
def Committing (s : State) (i : Nat) : Prop :=
  s.phase i = .set ∨ ∃ p slot rest start visited,
    s.handler p = .tested slot rest start visited i ∨ s.handler p = .commit slot rest start visited i

/-- No handler of a ready packet starts to examine a call that another goroutine is about to commit. -/
def exclusive (s : State) (a : Act) : Prop := ∀ p i, a = .visit p i → ¬ Committing s i

/-- Who is going to commit: nobody twice. -/
structure ExclInv (s : State) : Prop where
  caller : ∀ i, s.phase i = .set → s.req i = true
  handler : ∀ p slot rest start visited i,
    (s.handler p = .tested slot rest start visited i ∨ s.handler p = .commit slot rest start visited i) →
    s.req i = true ∧ s.phase i ≠ .set
  unique : ∀ p slot rest start visited i q slot' rest' start' visited',
    (s.handler p = .tested slot rest start visited i ∨ s.handler p = .commit slot rest start visited i) →
    (s.handler q = .tested slot' rest' start' visited' i ∨ s.handler q = .commit slot' rest' start' visited' i) → p = q

theorem doCommit_req (s : State) (i j : Nat) (h : j ≠ i) : (s.doCommit i).req j = s.req j := by
  unfold State.doCommit
  repeat' split
  · exact upd_other _ _ h
  all_goals rfl

/-- Actions that leave calls and handlers alone. -/
theorem exclInv_same {s t : State} (hE : ExclInv s) (hp : t.phase = s.phase) (hq : t.req = s.req)
    (hh : t.handler = s.handler) : ExclInv t := by
  constructor
  · rw [hp, hq]; exact hE.caller
  · rw [hp, hq, hh]; exact hE.handler
  · rw [hh]; exact hE.unique

/-- A handler turns to something that is not about a call. -/
theorem exclInv_handler {s t : State} {p : Nat} {hd : Handler} (hE : ExclInv s) (hp : t.phase = s.phase)
    (hq : t.req = s.req) (hh : t.handler = upd s.handler p hd)
    (hd1 : ∀ slot rest start visited i, hd ≠ .tested slot rest start visited i)
    (hd2 : ∀ slot rest start visited i, hd ≠ .commit slot rest start visited i) : ExclInv t := by
  have key : ∀ q slot rest start visited i, (t.handler q = .tested slot rest start visited i ∨
      t.handler q = .commit slot rest start visited i) → (s.handler q = .tested slot rest start visited i ∨
      s.handler q = .commit slot rest start visited i) := by
    intro q slot rest start visited i h
    rw [hh] at h
    by_cases e : q = p
    · subst e; rw [upd_same] at h
      rcases h with h | h
      · exact absurd h (hd1 _ _ _ _ _)
      · exact absurd h (hd2 _ _ _ _ _)
    · rw [upd_other _ _ e] at h; exact h
  constructor
  · rw [hp, hq]; exact hE.caller
  · intro q slot rest start visited i h
    rw [hp, hq]
    exact hE.handler q slot rest start visited i (key _ _ _ _ _ _ h)
  · intro q slot rest start visited i q' slot' rest' start' visited' h h'
    exact hE.unique q slot rest start visited i q' slot' rest' start' visited' (key _ _ _ _ _ _ h) (key _ _ _ _ _ _ h')

/-- A change of the phase of a call nobody is going to commit. -/
theorem exclInv_phase {s t : State} {i : Nat} {ph : CallPhase} (hE : ExclInv s) (hp : t.phase = upd s.phase i ph)
    (hph : ph ≠ .set) (hq : t.req = s.req) (hh : t.handler = s.handler) : ExclInv t := by
  constructor
  · rw [hp, hq]; intro j hj
    by_cases e : j = i
    · subst e; rw [upd_same] at hj; exact absurd hj hph
    · rw [upd_other _ _ e] at hj; exact hE.caller j hj
  · rw [hp, hq, hh]; intro p slot rest start visited j h
    obtain ⟨h1, h2⟩ := hE.handler p slot rest start visited j h
    refine ⟨h1, ?_⟩
    by_cases e : j = i
    · subst e; rw [upd_same]; exact hph
    · rw [upd_other _ _ e]; exact h2
  · rw [hh]; exact hE.unique

set_option maxHeartbeats 1000000 in
theorem exclInv_step (cs : List Carried) (s : State) (a : Act) (t : State) (ha : exclusive s a) (hR : RpcInv s)
    (hH : HandInv s) (hE : ExclInv s) (h : s.step cs a = some t) : ExclInv t := by
  unfold State.step at h
  split at h
  · cases h
  cases a with
  | call c clock =>
    simp only at h
    split at h
    · cases h; exact exclInv_same hE rfl rfl rfl
    · cases h; exact exclInv_phase hE rfl (by simp) rfl rfl
  | store i =>
    simp only at h
    repeat' split at h
    all_goals cases h
    exact exclInv_phase hE rfl (by simp) rfl rfl
  | setReq i =>
    simp only at h
    split at h
    · rename_i hph
      cases h
      have hni : ∀ p slot rest start visited, ¬ (s.handler p = .tested slot rest start visited i ∨
          s.handler p = .commit slot rest start visited i) := by
        intro p slot rest start visited h
        have := (hE.handler p slot rest start visited i h).1
        rw [hR.unset i (by rw [hph]; rfl)] at this
        cases this
      constructor <;> try simp only
      · intro j hj
        by_cases e : j = i
        · subst e; simp
        · rw [upd_other _ _ e] at hj ⊢; exact hE.caller j hj
      · intro p slot rest start visited j h
        have e : j ≠ i := by rintro rfl; exact hni _ _ _ _ _ h
        rw [upd_other _ _ e, upd_other _ _ e]
        exact hE.handler p slot rest start visited j h
      · exact hE.unique
    · cases h
  | commit i =>
    simp only at h
    split at h
    · rename_i hph
      cases h
      have hs := doCommit_same s i
      have hni : ∀ p slot rest start visited, ¬ (s.handler p = .tested slot rest start visited i ∨
          s.handler p = .commit slot rest start visited i) := by
        intro p slot rest start visited h
        exact (hE.handler p slot rest start visited i h).2 hph
      have hh : (s.doCommit i).handler = s.handler := hs.2.2.2.2.2.2.2.2.2.2.1
      constructor <;> try simp only [hh]
      · intro j hj
        by_cases e : j = i
        · subst e; rw [upd_same] at hj; cases hj
        · rw [upd_other _ _ e] at hj; rw [doCommit_req _ _ _ e]; exact hE.caller j hj
      · intro p slot rest start visited j h
        have e : j ≠ i := by rintro rfl; exact hni _ _ _ _ _ h
        rw [upd_other _ _ e, doCommit_req _ _ _ e]
        exact hE.handler p slot rest start visited j h
      · exact hE.unique
    · cases h
  | receive i =>
    simp only at h
    split at h
    · cases h; exact exclInv_phase hE rfl (by simp) rfl rfl
    · cases h
  | closeChan i =>
    simp only at h
    split at h
    · cases h; exact exclInv_phase hE rfl (by simp) rfl rfl
    · cases h
  | recv p pkt =>
    simp only [State.onPacket] at h
    repeat' split at h
    all_goals cases h
    all_goals first
      | exact exclInv_same hE rfl rfl rfl
      | exact exclInv_handler hE rfl rfl rfl (by simp) (by simp)
  | dialOK p e =>
    simp only at h
    repeat' split at h
    all_goals cases h
    exact exclInv_handler hE rfl rfl rfl (by simp) (by simp)
  | visit p i =>
    simp only at h
    repeat' split at h
    all_goals cases h
    · rename_i hreq
      have hno := ha p i rfl
      have hni : ∀ q slot rest start visited, ¬ (s.handler q = .tested slot rest start visited i ∨
          s.handler q = .commit slot rest start visited i) :=
        fun q slot rest start visited h => hno (Or.inr ⟨q, slot, rest, start, visited, h⟩)
      have hns : s.phase i ≠ .set := fun h => hno (Or.inl h)
      constructor <;> try simp only
      · exact hE.caller
      · intro q slot rest start visited j h
        by_cases e : q = p
        · subst e; rw [upd_same] at h; simp at h
          obtain ⟨-, -, -, -, rfl⟩ := h
          exact ⟨hreq, hns⟩
        · rw [upd_other _ _ e] at h; exact hE.handler q slot rest start visited j h
      · intro q slot rest start visited j q' slot' rest' start' visited' h h'
        by_cases e : q = p
        · by_cases e' : q' = p
          · rw [e, e']
          · subst e; rw [upd_same] at h; rw [upd_other _ _ e'] at h'; simp at h
            obtain ⟨-, -, -, -, rfl⟩ := h
            exact absurd h' (hni _ _ _ _ _)
        · by_cases e' : q' = p
          · subst e'; rw [upd_same] at h'; rw [upd_other _ _ e] at h; simp at h'
            obtain ⟨-, -, -, -, rfl⟩ := h'
            exact absurd h (hni _ _ _ _ _)
          · rw [upd_other _ _ e] at h; rw [upd_other _ _ e'] at h'
            exact hE.unique q slot rest start visited j q' slot' rest' start' visited' h h'
    · exact exclInv_handler hE rfl rfl rfl (by simp) (by simp)
  | work p order =>
    simp only [State.work] at h
    repeat' split at h
    all_goals cases h
    all_goals try exact exclInv_same hE rfl rfl rfl
    all_goals try (refine exclInv_handler hE rfl rfl rfl ?_ ?_ <;> intros <;> exact Handler.noConfusion)
    · rename_i slot rest start visited i hp hreq hslot
      constructor <;> try simp only
      · exact hE.caller
      · intro q slot' rest' start' visited' j h
        by_cases e : q = p
        · subst e; rw [upd_same] at h; simp at h
          obtain ⟨-, -, -, -, rfl⟩ := h
          exact hE.handler q slot rest start visited i (Or.inl hp)
        · rw [upd_other _ _ e] at h; exact hE.handler q slot' rest' start' visited' j h
      · intro q slot1 rest1 start1 visited1 j q' slot' rest' start' visited' h h'
        by_cases e : q = p
        · by_cases e' : q' = p
          · rw [e, e']
          · subst e; rw [upd_same] at h; rw [upd_other _ _ e'] at h'; simp at h
            obtain ⟨-, -, -, -, rfl⟩ := h
            exact hE.unique q _ _ _ _ _ q' _ _ _ _ (Or.inl hp) h'
        · by_cases e' : q' = p
          · subst e'; rw [upd_same] at h'; rw [upd_other _ _ e] at h; simp at h'
            obtain ⟨-, -, -, -, rfl⟩ := h'
            exact hE.unique q _ _ _ _ _ q' _ _ _ _ h (Or.inl hp)
          · rw [upd_other _ _ e] at h; rw [upd_other _ _ e'] at h'
            exact hE.unique _ _ _ _ _ _ _ _ _ _ _ h h'
    · rename_i slot rest start visited i hp
      have hs := doCommit_same s i
      have hc := hE.handler p slot rest start visited i (Or.inr hp)
      have hni : ∀ q slot' rest' start' visited', q ≠ p → ¬ (s.handler q = .tested slot' rest' start' visited' i ∨
          s.handler q = .commit slot' rest' start' visited' i) :=
        fun q _ _ _ _ hq h => hq (hE.unique q _ _ _ _ i p _ _ _ _ h (Or.inr hp))
      constructor <;> try simp only [hs.2.2.2.1]
      · intro j hj
        have e : j ≠ i := by rintro rfl; exact hc.2 hj
        rw [doCommit_req _ _ _ e]; exact hE.caller j hj
      · intro q slot' rest' start' visited' j h
        by_cases eq : q = p
        · subst eq; rw [upd_same] at h; simp at h
        · rw [upd_other _ _ eq] at h
          have e : j ≠ i := by rintro rfl; exact hni _ _ _ _ _ eq h
          rw [doCommit_req _ _ _ e]
          exact hE.handler q slot' rest' start' visited' j h
      · intro q slot1 rest1 start1 visited1 j q' slot' rest' start' visited' h h'
        by_cases e : q = p
        · subst e; rw [upd_same] at h; simp at h
        · by_cases e' : q' = p
          · subst e'; rw [upd_same] at h'; simp at h'
          · rw [upd_other _ _ e] at h; rw [upd_other _ _ e'] at h'
            exact hE.unique _ _ _ _ _ _ _ _ _ _ _ h h'
  | _ =>
    simp only [State.connected] at h
    repeat' split at h
    all_goals cases h
    all_goals exact exclInv_same hE rfl rfl rfl

/-- C58 (partial): if no ready handler starts to look at a call that another goroutine is about to commit, no goroutine
ever finds the request it is going to commit to be nil. Missing: nothing in the code ensures the assumption. -/
theorem C58_exclusive_partial (cs : List Carried) (as : List Act) (s : State)
    (h : run (State.step cs) State.init as = some s) (hx : AllSteps (State.step cs) State.init as exclusive) (i : Nat)
    (hc : Committing s i) : s.req i = true := by
  have hE : (RpcInv s ∧ HandInv s) ∧ ExclInv s := by
    refine run_inv_steps (I := fun s => (RpcInv s ∧ HandInv s) ∧ ExclInv s) ?_ as State.init s hx ?_ h
    · intro s a t ha hI h
      exact ⟨⟨rpcInv_step cs s a t hI.1.2 hI.1.1 h, handInv_step cs s a t hI.1.1 hI.1.2 h⟩,
        exclInv_step cs s a t ha hI.1.1 hI.1.2 hI.2 h⟩
    · refine ⟨⟨RpcInv.init, fun p => by simp [State.init]⟩, ?_⟩
      constructor <;> simp [State.init]
  rcases hc with hc | ⟨p, slot, rest, start, visited, hc⟩
  · exact hE.2.caller i hc
  · exact (hE.2.handler p slot rest start visited i hc).1

/-- An execution in which the handler of a ready packet examines a call that is not being committed. -/
def soloActs : List Act :=
  [.dialHub 0, .storeHub, .call ⟨nameC, methM, [], true⟩ 5, .store 0, .setReq 0, .commit 0, .recv 0 (.ready [nameC]),
   .work 0 [], .visit 0 0, .work 0 []]

example : ∃ s, run (State.step dockDemo) State.init soloActs = some s ∧
    AllSteps (State.step dockDemo) State.init soloActs exclusive ∧ Committing s 0 := by
  refine ⟨_, rfl, ?_, Or.inr ⟨0, _, _, _, _, Or.inr rfl⟩⟩
  have skip : ∀ (s : State) (a : Act), (∀ p i, a ≠ .visit p i) → exclusive s a :=
    fun s a h p i e => absurd e (h p i)
  iterate 8 refine allSteps_cons (skip _ _ (by simp)) rfl ?_
  refine allSteps_cons ?_ rfl (allSteps_cons (skip _ _ (by simp)) rfl allSteps_nil)
  intro p i e
  cases e
  rintro (h | ⟨p, slot, rest, start, visited, h⟩)
  · cases h
  · by_cases e : p = 0
    · subst e; rcases h with h | h <;> cases h
    · have h' : upd (upd (fun _ => Handler.idle) 0 (.slots [nameC])) 0 (.scan nameC [] [0] []) p =
          .tested slot rest start visited 0 ∨
          upd (upd (fun _ => Handler.idle) 0 (.slots [nameC])) 0 (.scan nameC [] [0] []) p =
          .commit slot rest start visited 0 := h
      rw [upd_other _ _ e, upd_other _ _ e] at h'
      rcases h' with h | h <;> cases h

/-! ## C64: Every remote call returns -/

theorem recv_step (cs : List Carried) (s : State) (a : Act) (t : State) (h : s.step cs a = some t) (p : Nat)
    (pkt : Proto) (hr : Ev.recv p pkt ∈ t.log) : Ev.recv p pkt ∈ s.log ∨ a = .recv p pkt := by
  have hc : ∀ i, Ev.recv p pkt ∈ (s.doCommit i).log → Ev.recv p pkt ∈ s.log := by
    intro i hr
    unfold State.doCommit at hr
    repeat' split at hr
    all_goals simpa using hr
  unfold State.step at h
  split at h
  · cases h
  cases a with
  | commit i =>
    simp only at h
    split at h
    · cases h; exact Or.inl (hc i hr)
    · cases h
  | work q order =>
    simp only [State.work] at h
    repeat' split at h
    all_goals cases h
    all_goals first
      | exact Or.inl (hc _ hr)
      | (left; simpa using hr)
  | recv q pkt' =>
    simp only [State.onPacket] at h
    repeat' split at h
    all_goals cases h
    all_goals
      simp at hr
      rcases hr with hr | ⟨rfl, rfl⟩
      · exact Or.inl hr
      · exact Or.inr rfl
  | _ =>
    simp only [State.connected] at h
    repeat' split at h
    all_goals cases h
    all_goals (left; simpa using hr)

theorem recv_run (cs : List Carried) (p : Nat) (pkt : Proto) (as : List Act) (s t : State)
    (h : run (State.step cs) s as = some t) (hr : Ev.recv p pkt ∈ t.log) :
    Ev.recv p pkt ∈ s.log ∨ Act.recv p pkt ∈ as := by
  induction as generalizing s with
  | nil => cases h; exact Or.inl hr
  | cons a as ih =>
    simp only [run] at h
    split at h
    · cases h
    · rename_i u hu
      rcases ih u h with h1 | h1
      · rcases recv_step cs s a u hu p pkt h1 with h2 | h2
        · exact Or.inl h2
        · exact Or.inr (by simp [h2])
      · exact Or.inr (List.mem_cons_of_mem _ h1)

/-- Calls and their indices never change. -/
theorem stable_run (cs : List Carried) (as : List Act) (s t : State) (h : run (State.step cs) s as = some t) :
    s.n ≤ t.n ∧ ∀ i, i < s.n → t.index i = s.index i := by
  refine run_inv (I := fun t => s.n ≤ t.n ∧ ∀ i, i < s.n → t.index i = s.index i) ?_ as s t
    ⟨Nat.le_refl _, fun _ _ => rfl⟩ h
  intro u a v hI h
  obtain ⟨h1, h2⟩ := hI
  unfold State.step at h
  split at h
  · cases h
  cases a with
  | call c clock =>
    simp only at h
    split at h
    · cases h; exact ⟨h1, h2⟩
    · cases h
      exact ⟨by simp only; omega, fun i hi => by simp only; rw [upd_other _ _ (by omega)]; exact h2 i hi⟩
  | commit i =>
    simp only at h
    split at h
    · cases h
      simp only [(doCommit_same u i).1, (doCommit_same u i).2.2.1]
      exact ⟨h1, h2⟩
    · cases h
  | work p order =>
    simp only [State.work] at h
    repeat' split at h
    all_goals cases h
    all_goals first
      | exact ⟨h1, h2⟩
      | (simp only [(doCommit_same u _).1, (doCommit_same u _).2.2.1]; exact ⟨h1, h2⟩)
  | recv p pkt =>
    simp only [State.onPacket] at h
    repeat' split at h
    all_goals cases h
    all_goals exact ⟨h1, h2⟩
  | _ =>
    simp only [State.connected] at h
    repeat' split at h
    all_goals cases h
    all_goals exact ⟨h1, h2⟩

/-- There is no timeout: a call to which no response with its index arrives does not return, however long the dock
goes on. -/
theorem C64_no_timeout_refuted (cs : List Carried) (as : List Act) (s : State)
    (h : run (State.step cs) State.init as = some s) (i : Nat)
    (hn : ∀ p slot meth result err, Act.recv p (.rpcResponse (s.index i) slot meth result err) ∉ as) (r : Ret) :
    s.phase i ≠ .returned r := by
  intro hr
  obtain ⟨p, slot, meth, hm⟩ := C56_own_response cs as s h i r (Or.inr hr)
  rcases recv_run cs p _ as State.init s h hm with h1 | h1
  · cases h1
  · exact hn p slot meth r.result r.err h1

/-- C64 (refuted): a call has been sent to a peer; if the request or the response is lost or the peer disappears, so
that no response arrives, the call never returns, whatever else happens. -/
theorem C64_lost_refuted : ∃ cs as s i, run (State.step cs) State.init as = some s ∧
    (∃ p, Ev.sent p (.rpcRequest (s.index i) (s.call i).slot (s.call i).meth (s.call i).args (s.call i).withResult)
      ∈ s.log) ∧ s.phase i = .waiting ∧
    ∀ bs t, run (State.step cs) s bs = some t →
      (∀ p slot meth result err, Act.recv p (.rpcResponse (s.index i) slot meth result err) ∉ bs) →
      ∀ r, t.phase i ≠ .returned r := by
  obtain ⟨s, h, e⟩ := witness (cs := dockDemo) (as := remoteActs)
    (f := fun s => (s.n, s.phase 0, s.index 0, s.call 0, s.log.filterMap requestTo))
    (b := (1, .waiting, 77, ⟨nameC, methM, [], true⟩, [(1, .rpcRequest 77 nameC methM [] true)])) rfl
  simp only [Prod.mk.injEq] at e
  obtain ⟨h1, h2, h3, h4, h5⟩ := e
  refine ⟨dockDemo, _, s, 0, h, ⟨1, ?_⟩, h2, ?_⟩
  · rw [h3, h4]
    refine requestTo_mem ?_
    rw [h5]; simp
  intro bs t ht hn r
  refine C64_no_timeout_refuted dockDemo (remoteActs ++ bs) t ?_ 0 ?_ r
  · rw [run_append, h]; exact ht
  · rw [(stable_run dockDemo bs s t ht).2 0 (by omega), h3]
    rw [h3] at hn
    intro p slot meth result err hm
    rcases List.mem_append.mp hm with hm | hm
    · simp [remoteActs] at hm
    · exact hn p slot meth result err hm

/-- C64 (refuted): the hub answers with the address of a dock that is gone; `Dial` fails and `log.Fatal` ends the
whole process of the calling dock. -/
theorem C64_dial_refuted : ∃ cs as s t, run (State.step cs) State.init as = some s ∧ s.dead = false ∧
    s.step cs (.dialFail 0) = some t ∧ t.dead = true := by
  obtain ⟨s, h, e⟩ := witness (cs := dockDemo) (as := [.dialHub 0, .storeHub, .call ⟨nameC, methM, [], true⟩ 77, .store 0,
      .setReq 0, .commit 0, .recv 0 (.queryResponse [49])])
    (f := fun s => (s.dead, (s.step dockDemo (.dialFail 0)).map State.dead)) (b := (false, some true)) rfl
  simp only [Prod.mk.injEq] at e
  obtain ⟨t, ht⟩ := Option.map_eq_some_iff.mp e.2
  exact ⟨dockDemo, _, s, t, h, e.1, ht⟩

end Verif.Props
