import Verif.Props.Dock3
import Verif.Dock.Answer

/-!
# C64 and C82: answers to remote calls and to requests
-/

namespace Verif.Props

open Verif Verif.Codec Verif.Proto Verif.Dock

/-! ## C64: Every remote call returns -/

/-- A call that is in `d.rpcs` stays there, unless another call takes its place or a response removes it. -/
def RegInv (s : State) : Prop :=
  ∀ i, i < s.n → s.phase i ≠ .created →
    s.rpcs (s.index i) = some i ∨ (∃ j, j ≠ i ∧ j < s.n ∧ s.index j = s.index i) ∨ 0 < responses (s.index i) s.log

theorem regInv_same {s t : State} {l : List Ev} (I : RegInv s) (hn : t.n = s.n) (hi : t.index = s.index)
    (hr : t.rpcs = s.rpcs) (hl : t.log = s.log ++ l) (hp : ∀ i, t.phase i ≠ .created → s.phase i ≠ .created) : RegInv t := by
  intro i h1 h2
  rw [hn] at h1
  rw [hi, hr, hn, hl, responses_append]
  rcases I i h1 (hp i h2) with h | h | h
  · exact Or.inl h
  · exact Or.inr (Or.inl h)
  · exact Or.inr (Or.inr (by omega))

theorem regInv_commit {s : State} {i : Nat} (I : RegInv s) : RegInv (s.doCommit i) := by
  unfold State.doCommit
  repeat' split
  · exact regInv_same (l := [_]) I rfl rfl rfl rfl fun _ h => h
  · exact regInv_same (l := []) I rfl rfl rfl (List.append_nil _).symm fun _ h => h
  · exact regInv_same I rfl rfl rfl rfl fun _ h => h
  · exact regInv_same (l := []) I rfl rfl rfl (List.append_nil _).symm fun _ h => h

/-- The goroutine of a call proceeds. -/
theorem regInv_phase {s t : State} {i : Nat} {ph : CallPhase} (I : RegInv s) (hn : t.n = s.n) (hi : t.index = s.index)
    (hr : t.rpcs = s.rpcs) (hl : t.log = s.log) (hp : t.phase = upd s.phase i ph) (h : s.phase i ≠ .created) : RegInv t := by
  refine regInv_same (l := []) I hn hi hr (by rw [hl, List.append_nil]) ?_
  intro j hj
  by_cases e : j = i
  · subst e; exact h
  · rw [hp, upd_other _ _ e] at hj; exact hj

theorem regInv_step (cs : List Carried) (s : State) (a : Act) (t : State) (R : RpcInv s) (I : RegInv s)
    (h : s.step cs a = some t) : RegInv t := by
  unfold State.step at h
  split at h
  · cases h
  cases a with
  | call c clock =>
    simp only at h
    split at h
    · cases h; exact regInv_same (l := [_, _]) I rfl rfl rfl rfl fun _ h => h
    · cases h
      intro i h1 h2
      simp only at h1 h2 ⊢
      have hne : i ≠ s.n := by rintro rfl; rw [upd_same] at h2; exact h2 rfl
      rw [upd_other _ _ hne] at h2 ⊢
      rw [responses_append]
      rcases I i (by omega) h2 with h | ⟨j, hj1, hj2, hj3⟩ | h
      · exact Or.inl h
      · exact Or.inr (Or.inl ⟨j, hj1, by omega, by rw [upd_other _ _ (by omega)]; exact hj3⟩)
      · exact Or.inr (Or.inr (by omega))
  | store j =>
    simp only at h
    split at h
    · rename_i hj
      split at h
      · rename_i hp
        cases h
        intro i h1 h2
        simp only at h1 h2 ⊢
        by_cases e : i = j
        · subst e; exact Or.inl (upd_same ..)
        · rw [upd_other _ _ e] at h2
          by_cases e' : s.index i = s.index j
          · exact Or.inr (Or.inl ⟨j, Ne.symm e, hj, e'.symm⟩)
          · rw [upd_other _ _ e']
            exact I i h1 h2
      · cases h
    · cases h
  | setReq i =>
    simp only at h
    split at h
    · rename_i hp
      cases h
      exact regInv_phase I rfl rfl rfl rfl rfl (by rw [hp]; simp)
    · cases h
  | commit i =>
    simp only at h
    split at h
    · rename_i hp
      cases h
      refine regInv_phase (regInv_commit (i := i) I) rfl rfl rfl rfl ?_ ?_ (i := i) (ph := .waiting)
      · simp only [(doCommit_same s i).2.2.2.1]
      · rw [(doCommit_same s i).2.2.2.1, hp]; simp
    · cases h
  | receive i =>
    simp only at h
    split at h
    · rename_i hp _
      cases h
      exact regInv_phase I rfl rfl rfl rfl rfl (by rw [hp]; simp)
    · cases h
  | closeChan i =>
    simp only at h
    split at h
    · rename_i hp
      cases h
      exact regInv_phase I rfl rfl rfl rfl rfl (by rw [hp]; simp)
    · cases h
  | recv p pkt =>
    simp only [State.onPacket] at h
    repeat' split at h
    all_goals cases h
    all_goals first
      | exact regInv_same (l := [_]) I rfl rfl rfl rfl fun _ h => h
      | exact regInv_same (l := [_, _]) I rfl rfl rfl (List.append_assoc ..) fun _ h => h
  | work p order =>
    simp only [State.work] at h
    repeat' split at h
    all_goals cases h
    all_goals first
      | exact regInv_same (l := []) I rfl rfl rfl (List.append_nil _).symm fun _ h => h
      | exact regInv_same (l := []) (regInv_commit I) rfl rfl rfl (List.append_nil _).symm fun _ h => h
      | exact regInv_same I rfl rfl rfl rfl fun _ h => h
  | delete k =>
    simp only at h
    split at h
    · rename_i hp
      cases h
      intro i h1 h2
      simp only at h1 h2 ⊢
      by_cases e : s.index i = (s.cb k).index
      · have hk : k < s.nc := by
          rcases Nat.lt_or_ge k s.nc with h' | h'
          · exact h'
          · rw [R.cbFresh k h'] at hp; cases hp
        obtain ⟨q, slot, meth, ha⟩ := (R.cb k hk).2.2
        refine Or.inr (Or.inr ?_)
        refine List.countP_pos_iff.mpr ⟨_, ha, ?_⟩
        simp [e]
      · rw [upd_other _ _ e]
        exact I i h1 h2
    · cases h
  | _ =>
    simp only [State.connected] at h
    repeat' split at h
    all_goals cases h
    all_goals first
      | exact regInv_same (l := []) I rfl rfl rfl (List.append_nil _).symm fun _ h => h
      | exact regInv_same (l := [_]) I rfl rfl rfl rfl fun _ h => h

theorem regInv_run (cs : List Carried) (as : List Act) (s : State) (h : run (State.step cs) State.init as = some s) :
    RegInv s :=
  (run_inv (I := fun s => (RpcInv s ∧ HandInv s) ∧ RegInv s)
    (fun s a t hI h => ⟨⟨rpcInv_step cs s a t hI.1.2 hI.1.1 h, handInv_step cs s a t hI.1.1 hI.1.2 h⟩,
      regInv_step cs s a t hI.1.1 hI.2 h⟩) as State.init s
    ⟨⟨RpcInv.init, fun p => by simp [State.init]⟩, fun i h => absurd h (Nat.not_lt_zero _)⟩ h).2

/-- C64 (partial): when the first response with the index of a waiting call arrives and no other call has that index,
the call can return with what the response says: delivering the response, receiving it and closing the channel are
possible one after the other, without steps of other goroutines.
Missing: that a response ever arrives, see `C64_no_timeout_refuted` and `C64_lost_refuted`. -/
theorem C64_answered_partial (cs : List Carried) (as : List Act) (s : State)
    (h : run (State.step cs) State.init as = some s) (hd : s.dead = false) (i : Nat) (hi : i < s.n)
    (hw : s.phase i = .waiting) (h1 : ∀ j, j < s.n → s.index j = s.index i → j = i)
    (h0 : responses (s.index i) s.log = 0) (p : Nat) (hp : s.handler p = .idle) (hpp : s.isPeer p = true)
    (slot meth : Str) (result : List Val) (err : Str) :
    ∃ t, run (State.step cs) s [.recv p (.rpcResponse (s.index i) slot meth result err), .callback s.nc, .receive i,
      .closeChan i] = some t ∧ t.phase i = .returned ⟨result, err⟩ := by
  have hreg : s.rpcs (s.index i) = some i := by
    rcases regInv_run cs as s h i hi (by rw [hw]; simp) with h' | ⟨j, h2, h3, h4⟩ | h'
    · exact h'
    · exact absurd (h1 j h3 h4) h2
    · omega
  obtain ⟨_, hC⟩ := chanInv_run cs as s h
  have hC := (hC i).2 hi
  have hnone : callbacks s i = [] := by
    have := hC.count
    rw [h0] at this
    exact List.length_eq_zero_iff.mp (Nat.le_zero.mp this)
  have hno : ¬ (s.chan i ≠ none ∨ s.chanClosed i = true ∨ (s.phase i).result ≠ none) := by
    intro hu
    obtain ⟨j, hj, _⟩ := hC.used hu
    rw [hnone] at hj
    cases hj
  have hchan : s.chan i = none := Classical.byContradiction fun hc => hno (Or.inl hc)
  have hcl : s.chanClosed i = false := by
    cases hc : s.chanClosed i
    · rfl
    · exact absurd (Or.inr (Or.inl hc)) hno
  simp [run, State.step, State.onPacket, hd, hp, hpp, hreg, hcl, hchan, hw]

/-- The request of `remoteActs` has been sent and call 0 waits; the response of peer 1 makes it return. -/
example : ∃ s, run (State.step dockDemo) State.init remoteActs = some s ∧ s.dead = false ∧ 0 < s.n ∧
    s.phase 0 = .waiting ∧ (∀ j, j < s.n → s.index j = s.index 0 → j = 0) ∧ responses (s.index 0) s.log = 0 ∧
    s.handler 1 = .idle ∧ s.isPeer 1 = true := by
  obtain ⟨s, h, e⟩ := witness (cs := dockDemo) (as := remoteActs)
    (f := fun s => (s.dead, s.n, s.phase 0, responses (s.index 0) s.log, s.handler 1, s.isPeer 1))
    (b := (false, 1, .waiting, 0, .idle, true)) rfl
  simp only [Prod.mk.injEq] at e
  obtain ⟨e1, e2, e3, e4, e5, e6⟩ := e
  exact ⟨s, h, e1, by omega, e3, fun j hj _ => by omega, e4, e5, e6⟩

/-! ## C82: Each request is answered at most once, with its own result -/

/-- The number of responses with index `x` sent to peer `p`. -/
def responsesTo (p : Nat) (x : BitVec 64) (log : List Ev) : Nat :=
  log.countP fun e => match e with
    | .sent q (.rpcResponse y _ _ _ _) => q = p ∧ y = x
    | _ => false

/-- The number of requests with index `x` received from peer `p`. -/
def requestsFrom (p : Nat) (x : BitVec 64) (log : List Ev) : Nat :=
  log.countP fun e => match e with
    | .recv q (.rpcRequest y _ _ _ _) => q = p ∧ y = x
    | _ => false

theorem responsesTo_eq (p : Nat) (x : BitVec 64) (log : List Ev) :
    responsesTo p x log = (log.filterMap respOf).countP (fun y => y.1 = p ∧ y.2 = x) := by
  unfold responsesTo
  rw [List.countP_filterMap]
  refine List.countP_congr ?_
  intro a _
  cases a with
  | sent q pkt => cases pkt <;> simp [respOf]
  | _ => simp [respOf]

theorem requestsFrom_ge (cs : List Carried) (p : Nat) (x : BitVec 64) (log : List Ev) :
    (log.filterMap (askedOf cs)).countP (fun y => y.1 = p ∧ y.2.1 = x) ≤ requestsFrom p x log := by
  unfold requestsFrom
  rw [List.countP_filterMap]
  refine List.countP_mono_left ?_
  intro a _ h
  cases a with
  | recv q pkt =>
    cases pkt with
    | rpcRequest y slot meth args wr =>
      cases hc : slotsOf cs slot
      · simp [askedOf, hc] at h
      · simpa [askedOf, hc] using h
    | _ => simp [askedOf] at h
  | _ => simp [askedOf] at h

/-- C82, first half: a peer is sent at most as many responses with an index as it has sent requests with that index. -/
theorem C82_at_most_one (cs : List Carried) (as : List Act) (s : State)
    (h : run (State.step cs) State.init as = some s) (p : Nat) (x : BitVec 64) :
    responsesTo p x s.log ≤ requestsFrom p x s.log := by
  have I := respInv_run cs as s h
  refine Nat.le_trans ?_ (requestsFrom_ge cs p x s.log)
  rw [responsesTo_eq, (histInv_run cs as s h).asked]
  obtain ⟨ids, hn, hm, he⟩ := I.sent
  rw [he, List.countP_map, List.countP_map]
  have hp : ids.Perm ((List.range s.nx).filter fun k => (s.exec k).phase.isOver) := by
    rw [List.perm_ext_iff_of_nodup hn (List.Pairwise.filter _ List.nodup_range)]
    intro k
    rw [hm k, List.mem_filter, List.mem_range]
  rw [hp.countP_eq]
  exact List.filter_sublist.countP_le

/-- C82, second half: a response goes to a peer that sent a request with the same index, feature and method, which was
executed by the last feature carried under that name, and has the result and error of that execution (no result if the
request did not ask for one). -/
theorem C82_own_result (cs : List Carried) (as : List Act) (s : State)
    (h : run (State.step cs) State.init as = some s) (p : Nat) (x : BitVec 64) (slot meth : Str) (result : List Val)
    (err : Str) (hs : Ev.sent p (.rpcResponse x slot meth result err) ∈ s.log) :
    ∃ f args wr r, Ev.recv p (.rpcRequest x slot meth args wr) ∈ s.log ∧ LastNamed cs slot f ∧
      Ev.returned (p, x) f.feature ⟨slot, meth, args, wr⟩ r ∈ s.log ∧
      result = (if wr then r.result else []) ∧ err = r.err := by
  have I := histInv_run cs as s h
  obtain ⟨f, args, wr, r, h1, h2, h3⟩ := I.sent p _ hs
  have h4 := I.origin _ _ _ _ _ h1
  obtain ⟨ks, _, hk2, hk3⟩ := I.invoked
  have h5 : (p, x, f, Call.mk slot meth args wr) ∈ s.log.filterMap remoteOf := List.mem_filterMap.mpr ⟨_, h4, rfl⟩
  rw [hk3] at h5
  obtain ⟨k, hk, hkey⟩ := List.mem_map.mp h5
  have h6 : (p, x, f, Call.mk slot meth args wr) ∈ s.log.filterMap (askedOf cs) := by
    rw [I.asked]
    exact List.mem_map.mpr ⟨k, List.mem_range.mpr ((hk2 k).mp hk).1, hkey⟩
  obtain ⟨a, ha, hg⟩ := List.mem_filterMap.mp h6
  unfold askedOf at hg
  split at hg
  · obtain ⟨g, hg1, hg2⟩ := Option.map_eq_some_iff.mp hg
    simp only [Prod.mk.injEq, Call.mk.injEq] at hg2
    obtain ⟨rfl, rfl, rfl, rfl, rfl, rfl, rfl⟩ := hg2
    exact ⟨g, _, _, r, ha, (slotsOf_some _ _ _).mp hg1, h1, h2, h3⟩
  · cases hg

/-- Two peers ask with the same index; one request is answered, the other one is still running. -/
example : ∃ s, run (State.step dockDemo) State.init (bootActs ++ [.accept 3 20001,
      .recv 2 (.rpcRequest 9 nameA methM [] true), .recv 3 (.rpcRequest 9 nameA methN [] true), .invoke 1, .invoke 0,
      .finish 1 ⟨[.bool 0 true], []⟩, .respond 1]) = some s ∧
    (responsesTo 2 9 s.log, requestsFrom 2 9 s.log, responsesTo 3 9 s.log, requestsFrom 3 9 s.log) = (0, 1, 1, 1) ∧
    s.log.getLast? = some (.sent 3 (.rpcResponse 9 nameA methN [.bool 0 true] [])) := ⟨_, rfl, rfl, rfl⟩

end Verif.Props
