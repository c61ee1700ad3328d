import Verif.Props.Dock2

/-!
# C75, C76, C77: crashes by packets, pending calls and connections of a dock
-/

namespace Verif.Props

open Verif Verif.Codec Verif.Proto Verif.Dock

/-! ## C75: Packets cannot crash a dock -/

/-- C75 (refuted): a peer sends the same response twice, both are looked up before the first is removed; the call
returns and closes its channel; the second goroutine sends on the closed channel, which panics. -/
theorem C75_duplicate_refuted : ∃ cs as s t k, run (State.step cs) State.init as = some s ∧ s.dead = false ∧
    s.step cs (.callback k) = some t ∧ t.dead = true := by
  obtain ⟨s, h, e⟩ := witness (cs := dockDemo) (as := remoteActs ++
      [.recv 1 (.rpcResponse 77 nameC methM [.bool 0 true] []), .recv 1 (.rpcResponse 77 nameC methM [.bool 0 true] []),
       .callback 0, .receive 0, .closeChan 0])
    (f := fun s => (s.dead, (s.step dockDemo (.callback 1)).map State.dead)) (b := (false, some true)) rfl
  simp only [Prod.mk.injEq] at e
  obtain ⟨t, ht⟩ := Option.map_eq_some_iff.mp e.2
  exact ⟨dockDemo, _, s, t, 1, h, e.1, ht⟩

/-- The number of responses with index `x` in a history. -/
def responses (x : BitVec 64) (log : List Ev) : Nat :=
  log.countP fun e => match e with
    | .recv _ (.rpcResponse y _ _ _ _) => x = y
    | _ => false

/-- The callback goroutines of call `i`. -/
def callbacks (s : State) (i : Nat) : List Nat := (List.range s.nc).filter fun k => (s.cb k).rpc = i

/-- What is known about the result channel of call `i` if it gets at most one response. -/
structure ChanInv (s : State) (i : Nat) : Prop where
  count : (callbacks s i).length ≤ responses (s.index i) s.log
  used : (s.chan i ≠ none ∨ s.chanClosed i = true ∨ (s.phase i).result ≠ none) →
    ∃ k ∈ callbacks s i, (s.cb k).phase ≠ .sending

theorem responses_append (x : BitVec 64) (l l' : List Ev) : responses x (l ++ l') = responses x l + responses x l' := by
  simp [responses]

theorem responses_none (x : BitVec 64) (l : List Ev)
    (h : ∀ e ∈ l, ∀ p y a b c d, e ≠ .recv p (.rpcResponse y a b c d)) : responses x l = 0 := by
  unfold responses
  rw [List.countP_eq_zero]
  intro e he
  split
  · exact absurd rfl (h _ he _ _ _ _ _ _)
  · simp

/-- Actions that do not concern the channel. -/
theorem chanInv_same {s t : State} {i : Nat} {l : List Ev} (hC : ChanInv s i) (hnc : t.nc = s.nc) (hcb : t.cb = s.cb)
    (hi : t.index i = s.index i) (hl : t.log = s.log ++ l) (hc : t.chan = s.chan) (hcc : t.chanClosed = s.chanClosed)
    (hp : (t.phase i).result = (s.phase i).result) : ChanInv t i := by
  constructor
  · rw [hi, hl, responses_append, callbacks, hnc, hcb]
    have := hC.count
    unfold callbacks at this
    omega
  · rw [hc, hcc, hp, callbacks, hnc, hcb]
    exact hC.used

theorem callbacks_upd {s : State} {k : Nat} {ph : CbPhase} (i : Nat) :
    callbacks { s with cb := upd s.cb k { s.cb k with phase := ph } } i = callbacks s i := by
  unfold callbacks
  simp only
  refine List.filter_congr ?_
  intro j _
  have : (upd s.cb k { s.cb k with phase := ph } j).rpc = (s.cb j).rpc := by
    by_cases e : j = k
    · subst e; rw [upd_same]
    · rw [upd_other _ _ e]
  simp only [this]

set_option maxHeartbeats 1000000 in
theorem chanInv_step (cs : List Carried) (i : Nat) (s : State) (a : Act) (t : State) (hR : RpcInv s)
    (hi : i < s.n ∨ s.n ≤ i ∧ s.chan i = none ∧ s.chanClosed i = false)
    (hC : i < s.n → ChanInv s i) (h : s.step cs a = some t) :
    (i < t.n ∨ t.n ≤ i ∧ t.chan i = none ∧ t.chanClosed i = false) ∧ (i < t.n → ChanInv t i) := by
  have keep : ∀ t : State, t.n = s.n → t.chan = s.chan → t.chanClosed = s.chanClosed →
      (i < s.n → ChanInv t i) →
      (i < t.n ∨ t.n ≤ i ∧ t.chan i = none ∧ t.chanClosed i = false) ∧ (i < t.n → ChanInv t i) := by
    intro t h1 h2 h3 h4
    rw [h1, h2, h3]
    exact ⟨hi, h4⟩
  have kp : ∀ (j : Nat) (ph : CallPhase), ph.result = (s.phase j).result →
      (upd s.phase j ph i).result = (s.phase i).result := by
    intro j ph hj
    by_cases e : i = j
    · subst e; rw [upd_same]; exact hj
    · rw [upd_other _ _ e]
  unfold State.step at h
  split at h
  · cases h
  cases a with
  | call c clock =>
    simp only at h
    split at h
    · cases h
      exact keep _ rfl rfl rfl fun hlt => chanInv_same (hC hlt) rfl rfl rfl rfl rfl rfl rfl
    · cases h
      constructor
      · simp only
        rcases hi with hi | hi
        · left; omega
        · by_cases e : i = s.n
          · left; omega
          · right; exact ⟨by omega, hi.2⟩
      · intro hlt
        simp only at hlt
        by_cases e : i = s.n
        · subst e
          have hz : callbacks s s.n = [] := by
            unfold callbacks
            rw [List.filter_eq_nil_iff]
            intro k hk
            have := (hR.cb k (List.mem_range.mp hk)).2.1
            simp; omega
          have hi' : s.chan s.n = none ∧ s.chanClosed s.n = false := by
            rcases hi with hi | hi
            · omega
            · exact hi.2
          constructor
          · show (callbacks s s.n).length ≤ _
            rw [hz]; simp
          · simp [hi'.1, hi'.2, CallPhase.result]
        · refine chanInv_same (l := [.called c]) (hC (by omega)) rfl rfl ?_ rfl rfl rfl ?_
          · simp only; rw [upd_other _ _ e]
          · simp only; rw [upd_other _ _ e]
  | store j =>
    simp only at h
    repeat' split at h
    all_goals cases h
    rename_i hph
    exact keep _ rfl rfl rfl fun hlt => chanInv_same (l := []) (hC hlt) rfl rfl rfl (List.append_nil _).symm rfl rfl
      (kp _ _ (by rw [hph]; rfl))
  | setReq j =>
    simp only at h
    split at h
    · cases h
      rename_i hph
      exact keep _ rfl rfl rfl fun hlt => chanInv_same (l := []) (hC hlt) rfl rfl rfl (List.append_nil _).symm rfl rfl
        (kp _ _ (by rw [hph]; rfl))
    · cases h
  | commit j =>
    simp only at h
    split at h
    · cases h
      rename_i hph
      obtain ⟨d1, d2, d3, d4, d5, d6, d7, d8, d9, d10, d11, d12, d13, d14, d15, d16, d17, d18, l, d19⟩ := doCommit_same s j
      refine keep _ d1 d5 d6 fun hlt => chanInv_same (l := l) (hC hlt) d12 d13 (by simp only [d3]) d19 d5 d6
        (kp _ _ (by rw [hph]; rfl))
    · cases h
  | receive j =>
    simp only at h
    split at h
    · cases h
      rename_i r hph hch
      constructor
      · rcases hi with hi | hi
        · exact Or.inl hi
        · right
          refine ⟨hi.1, ?_, hi.2.2⟩
          simp only
          by_cases e : i = j
          · subst e; simp
          · rw [upd_other _ _ e]; exact hi.2.1
      · intro hlt
        have hC' := hC hlt
        refine ⟨hC'.count, ?_⟩
        intro hu
        refine hC'.used ?_
        simp only at hu
        by_cases e : i = j
        · subst e; left; rw [hch]; simp
        · rw [upd_other _ _ e, upd_other _ _ e] at hu; exact hu
    · cases h
  | closeChan j =>
    simp only at h
    split at h
    · cases h
      rename_i r hph
      constructor
      · rcases hi with hi | hi
        · exact Or.inl hi
        · right
          refine ⟨hi.1, hi.2.1, ?_⟩
          simp only
          have e : i ≠ j := by
            rintro rfl; rw [hR.fresh i hi.1] at hph; cases hph
          rw [upd_other _ _ e]; exact hi.2.2
      · intro hlt
        have hC' := hC hlt
        refine ⟨hC'.count, ?_⟩
        intro hu
        refine hC'.used ?_
        simp only at hu
        by_cases e : i = j
        · subst e; right; right; rw [hph]; simp [CallPhase.result]
        · rw [upd_other _ _ e, upd_other _ _ e] at hu; exact hu
    · cases h
  | recv p pkt =>
    simp only at h
    split at h
    · split at h
      · cases h
        unfold State.onPacket
        cases pkt with
        | rpcResponse index slot meth result err =>
          simp only
          split
          · rename_i j hj
            have hj' := hR.rpcs _ _ hj
            refine keep _ rfl rfl rfl ?_
            intro hlt
            have hC' := hC hlt
            have hcb : ∀ k, k < s.nc → upd s.cb s.nc (⟨j, index, ⟨result, err⟩, .sending⟩ : Callback) k = s.cb k := by
              intro k hk; rw [upd_other _ _ (by omega)]
            have hcall : ∀ i, ((List.range (s.nc + 1)).filter fun k =>
                (upd s.cb s.nc (⟨j, index, ⟨result, err⟩, .sending⟩ : Callback) k).rpc = i) =
                callbacks s i ++ (if j = i then [s.nc] else []) := by
              intro i
              rw [List.range_succ, List.filter_append]
              congr 1
              · unfold callbacks
                refine List.filter_congr ?_
                intro k hk
                rw [hcb k (List.mem_range.mp hk)]
              · by_cases e : j = i <;> simp [e]
            constructor
            · show ((List.range (s.nc + 1)).filter fun k => (upd s.cb s.nc (⟨j, index, ⟨result, err⟩, .sending⟩ :
                  Callback) k).rpc = i).length ≤ _
              rw [hcall]
              simp only
              rw [responses_append, List.length_append]
              have := hC'.count
              have h1 : (if j = i then [s.nc] else []).length ≤
                  responses (s.index i) [Ev.recv p (Proto.rpcResponse index slot meth result err)] := by
                by_cases e : j = i
                · subst e; rw [hj'.2]; simp [responses]
                · simp [e]
              omega
            · intro hu
              obtain ⟨k, hk, hs⟩ := hC'.used hu
              have hk' : k < s.nc := by
                unfold callbacks at hk
                exact List.mem_range.mp (List.mem_filter.mp hk).1
              refine ⟨k, ?_, ?_⟩
              · show k ∈ ((List.range (s.nc + 1)).filter fun k => (upd s.cb s.nc (⟨j, index, ⟨result, err⟩, .sending⟩ :
                  Callback) k).rpc = i)
                rw [hcall]
                exact List.mem_append_left _ hk
              · simp only; rw [hcb k hk']; exact hs
          · exact keep _ rfl rfl rfl fun hlt => chanInv_same (l := [_]) (hC hlt) rfl rfl rfl rfl rfl rfl rfl
        | rpcRequest index slot meth args wr =>
          simp only
          split
          all_goals exact keep _ rfl rfl rfl fun hlt => chanInv_same (l := [_]) (hC hlt) rfl rfl rfl rfl rfl rfl rfl
        | registerResponse port =>
          exact keep _ rfl rfl rfl fun hlt => chanInv_same (l := [.recv p (.registerResponse port), .listen port])
            (hC hlt) rfl rfl rfl (by simp) rfl rfl rfl
        | _ => exact keep _ rfl rfl rfl fun hlt => chanInv_same (l := [_]) (hC hlt) rfl rfl rfl rfl rfl rfl rfl
      · cases h
    · cases h
  | work p order =>
    simp only [State.work] at h
    repeat' split at h
    all_goals cases h
    all_goals first
      | exact keep _ rfl rfl rfl fun hlt => chanInv_same (l := []) (hC hlt) rfl rfl rfl (List.append_nil _).symm rfl rfl rfl
      | exact keep _ rfl rfl rfl fun hlt => chanInv_same (hC hlt) rfl rfl rfl rfl rfl rfl rfl
      | skip
    rename_i j _
    obtain ⟨d1, d2, d3, d4, d5, d6, d7, d8, d9, d10, d11, d12, d13, d14, d15, d16, d17, d18, l, d19⟩ := doCommit_same s j
    exact keep _ d1 d5 d6 fun hlt => chanInv_same (l := l) (hC hlt) d12 d13 (by simp only [d3]) d19 d5 d6
      (by simp only [d4])
  | callback k =>
    simp only at h
    repeat' split at h
    all_goals cases h
    · exact keep _ rfl rfl rfl fun hlt => chanInv_same (l := []) (hC hlt) rfl rfl rfl (List.append_nil _).symm rfl rfl rfl
    · rename_i hph hcl _ hch
      have hk : k < s.nc := by
        rcases Nat.lt_or_ge k s.nc with h' | h'
        · exact h'
        · rw [hR.cbFresh k h'] at hph; cases hph
      obtain ⟨h1, h2, h3⟩ := hR.cb k hk
      constructor
      · rcases hi with hi | hi
        · exact Or.inl hi
        · right
          refine ⟨hi.1, ?_, hi.2.2⟩
          simp only
          rw [upd_other _ _ (by omega)]; exact hi.2.1
      · intro hlt
        have hC' := hC hlt
        have hcs : callbacks
            ({ s with
                chan := upd s.chan (s.cb k).rpc (some (s.cb k).ret)
                cb := upd s.cb k { s.cb k with phase := .deleting } } : State) i = callbacks s i := callbacks_upd i
        constructor
        · rw [hcs]; exact hC'.count
        · rw [hcs]
          intro hu
          simp only at hu ⊢
          by_cases e : i = (s.cb k).rpc
          · refine ⟨k, ?_, by rw [upd_same]; simp⟩
            unfold callbacks
            exact List.mem_filter.mpr ⟨List.mem_range.mpr hk, by simp [e]⟩
          · rw [upd_other _ _ e] at hu
            obtain ⟨j, hj, hs⟩ := hC'.used hu
            refine ⟨j, hj, ?_⟩
            by_cases e' : j = k
            · subst e'; rw [upd_same]; simp
            · rw [upd_other _ _ e']; exact hs
  | delete k =>
    simp only at h
    split at h
    · cases h
      refine keep _ rfl rfl rfl ?_
      intro hlt
      have hC' := hC hlt
      have hcs : callbacks
          ({ s with
              rpcs := upd s.rpcs (s.cb k).index none
              cb := upd s.cb k { s.cb k with phase := .over } } : State) i = callbacks s i := callbacks_upd i
      constructor
      · rw [hcs]; exact hC'.count
      · rw [hcs]
        intro hu
        obtain ⟨j, hj, hs⟩ := hC'.used hu
        refine ⟨j, hj, ?_⟩
        simp only
        by_cases e' : j = k
        · subst e'; rw [upd_same]; simp
        · rw [upd_other _ _ e']; exact hs
    · cases h
  | _ =>
    simp only [State.connected] at h
    repeat' split at h
    all_goals cases h
    all_goals first
      | exact keep _ rfl rfl rfl fun hlt => chanInv_same (l := []) (hC hlt) rfl rfl rfl (List.append_nil _).symm rfl rfl rfl
      | exact keep _ rfl rfl rfl fun hlt => chanInv_same (hC hlt) rfl rfl rfl rfl rfl rfl rfl

theorem chanInv_run (cs : List Carried) (as : List Act) (s : State) (h : run (State.step cs) State.init as = some s) :
    (RpcInv s ∧ HandInv s) ∧ ∀ i, (i < s.n ∨ s.n ≤ i ∧ s.chan i = none ∧ s.chanClosed i = false) ∧
      (i < s.n → ChanInv s i) := by
  refine run_inv (I := fun s => (RpcInv s ∧ HandInv s) ∧ ∀ i, (i < s.n ∨ s.n ≤ i ∧ s.chan i = none ∧
    s.chanClosed i = false) ∧ (i < s.n → ChanInv s i)) ?_ as State.init s ?_ h
  · intro s a t hI h
    exact ⟨⟨rpcInv_step cs s a t hI.1.2 hI.1.1 h, handInv_step cs s a t hI.1.1 hI.1.2 h⟩,
      fun i => chanInv_step cs i s a t hI.1.1 (hI.2 i).1 (hI.2 i).2 h⟩
  · refine ⟨⟨RpcInv.init, fun p => by simp [State.init]⟩, ?_⟩
    intro i
    exact ⟨Or.inr ⟨Nat.zero_le _, rfl, rfl⟩, fun h => absurd h (Nat.not_lt_zero _)⟩

/-- A goroutine that delivers the only response finds the call as it was. -/
theorem single_unused (cs : List Carried) (as : List Act) (s : State)
    (h : run (State.step cs) State.init as = some s) (k : Nat) (hk : (s.cb k).phase = .sending)
    (h1 : responses (s.index (s.cb k).rpc) s.log ≤ 1) :
    ¬ (s.chan (s.cb k).rpc ≠ none ∨ s.chanClosed (s.cb k).rpc = true ∨ (s.phase (s.cb k).rpc).result ≠ none) := by
  have hI := chanInv_run cs as s h
  have hk' : k < s.nc := by
    rcases Nat.lt_or_ge k s.nc with h' | h'
    · exact h'
    · rw [hI.1.1.cbFresh k h'] at hk; cases hk
  have hlt := (hI.1.1.cb k hk').2.1
  have hC := (hI.2 (s.cb k).rpc).2 hlt
  have hm : k ∈ callbacks s (s.cb k).rpc := List.mem_filter.mpr ⟨List.mem_range.mpr hk', by simp⟩
  intro hu
  obtain ⟨j, hj, hs⟩ := hC.used hu
  have hne : j ≠ k := by rintro rfl; exact hs hk
  have hlen : (callbacks s (s.cb k).rpc).length ≤ 1 := Nat.le_trans hC.count h1
  match hl : callbacks s (s.cb k).rpc with
  | [] => rw [hl] at hm; cases hm
  | [x] =>
    rw [hl] at hm hj
    simp at hm hj
    exact hne (by rw [hj, hm])
  | x :: y :: l => rw [hl] at hlen; simp at hlen

/-- C75 (partial): if at most one response with the index of a call has arrived, the goroutine that delivers it finds
the channel of the call open and empty, so that it neither panics nor blocks.
Missing: nothing in the code ensures the assumption; see `C75_duplicate_refuted`.  In a system of unmodified processes
it holds as long as clock readings are distinct: `C75_honest_partial`. -/
theorem C75_single_response_partial (cs : List Carried) (as : List Act) (s : State)
    (h : run (State.step cs) State.init as = some s) (k : Nat) (hk : (s.cb k).phase = .sending)
    (h1 : responses (s.index (s.cb k).rpc) s.log ≤ 1) :
    s.chanClosed (s.cb k).rpc = false ∧ s.chan (s.cb k).rpc = none := by
  have hno := single_unused cs as s h k hk h1
  constructor
  · cases hc : s.chanClosed (s.cb k).rpc
    · rfl
    · exact absurd (Or.inr (Or.inl hc)) hno
  · cases hc : s.chan (s.cb k).rpc
    · rfl
    · exact absurd (Or.inl (by rw [hc]; simp)) hno

example : ∃ s, run (State.step dockDemo) State.init (remoteActs ++
    [.recv 1 (.rpcResponse 77 nameC methM [.bool 0 true] [])]) = some s ∧
    ((s.cb 0).phase, responses (s.index (s.cb 0).rpc) s.log) = (.sending, 1) := witness rfl

/-! ## C76: A pending call is sent when its feature becomes ready -/

/-- What the handler of peer `p` still has to do for call `i`, which asks for `slot`. -/
def Prog (s : State) (i : Nat) (slot : Str) : Handler → Prop
  | .slots rest => slot ∈ rest ∨ s.req i = false
  | .scan sl rest start visited => slot ∈ rest ∨ s.req i = false ∨ (sl = slot ∧ i ∈ start ∧ i ∉ visited)
  | .tested sl rest start visited j => slot ∈ rest ∨ s.req i = false ∨ (sl = slot ∧ i ∈ start ∧ (i ∈ visited → j = i))
  | .commit sl rest start visited j => slot ∈ rest ∨ s.req i = false ∨ (sl = slot ∧ i ∈ start ∧ (i ∈ visited → j = i))
  | _ => s.req i = false

/-- Call `i` is still pending, or the handler has dealt with it or is going to. -/
structure WakeInv (p i : Nat) (slot : Str) (s : State) : Prop where
  lt : i < s.n
  isSet : (s.phase i).isSet = true
  asks : (s.call i).slot = slot
  remote : s.remote slot ≠ none
  prog : s.dead = true ∨ s.rpcs (s.index i) ≠ some i ∨ Prog s i slot (s.handler p)

theorem Prog.done {s : State} {i : Nat} {slot : Str} (h : s.req i = false) (hd : Handler) : Prog s i slot hd := by
  cases hd <;> simp [Prog, h]

theorem doCommit_req_self (s : State) (i : Nat) (h : s.remote (s.call i).slot ≠ none) (hd : s.dead = false) :
    (s.doCommit i).dead = true ∨ (s.doCommit i).req i = false := by
  unfold State.doCommit
  split
  · split
    · right; simp
    · rename_i e; exact absurd e h
  · left; rfl

theorem doCommit_req_false (s : State) (i j : Nat) (h : s.req j = false) : (s.doCommit i).req j = false := by
  by_cases e : j = i
  · subst e
    unfold State.doCommit
    rw [h]
    simp [h]
  · rw [doCommit_req _ _ _ e]; exact h

theorem Prog.congr {s t : State} {i : Nat} {slot : Str} {hd : Handler} (hq : s.req i = false → t.req i = false)
    (h : Prog s i slot hd) : Prog t i slot hd := by
  cases hd <;> simp only [Prog] at h ⊢
  all_goals first
    | exact hq h
    | (rcases h with h | h
       · exact Or.inl h
       · first
         | exact Or.inr (hq h)
         | (rcases h with h | h
            · exact Or.inr (Or.inl (hq h))
            · exact Or.inr (Or.inr h)))

set_option maxHeartbeats 1000000 in
theorem wakeInv_step (cs : List Carried) (p i : Nat) (slot : Str) (s : State) (a : Act) (t : State) (hR : RpcInv s)
    (hW : WakeInv p i slot s) (h : s.step cs a = some t) : WakeInv p i slot t := by
  obtain ⟨hlt, hset, hslot, hrem, hprog⟩ := hW
  have hdead : s.dead = false := by
    unfold State.step at h
    split at h
    · cases h
    · rename_i hd; simpa using hd
  have hprog : s.rpcs (s.index i) ≠ some i ∨ Prog s i slot (s.handler p) := by
    rcases hprog with h | h
    · rw [hdead] at h; cases h
    · exact h
  have kp : ∀ (j : Nat) (ph : CallPhase), (j = i → ph.isSet = true) → (upd s.phase j ph i).isSet = true := by
    intro j ph hj
    by_cases e : i = j
    · subst e; rw [upd_same]; exact hj rfl
    · rw [upd_other _ _ e]; exact hset
  -- actions that do not touch the handler of `p`, `rpcs` or `remote`
  have same : ∀ t : State, t.n = s.n → (t.phase i).isSet = true → t.call = s.call → t.index = s.index →
      t.remote = s.remote → t.rpcs = s.rpcs → t.handler p = s.handler p → (s.req i = false → t.req i = false) →
      WakeInv p i slot t := by
    intro t h1 h2 h3 h4 h5 h6 h7 h8
    refine ⟨by rw [h1]; exact hlt, h2, by rw [h3]; exact hslot, by rw [h5]; exact hrem, ?_⟩
    rw [h4, h6, h7]
    rcases hprog with h | h
    · exact Or.inr (Or.inl h)
    · exact Or.inr (Or.inr (h.congr h8))
  -- the handler of `q` turns to `hd`
  have hand : ∀ (t : State) (q : Nat) (hd : Handler), t.n = s.n → t.phase = s.phase → t.call = s.call →
      t.index = s.index → t.remote = s.remote → t.rpcs = s.rpcs → t.req = s.req → t.handler = upd s.handler q hd →
      (q = p → s.rpcs (s.index i) = some i → Prog s i slot (s.handler p) → Prog s i slot hd) → WakeInv p i slot t := by
    intro t q hd h1 h2 h3 h4 h5 h6 h7 h8 h9
    refine ⟨by rw [h1]; exact hlt, by rw [h2]; exact hset, by rw [h3]; exact hslot, by rw [h5]; exact hrem, ?_⟩
    rw [h4, h6, h8]
    rcases hprog with h | h
    · exact Or.inr (Or.inl h)
    · by_cases hr : s.rpcs (s.index i) = some i
      · right; right
        by_cases e : p = q
        · subst e; rw [upd_same]; exact (h9 rfl hr h).congr (by rw [h7]; exact id)
        · rw [upd_other _ _ e]; exact h.congr (by rw [h7]; exact id)
      · exact Or.inr (Or.inl hr)
  unfold State.step at h
  split at h
  · cases h
  cases a with
  | call c clock =>
    simp only at h
    split at h
    · cases h; exact same _ rfl hset rfl rfl rfl rfl rfl id
    · cases h
      refine ⟨by simp only; omega, kp _ _ (by omega), ?_, hrem, ?_⟩
      · simp only; rw [upd_other _ _ (by omega)]; exact hslot
      · simp only
        rw [upd_other _ _ (by omega : i ≠ s.n)]
        rcases hprog with h | h
        · exact Or.inr (Or.inl h)
        · exact Or.inr (Or.inr (h.congr id))
  | store j =>
    simp only at h
    repeat' split at h
    all_goals cases h
    rename_i hj _ hph
    have hne : j ≠ i := by rintro rfl; rw [hph] at hset; cases hset
    refine ⟨hlt, kp _ _ (fun e => absurd e hne), hslot, hrem, ?_⟩
    simp only
    right
    by_cases e : s.index i = s.index j
    · left; rw [e, upd_same]; simp [hne]
    · rw [upd_other _ _ e]
      rcases hprog with h | h
      · exact Or.inl h
      · exact Or.inr (h.congr id)
  | setReq j =>
    simp only at h
    split at h
    · cases h
      rename_i hph
      have hne : i ≠ j := by rintro rfl; rw [hph] at hset; cases hset
      refine same _ rfl (kp _ _ (fun _ => rfl)) rfl rfl rfl rfl rfl ?_
      simp only; rw [upd_other _ _ hne]; exact id
    · cases h
  | commit j =>
    simp only at h
    split at h
    · cases h
      obtain ⟨d1, d2, d3, d4, d5, d6, d7, d8, d9, d10, d11, d12, d13, d14, d15, d16, d17, d18, l, d19⟩ := doCommit_same s j
      exact same _ d1 (kp _ _ (fun _ => rfl)) d2 d3 d8 d7 (by simp only [d11]) (doCommit_req_false s j i)
    · cases h
  | receive j =>
    simp only at h
    split at h
    · cases h; exact same _ rfl (kp _ _ (fun _ => rfl)) rfl rfl rfl rfl rfl id
    · cases h
  | closeChan j =>
    simp only at h
    split at h
    · cases h; exact same _ rfl (kp _ _ (fun _ => rfl)) rfl rfl rfl rfl rfl id
    · cases h
  | recv q pkt =>
    simp only at h
    split at h
    · rename_i hidle
      have hI : q = p → Prog s i slot (s.handler p) → s.req i = false := by
        rintro rfl hp; rw [hidle] at hp; exact hp
      split at h
      · cases h
        unfold State.onPacket
        cases pkt with
        | rpcResponse index sl meth result err =>
          simp only
          split
          all_goals exact same _ rfl hset rfl rfl rfl rfl rfl id
        | rpcRequest index sl meth args wr =>
          simp only
          split
          all_goals exact same _ rfl hset rfl rfl rfl rfl rfl id
        | error => exact same _ rfl hset rfl rfl rfl rfl rfl id
        | heartbeat => exact same _ rfl hset rfl rfl rfl rfl rfl id
        | queryRequest sl => exact same _ rfl hset rfl rfl rfl rfl rfl id
        | _ => exact hand _ q _ rfl rfl rfl rfl rfl rfl rfl rfl (fun e _ hp => Prog.done (hI e hp) _)
      · cases h
    · cases h
  | visit q j =>
    simp only at h
    repeat' split at h
    all_goals cases h
    · rename_i sl rest start visited hq hv hreq
      refine hand _ q _ rfl rfl rfl rfl rfl rfl rfl rfl ?_
      rintro rfl hr hp
      rw [hq] at hp
      simp only [Prog] at hp ⊢
      rcases hp with h | h | ⟨h1, h2, h3⟩
      · exact Or.inl h
      · exact Or.inr (Or.inl h)
      · refine Or.inr (Or.inr ⟨h1, h2, ?_⟩)
        intro hm
        rcases List.mem_cons.mp hm with e | hm
        · exact e.symm
        · exact absurd hm h3
    · rename_i sl rest start visited hq hv hreq
      refine hand _ q _ rfl rfl rfl rfl rfl rfl rfl rfl ?_
      rintro rfl hr hp
      rw [hq] at hp
      simp only [Prog] at hp ⊢
      rcases hp with h | h | ⟨h1, h2, h3⟩
      · exact Or.inl h
      · exact Or.inr (Or.inl h)
      · by_cases e : i = j
        · subst e; right; left; simpa using hreq
        · refine Or.inr (Or.inr ⟨h1, h2, ?_⟩)
          intro hm
          rcases List.mem_cons.mp hm with e' | hm
          · exact e e'
          · exact h3 hm
  | dialOK q e =>
    simp only at h
    split at h
    · rename_i hq
      split at h
      · cases h
        refine hand _ q _ rfl rfl rfl rfl rfl rfl rfl rfl ?_
        rintro rfl hr hp
        rw [hq] at hp
        exact Prog.done hp _
      · cases h
    · cases h
  | delete k =>
    simp only at h
    split at h
    · cases h
      refine ⟨hlt, hset, hslot, hrem, ?_⟩
      simp only
      right
      by_cases e : s.index i = (s.cb k).index
      · left; rw [e, upd_same]; simp
      · rw [upd_other _ _ e]
        rcases hprog with h | h
        · exact Or.inl h
        · exact Or.inr (h.congr id)
    · cases h
  | work q order =>
    simp only [State.work] at h
    split at h
    · cases h
    · rename_i hq; cases h
      refine hand _ q _ rfl rfl rfl rfl rfl rfl rfl rfl ?_
      rintro rfl hr hp; rw [hq] at hp
      simp only [Prog] at hp
      rcases hp with h | h
      · cases h
      · exact Prog.done h _
    · rename_i sl rest hq; cases h
      refine hand _ q _ rfl rfl rfl rfl rfl rfl rfl rfl ?_
      rintro rfl hr hp; rw [hq] at hp
      simp only [Prog] at hp ⊢
      rcases hp with h | h
      · rcases List.mem_cons.mp h with e | h
        · right; right
          refine ⟨e.symm, ?_, by simp⟩
          exact List.mem_filter.mpr ⟨List.mem_range.mpr hlt, by simpa using hr⟩
        · exact Or.inl h
      · exact Or.inr (Or.inl h)
    · rename_i sl rest start visited hq
      split at h
      · rename_i hall; cases h
        refine hand _ q _ rfl rfl rfl rfl rfl rfl rfl rfl ?_
        rintro rfl hr hp; rw [hq] at hp
        simp only [Prog] at hp ⊢
        rcases hp with h | h | ⟨h1, h2, h3⟩
        · exact Or.inl h
        · exact Or.inr h
        · have := List.all_eq_true.mp hall i h2
          simp [h3] at this
          exact absurd hr this
      · cases h
    · rename_i sl rest start visited j hq
      split at h
      · rename_i hreq
        split at h
        · cases h
          refine hand _ q _ rfl rfl rfl rfl rfl rfl rfl rfl ?_
          rintro rfl hr hp; rw [hq] at hp
          exact hp
        · rename_i hsl; cases h
          refine hand _ q _ rfl rfl rfl rfl rfl rfl rfl rfl ?_
          rintro rfl hr hp; rw [hq] at hp
          simp only [Prog] at hp ⊢
          rcases hp with h | h | ⟨h1, h2, h3⟩
          · exact Or.inl h
          · exact Or.inr (Or.inl h)
          · refine Or.inr (Or.inr ⟨h1, h2, ?_⟩)
            intro hm
            have := h3 hm
            subst this
            exact hsl (by rw [hslot, h1])
      · cases h
        exact ⟨hlt, hset, hslot, hrem, Or.inl rfl⟩
    · rename_i sl rest start visited j hq
      cases h
      obtain ⟨d1, d2, d3, d4, d5, d6, d7, d8, d9, d10, d11, d12, d13, d14, d15, d16, d17, d18, l, d19⟩ := doCommit_same s j
      refine ⟨by simp only [d1]; exact hlt, by simp only [d4]; exact hset, by simp only [d2]; exact hslot,
        by simp only [d8]; exact hrem, ?_⟩
      simp only [d3, d7]
      rcases hprog with h | h
      · exact Or.inr (Or.inl h)
      by_cases e : p = q
      · subst e
        rw [upd_same]
        rw [hq] at h
        simp only [Prog] at h ⊢
        rcases h with h | h | ⟨h1, h2, h3⟩
        · exact Or.inr (Or.inr (Or.inl h))
        · exact Or.inr (Or.inr (Or.inr (Or.inl (doCommit_req_false s j i h))))
        · by_cases hm : i ∈ visited
          · have := h3 hm
            subst this
            rcases doCommit_req_self s j (by rw [hslot]; exact hrem) hdead with h | h
            · exact Or.inl h
            · exact Or.inr (Or.inr (Or.inr (Or.inl h)))
          · exact Or.inr (Or.inr (Or.inr (Or.inr ⟨h1, h2, hm⟩)))
      · rw [upd_other _ _ e]
        exact Or.inr (Or.inr (h.congr (doCommit_req_false s j i)))
    · rename_i hq
      split at h
      · cases h
        refine hand _ q _ rfl rfl rfl rfl rfl rfl rfl rfl ?_
        rintro rfl hr hp; rw [hq] at hp
        exact Prog.done hp _
      · cases h
    · rename_i hq; cases h
      refine hand _ q _ rfl rfl rfl rfl rfl rfl rfl rfl ?_
      rintro rfl hr hp; rw [hq] at hp
      exact Prog.done hp _
    · rename_i sl rest hq; cases h
      refine ⟨hlt, hset, hslot, ?_, ?_⟩
      · simp only
        by_cases e : slot = sl
        · subst e; rw [upd_same]; simp
        · rw [upd_other _ _ e]; exact hrem
      · simp only
        rcases hprog with h | h
        · exact Or.inr (Or.inl h)
        · right; right
          by_cases e : p = q
          · subst e; rw [upd_same]; rw [hq] at h; exact h
          · rw [upd_other _ _ e]; exact h.congr id
    · rename_i hq; cases h
      refine hand _ q _ rfl rfl rfl rfl rfl rfl rfl rfl ?_
      rintro rfl hr hp; rw [hq] at hp
      exact Prog.done hp _
    · rename_i hq
      split at h
      · cases h
        refine hand _ q _ rfl rfl rfl rfl rfl rfl rfl rfl ?_
        rintro rfl hr hp; rw [hq] at hp
        exact Prog.done hp _
      · cases h
    · cases h
    · rename_i hq; cases h
      refine hand _ q _ rfl rfl rfl rfl rfl rfl rfl rfl ?_
      rintro rfl hr hp; rw [hq] at hp
      exact Prog.done hp _
  | _ =>
    simp only [State.connected] at h
    repeat' split at h
    all_goals cases h
    all_goals first
      | exact same _ rfl hset rfl rfl rfl rfl rfl id

/-- C76: a call of feature `slot` is pending, and some peer is known to offer `slot`.  When a ready packet that names
`slot` has been handled, the request of the call has been sent, unless the call is no longer in `d.rpcs` (because a
response with its index arrived, or another call got the same index) or the dock has crashed. -/
theorem C76_ready_wakes (cs : List Carried) (as bs : List Act) (s t : State) (p i : Nat) (slots : List Str)
    (h : run (State.step cs) State.init as = some s) (hi : i < s.n)
    (hph : s.phase i ≠ .created ∧ s.phase i ≠ .stored) (hm : (s.call i).slot ∈ slots)
    (hrem : s.remote (s.call i).slot ≠ none)
    (h' : run (State.step cs) s (.recv p (.ready slots) :: bs) = some t) (hidle : t.handler p = .idle)
    (hd : t.dead = false) (hr : t.rpcs (t.index i) = some i) :
    t.req i = false ∧ Proto.rpcRequest (t.index i) (t.call i).slot (t.call i).meth (t.call i).args
      (t.call i).withResult ∈ t.log.filterMap requestOf := by
  have hset : (s.phase i).isSet = true := by
    cases hp : s.phase i <;> simp_all [CallPhase.isSet]
  have hI := rpcInv_run cs as s h
  simp only [run] at h'
  split at h'
  · cases h'
  · rename_i u hu
    have hIu : RpcInv u ∧ HandInv u := ⟨rpcInv_step cs s _ u hI.2 hI.1 hu, handInv_step cs s _ u hI.1 hI.2 hu⟩
    have hWu : WakeInv p i (s.call i).slot u := by
      unfold State.step at hu
      split at hu
      · cases hu
      simp only at hu
      split at hu
      · split at hu
        · cases hu
          exact ⟨hi, hset, rfl, hrem, Or.inr (Or.inr (by simp only [State.onPacket, upd_same]; exact Or.inl hm))⟩
        · cases hu
      · cases hu
    have hfin := run_inv (I := fun s' => (RpcInv s' ∧ HandInv s') ∧ WakeInv p i (s.call i).slot s')
      (fun s a t hI h => ⟨⟨rpcInv_step cs s a t hI.1.2 hI.1.1 h, handInv_step cs s a t hI.1.1 hI.1.2 h⟩,
        wakeInv_step cs p i _ s a t hI.1.1 hI.2 h⟩) bs u t ⟨hIu, hWu⟩ h'
    have hreq : t.req i = false := by
      rcases hfin.2.prog with h | h | h
      · rw [hd] at h; cases h
      · exact absurd hr h
      · rw [hidle] at h; exact h
    refine ⟨hreq, ?_⟩
    obtain ⟨ids, _, h2, h3⟩ := hfin.1.1.sent
    rw [h3]
    exact List.mem_map.mpr ⟨i, (h2 i).mpr ⟨hfin.2.isSet, hreq⟩, rfl⟩

/-- The hypotheses can be met: the part of `remoteActs` before and behind its first ready packet. -/
example : ∃ s, run (State.step dockDemo) State.init (remoteActs.take 13) = some s ∧
    (s.n, s.phase 0, s.call 0, s.remote nameC, s.req 0, (run (State.step dockDemo) s (.recv 1 (.ready [nameC]) ::
      (remoteActs.drop 14).take 6)).map fun t => (t.handler 1, t.dead, t.rpcs 77, t.index 0, t.req 0)) =
    (1, .waiting, ⟨nameC, methM, [], true⟩, some 1, true, some (.idle, false, some 0, 77, false)) := witness rfl

/-! ## C77: One connection per remote dock -/

/-- The dials a dock makes: the addresses of the query responses it received, in order. -/
def dialOf : Ev → Option Str
  | .recv _ (.queryResponse addr) => some addr
  | _ => none

/-- C77 (refuted): two calls of the same remote feature each ask the hub, and the dock dials the address it gets twice:
two peers belong to the same remote address. -/
theorem C77_two_connections_refuted : ∃ cs as s, run (State.step cs) State.init as = some s ∧
    ∃ addr, s.log.filterMap dialOf = [addr, addr] ∧ Sock.dialled 1 ∈ s.sockets ∧ Sock.dialled 2 ∈ s.sockets := by
  obtain ⟨s, h, e⟩ := witness (cs := dockDemo) (as := [.dialHub 0, .storeHub, .call ⟨nameC, methM, [], true⟩ 5,
      .call ⟨nameC, methM, [], true⟩ 6, .store 0, .store 1, .setReq 0, .setReq 1, .commit 0, .commit 1,
      .recv 0 (.queryResponse [49]), .dialOK 0 1, .work 0 [], .recv 0 (.queryResponse [49]), .dialOK 0 2, .work 0 []])
    (f := fun s => (s.log.filterMap dialOf, s.sockets)) (b := ([[49], [49]], [.hub, .dialled 1, .dialled 2])) rfl
  simp only [Prod.mk.injEq] at e
  exact ⟨dockDemo, _, s, h, [49], e.1, by rw [e.2]; simp, by rw [e.2]; simp⟩

end Verif.Props
