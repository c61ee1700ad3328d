import Verif.Dock.Facts

/-!
# Invariants of the dock
-/

namespace Verif.Dock

open Verif Verif.Codec Verif.Proto

/-- A response with index `x` and content `r` has arrived. -/
def Answered (log : List Ev) (x : BitVec 64) (r : Ret) : Prop :=
  ∃ p slot meth, Ev.recv p (.rpcResponse x slot meth r.result r.err) ∈ log

theorem Answered.mono {log : List Ev} {x : BitVec 64} {r : Ret} (h : Answered log x r) (l : List Ev) :
    Answered (log ++ l) x r := by
  obtain ⟨p, slot, meth, h⟩ := h
  exact ⟨p, slot, meth, List.mem_append_left _ h⟩

/-- The result a call has received. -/
def CallPhase.result : CallPhase → Option Ret
  | .received r => some r
  | .returned r => some r
  | _ => none

/-- The call has set `r.req`. -/
def CallPhase.isSet : CallPhase → Bool
  | .created => false
  | .stored => false
  | _ => true

/-- A request packet in the history. -/
def requestOf : Ev → Option Proto
  | .sent _ (.rpcRequest a b c d e) => some (.rpcRequest a b c d e)
  | _ => none

structure RpcInv (s : State) : Prop where
  fresh : ∀ i, s.n ≤ i → s.phase i = .created
  unset : ∀ i, (s.phase i).isSet = false → s.req i = false
  rpcs : ∀ x i, s.rpcs x = some i → i < s.n ∧ s.index i = x
  cbFresh : ∀ k, s.nc ≤ k → (s.cb k).phase = .over
  cb : ∀ k, k < s.nc → s.index (s.cb k).rpc = (s.cb k).index ∧ (s.cb k).rpc < s.n ∧
    Answered s.log (s.cb k).index (s.cb k).ret
  chan : ∀ i r, s.chan i = some r → Answered s.log (s.index i) r ∧ i < s.n
  result : ∀ i r, (s.phase i).result = some r → Answered s.log (s.index i) r
  sent : ∃ ids : List Nat, ids.Nodup ∧ (∀ i, i ∈ ids ↔ (s.phase i).isSet = true ∧ s.req i = false) ∧
    s.log.filterMap requestOf = ids.map s.request

theorem RpcInv.init : RpcInv State.init := by
  constructor <;> simp [State.init, CallPhase.isSet, CallPhase.result]

theorem RpcInv.lt {s : State} (hI : RpcInv s) {i : Nat} (h : (s.phase i).isSet = true) : i < s.n := by
  rcases Nat.lt_or_ge i s.n with h' | h'
  · exact h'
  · rw [hI.fresh i h'] at h; cases h

/-- Actions that change nothing relevant and send no requests. -/
theorem rpcInv_same {s t : State} {l : List Ev} (hI : RpcInv s) (hn : t.n = s.n) (hc : t.call = s.call)
    (hi : t.index = s.index) (hp : t.phase = s.phase) (hq : t.req = s.req) (hch : t.chan = s.chan)
    (hr : t.rpcs = s.rpcs) (hnc : t.nc = s.nc) (hcb : t.cb = s.cb) (hl : t.log = s.log ++ l)
    (hreq : l.filterMap requestOf = []) : RpcInv t := by
  have hrq : t.request = s.request := by funext i; simp [State.request, hc, hi]
  constructor
  · rw [hn, hp]; exact hI.fresh
  · rw [hp, hq]; exact hI.unset
  · rw [hr, hn, hi]; exact hI.rpcs
  · rw [hnc, hcb]; exact hI.cbFresh
  · rw [hnc, hcb, hi, hn, hl]
    intro k hk
    obtain ⟨h1, h2, h3⟩ := hI.cb k hk
    exact ⟨h1, h2, h3.mono l⟩
  · rw [hch, hi, hn, hl]
    intro i r h
    exact ⟨(hI.chan i r h).1.mono l, (hI.chan i r h).2⟩
  · rw [hp, hi, hl]
    intro i r h
    exact (hI.result i r h).mono l
  · rw [hp, hq, hl, hrq, List.filterMap_append, hreq, List.append_nil]
    exact hI.sent

/-- A change of the phase of one call, without effect on what counts. -/
theorem rpcInv_phase {s t : State} {i : Nat} {ph : CallPhase} (hI : RpcInv s) (hn : t.n = s.n) (hc : t.call = s.call)
    (hi : t.index = s.index) (hp : t.phase = upd s.phase i ph) (hq : t.req = s.req) (hch : t.chan = s.chan)
    (hr : t.rpcs = s.rpcs) (hnc : t.nc = s.nc) (hcb : t.cb = s.cb) (hl : t.log = s.log)
    (h1 : ph.isSet = (s.phase i).isSet) (h2 : ∀ r, ph.result = some r → Answered s.log (s.index i) r) (h3 : i < s.n) :
    RpcInv t := by
  have hrq : t.request = s.request := by funext i; simp [State.request, hc, hi]
  have hset : ∀ j, (upd s.phase i ph j).isSet = (s.phase j).isSet := by
    intro j; by_cases e : j = i
    · subst e; simp [h1]
    · rw [upd_other _ _ e]
  constructor
  · rw [hn, hp]; intro j hj
    rw [upd_other _ _ (by omega)]; exact hI.fresh j hj
  · rw [hp, hq]; intro j hj
    rw [hset] at hj; exact hI.unset j hj
  · rw [hr, hn, hi]; exact hI.rpcs
  · rw [hnc, hcb]; exact hI.cbFresh
  · rw [hnc, hcb, hi, hn, hl]; exact hI.cb
  · rw [hch, hi, hn, hl]; exact hI.chan
  · rw [hp, hi, hl]
    intro j r h
    by_cases e : j = i
    · subst e; rw [upd_same] at h; exact h2 r h
    · rw [upd_other _ _ e] at h; exact hI.result j r h
  · rw [hp, hq, hl, hrq]
    obtain ⟨ids, hd, hm, he⟩ := hI.sent
    exact ⟨ids, hd, fun j => by rw [hset]; exact hm j, he⟩

theorem requestOf_query (l : List (Nat × Sock)) (slot : Str) :
    (l.map (fun e => Ev.sent e.1 (.queryRequest slot))).filterMap requestOf = [] := by
  induction l with
  | nil => rfl
  | cons a l ih => rw [List.map_cons, List.filterMap_cons, ih]; rfl

/-- `commit` keeps the invariant and changes only `req`, `dead` and `log`. -/
theorem rpcInv_commit {s : State} {i : Nat} (hI : RpcInv s) (hset : (s.phase i).isSet = true) :
    RpcInv (s.doCommit i) := by
  unfold State.doCommit
  split
  · rename_i hreq
    split
    · have hrq : ∀ (b : Nat → Bool) (l : List Ev), ({ s with req := b, log := l } : State).request = s.request := by
        intro b l; rfl
      constructor <;> try simp only
      · exact hI.fresh
      · intro j hj
        by_cases e : j = i
        · subst e; simp
        · rw [upd_other _ _ e]; exact hI.unset j hj
      · exact hI.rpcs
      · exact hI.cbFresh
      · intro k hk
        obtain ⟨h1, h2, h3⟩ := hI.cb k hk
        exact ⟨h1, h2, h3.mono _⟩
      · intro j r h
        exact ⟨(hI.chan j r h).1.mono _, (hI.chan j r h).2⟩
      · intro j r h
        exact (hI.result j r h).mono _
      · obtain ⟨ids, hd, hm, he⟩ := hI.sent
        have hni : i ∉ ids := by rw [hm]; simp [hreq]
        refine ⟨ids ++ [i], ?_, ?_, ?_⟩
        · rw [List.nodup_append]
          exact ⟨hd, by simp, fun a ha b hb => by simp at hb; subst hb; exact fun e => hni (e ▸ ha)⟩
        · intro j
          by_cases e : j = i
          · subst e; simp [hset]
          · rw [upd_other _ _ e]; simp [e, hm]
        · rw [List.filterMap_append, he, hrq, List.map_append]
          rfl
    · split
      · exact rpcInv_same (l := []) hI rfl rfl rfl rfl rfl rfl rfl rfl rfl (List.append_nil _).symm rfl
      · exact rpcInv_same hI rfl rfl rfl rfl rfl rfl rfl rfl rfl rfl (requestOf_query _ _)
  · exact rpcInv_same (l := []) hI rfl rfl rfl rfl rfl rfl rfl rfl rfl (List.append_nil _).symm rfl

/-- Invariant: a handler that is going to commit a call has seen its request. -/
def HandInv (s : State) : Prop :=
  ∀ p, match s.handler p with
    | .tested _ _ _ _ i => (s.phase i).isSet = true
    | .commit _ _ _ _ i => (s.phase i).isSet = true
    | _ => True

theorem doCommit_same (s : State) (i : Nat) :
    (s.doCommit i).n = s.n ∧ (s.doCommit i).call = s.call ∧ (s.doCommit i).index = s.index ∧
    (s.doCommit i).phase = s.phase ∧ (s.doCommit i).chan = s.chan ∧ (s.doCommit i).chanClosed = s.chanClosed ∧
    (s.doCommit i).rpcs = s.rpcs ∧ (s.doCommit i).remote = s.remote ∧ (s.doCommit i).sockets = s.sockets ∧
    (s.doCommit i).peers = s.peers ∧ (s.doCommit i).handler = s.handler ∧ (s.doCommit i).nc = s.nc ∧
    (s.doCommit i).cb = s.cb ∧ (s.doCommit i).nx = s.nx ∧ (s.doCommit i).exec = s.exec ∧
    (s.doCommit i).greeting = s.greeting ∧ (s.doCommit i).ports = s.ports ∧
    (s.doCommit i).hubPending = s.hubPending ∧ ∃ l, (s.doCommit i).log = s.log ++ l := by
  unfold State.doCommit
  repeat' split
  all_goals exact ⟨rfl, rfl, rfl, rfl, rfl, rfl, rfl, rfl, rfl, rfl, rfl, rfl, rfl, rfl, rfl, rfl, rfl, rfl,
    by first | exact ⟨_, rfl⟩ | exact ⟨[], by simp⟩⟩

theorem handInv_step (cs : List Carried) (s : State) (a : Act) (t : State) (hI : RpcInv s) (hH : HandInv s)
    (h : s.step cs a = some t) : HandInv t := by
  have key : ∀ t : State, (∀ i, (s.phase i).isSet = true → (t.phase i).isSet = true) → t.handler = s.handler →
      HandInv t := by
    intro t h1 h2 q
    have := hH q
    rw [h2]
    cases hq : s.handler q <;> simp only [hq] at this ⊢
    all_goals exact h1 _ this
  have key2 : ∀ (t : State) (p : Nat) (hd : Handler), t.phase = s.phase → t.handler = upd s.handler p hd →
      (match hd with
        | .tested _ _ _ _ i => (s.phase i).isSet = true
        | .commit _ _ _ _ i => (s.phase i).isSet = true
        | _ => True) → HandInv t := by
    intro t p hd h1 h2 h3 q
    rw [h1, h2]
    by_cases e : q = p
    · subst e; rw [upd_same]; exact h3
    · rw [upd_other _ _ e]; exact hH q
  have kp : ∀ (i : Nat) (ph : CallPhase), ((s.phase i).isSet = true → ph.isSet = true) → ∀ j,
      (s.phase j).isSet = true → (upd s.phase i ph j).isSet = true := by
    intro i ph h1 j h2
    by_cases e : j = i
    · subst e; rw [upd_same]; exact h1 h2
    · rw [upd_other _ _ e]; exact h2
  unfold State.step at h
  split at h
  · cases h
  cases a with
  | work p order =>
    simp only [State.work] at h
    have hp := hH p
    repeat' split at h
    all_goals cases h
    all_goals simp only [*] at hp
    all_goals first
      | exact key2 _ p _ rfl rfl trivial
      | exact key2 _ p _ rfl rfl hp
      | exact key2 _ p _ (doCommit_same s _).2.2.2.1 rfl trivial
      | exact key _ (fun _ h => h) rfl
  | recv p pkt =>
    simp only at h
    split at h
    · split at h
      · cases h
        unfold State.onPacket
        repeat' split
        all_goals first
          | exact key2 _ p _ rfl rfl trivial
          | exact key _ (fun _ h => h) rfl
      · cases h
    · cases h
  | visit p i =>
    simp only at h
    repeat' split at h
    all_goals cases h
    · refine key2 _ p _ rfl rfl ?_
      simp only
      rename_i hr
      cases hs : (s.phase i).isSet
      · rw [hI.unset i hs] at hr; cases hr
      · rfl
    · exact key2 _ p _ rfl rfl trivial
  | commit i =>
    simp only at h
    split at h
    · cases h
      exact key _ (by
        simp only; exact kp i _ (fun _ => rfl)) (doCommit_same s i).2.2.2.2.2.2.2.2.2.2.1
    · cases h
  | call c clock =>
    simp only at h
    split at h
    · cases h; exact key _ (fun _ h => h) rfl
    · cases h
      refine key _ (kp _ _ ?_) rfl
      rw [hI.fresh s.n (Nat.le_refl _)]; exact id
  | dialOK p e =>
    simp only at h
    repeat' split at h
    all_goals cases h
    exact key2 _ p _ rfl rfl trivial
  | _ =>
    simp only [State.connected] at h
    repeat' split at h
    all_goals cases h
    all_goals first
      | exact key _ (fun _ h => h) rfl
      | (rename_i hph; exact key _ (kp _ _ (by rw [hph]; exact id)) rfl)
      | (rename_i hph; exact key _ (kp _ _ (fun _ => rfl)) rfl)
      | exact key _ (kp _ _ (fun _ => rfl)) rfl

set_option maxHeartbeats 1000000 in
theorem rpcInv_step (cs : List Carried) (s : State) (a : Act) (t : State) (hH : HandInv s) (hI : RpcInv s)
    (h : s.step cs a = some t) : RpcInv t := by
  unfold State.step at h
  split at h
  · cases h
  cases a with
  | call c clock =>
    simp only at h
    split at h
    · cases h
      exact rpcInv_same hI rfl rfl rfl rfl rfl rfl rfl rfl rfl rfl rfl
    · cases h
      have hph : ∀ j, upd s.phase s.n CallPhase.created j = s.phase j := by
        intro j; by_cases e : j = s.n
        · subst e; rw [upd_same]; exact (hI.fresh _ (Nat.le_refl _)).symm
        · rw [upd_other _ _ e]
      have hix : ∀ j, j < s.n → upd s.index s.n clock j = s.index j := by
        intro j hj; rw [upd_other _ _ (by omega)]
      have hph' : upd s.phase s.n CallPhase.created = s.phase := funext hph
      constructor <;> simp only [hph']
      · intro j hj; exact hI.fresh j (by omega)
      · exact hI.unset
      · intro x i h
        obtain ⟨h1, h2⟩ := hI.rpcs x i h
        exact ⟨by omega, by rw [hix i h1]; exact h2⟩
      · exact hI.cbFresh
      · intro k hk
        obtain ⟨h1, h2, h3⟩ := hI.cb k hk
        exact ⟨by rw [hix _ h2]; exact h1, by omega, h3.mono _⟩
      · intro i r h
        obtain ⟨h1, h2⟩ := hI.chan i r h
        rw [hix i h2]
        exact ⟨h1.mono _, by omega⟩
      · intro i r h
        have hlt : i < s.n := hI.lt (by cases hp : s.phase i <;> simp_all [CallPhase.result, CallPhase.isSet])
        rw [hix i hlt]
        exact (hI.result i r h).mono _
      · obtain ⟨ids, hd, hm, he⟩ := hI.sent
        refine ⟨ids, hd, hm, ?_⟩
        rw [List.filterMap_append, he]
        simp only [requestOf, List.filterMap_cons, List.filterMap_nil, List.append_nil]
        refine List.map_congr_left ?_
        intro i hi
        have hlt : i < s.n := hI.lt ((hm i).mp hi).1
        simp [State.request, upd_other _ _ (Nat.ne_of_lt hlt)]
  | store i =>
    simp only at h
    repeat' split at h
    all_goals cases h
    rename_i hlt _ hph
    have hI' : RpcInv { s with rpcs := upd s.rpcs (s.index i) (some i) } := by
      refine ⟨hI.fresh, hI.unset, ?_, hI.cbFresh, hI.cb, hI.chan, hI.result, hI.sent⟩
      intro x j hx
      simp only at hx
      by_cases e : x = s.index i
      · subst e; rw [upd_same] at hx; cases hx; exact ⟨hlt, rfl⟩
      · rw [upd_other _ _ e] at hx; exact hI.rpcs x j hx
    exact rpcInv_phase hI' rfl rfl rfl rfl rfl rfl rfl rfl rfl rfl (by simp [hph, CallPhase.isSet])
      (by intro r hr; cases hr) hlt
  | setReq i =>
    simp only at h
    split at h
    · cases h
      rename_i hph
      have hlt : i < s.n := by
        rcases Nat.lt_or_ge i s.n with h' | h'
        · exact h'
        · rw [hI.fresh i h'] at hph; cases hph
      constructor <;> try simp only
      · intro j hj; rw [upd_other _ _ (by omega)]; exact hI.fresh j hj
      · intro j hj
        by_cases e : j = i
        · subst e; rw [upd_same] at hj; cases hj
        · rw [upd_other _ _ e] at hj ⊢; exact hI.unset j hj
      · exact hI.rpcs
      · exact hI.cbFresh
      · exact hI.cb
      · exact hI.chan
      · intro j r hr
        by_cases e : j = i
        · subst e; rw [upd_same] at hr; cases hr
        · rw [upd_other _ _ e] at hr; exact hI.result j r hr
      · obtain ⟨ids, hd, hm, he⟩ := hI.sent
        refine ⟨ids, hd, ?_, he⟩
        intro j
        by_cases e : j = i
        · subst e; rw [upd_same, upd_same, hm]; simp [hph, CallPhase.isSet]
        · rw [upd_other _ _ e, upd_other _ _ e]; exact hm j
    · cases h
  | commit i =>
    simp only at h
    split at h
    · cases h
      rename_i hph
      have hs := doCommit_same s i
      have hI' := rpcInv_commit (i := i) hI (by rw [hph]; rfl)
      refine rpcInv_phase (i := i) (ph := .waiting) hI' rfl rfl rfl ?_ rfl rfl rfl rfl rfl rfl ?_ ?_ ?_
      · simp only [hs.2.2.2.1]
      · rw [hs.2.2.2.1, hph]; rfl
      · intro r hr; cases hr
      · rw [hs.1]; exact hI.lt (by rw [hph]; rfl)
    · cases h
  | receive i =>
    simp only at h
    split at h
    · cases h
      rename_i r hph hch
      have hI' : RpcInv { s with chan := upd s.chan i none } := by
        refine ⟨hI.fresh, hI.unset, hI.rpcs, hI.cbFresh, hI.cb, ?_, hI.result, hI.sent⟩
        intro j r hj
        simp only at hj
        by_cases e : j = i
        · subst e; rw [upd_same] at hj; cases hj
        · rw [upd_other _ _ e] at hj; exact hI.chan j r hj
      exact rpcInv_phase hI' rfl rfl rfl rfl rfl rfl rfl rfl rfl rfl (by simp [hph, CallPhase.isSet])
        (by intro r' hr; cases hr; exact (hI.chan i r hch).1) (hI.lt (by rw [hph]; rfl))
    · cases h
  | closeChan i =>
    simp only at h
    split at h
    · cases h
      rename_i r hph
      exact rpcInv_phase hI rfl rfl rfl rfl rfl rfl rfl rfl rfl rfl (by simp [hph, CallPhase.isSet])
        (by intro r' hr; cases hr; exact hI.result i r (by rw [hph]; rfl)) (hI.lt (by rw [hph]; rfl))
    · cases h
  | recv p pkt =>
    simp only at h
    split at h
    · split at h
      · cases h
        have hI' : RpcInv { s with log := s.log ++ [.recv p pkt] } :=
          rpcInv_same hI rfl rfl rfl rfl rfl rfl rfl rfl rfl rfl rfl
        unfold State.onPacket
        cases pkt with
        | rpcResponse index slot meth result err =>
          simp only
          split
          · rename_i i hi
            have hi' := hI.rpcs _ _ hi
            constructor <;> try simp only
            · exact hI.fresh
            · exact hI.unset
            · exact hI.rpcs
            · intro k hk; rw [upd_other _ _ (by omega)]; exact hI.cbFresh k (by omega)
            · intro k hk
              by_cases e : k = s.nc
              · subst e; rw [upd_same]
                exact ⟨hi'.2, hi'.1, p, slot, meth, by simp⟩
              · rw [upd_other _ _ e]; exact hI'.cb k (by simp only; omega)
            · exact hI'.chan
            · exact hI'.result
            · exact hI'.sent
          · exact hI'
        | rpcRequest index slot meth args wr =>
          simp only
          split
          · exact rpcInv_same (l := []) hI' rfl rfl rfl rfl rfl rfl rfl rfl rfl (List.append_nil _).symm rfl
          · exact hI'
        | registerResponse port =>
          exact rpcInv_same (l := [.listen port]) hI' rfl rfl rfl rfl rfl rfl rfl rfl rfl rfl rfl
        | _ => exact rpcInv_same (l := []) hI' rfl rfl rfl rfl rfl rfl rfl rfl rfl (List.append_nil _).symm rfl
      · cases h
    · cases h
  | work p order =>
    simp only [State.work] at h
    have hp := hH p
    repeat' split at h
    all_goals cases h
    all_goals simp only [*] at hp
    all_goals first
      | exact rpcInv_same (l := []) hI rfl rfl rfl rfl rfl rfl rfl rfl rfl (List.append_nil _).symm rfl
      | exact rpcInv_same hI rfl rfl rfl rfl rfl rfl rfl rfl rfl rfl rfl
      | exact rpcInv_same (l := []) (rpcInv_commit hI hp) rfl rfl rfl rfl rfl rfl rfl rfl rfl (List.append_nil _).symm rfl
  | callback k =>
    simp only at h
    repeat' split at h
    all_goals cases h
    · exact rpcInv_same (l := []) hI rfl rfl rfl rfl rfl rfl rfl rfl rfl (List.append_nil _).symm rfl
    · rename_i hph _ _ _
      have hk : k < s.nc := by
        rcases Nat.lt_or_ge k s.nc with h' | h'
        · exact h'
        · rw [hI.cbFresh k h'] at hph; cases hph
      obtain ⟨h1, h2, h3⟩ := hI.cb k hk
      constructor <;> try simp only
      · exact hI.fresh
      · exact hI.unset
      · exact hI.rpcs
      · intro j hj; rw [upd_other _ _ (by omega)]; exact hI.cbFresh j hj
      · intro j hj
        by_cases e : j = k
        · subst e; rw [upd_same]; exact hI.cb _ hj
        · rw [upd_other _ _ e]; exact hI.cb j hj
      · intro i r hi
        by_cases e : i = (s.cb k).rpc
        · subst e; rw [upd_same] at hi; cases hi
          rw [h1]; exact ⟨h3, h2⟩
        · rw [upd_other _ _ e] at hi; exact hI.chan i r hi
      · exact hI.result
      · exact hI.sent
  | delete k =>
    simp only at h
    split at h
    · cases h
      rename_i hph
      have hk : k < s.nc := by
        rcases Nat.lt_or_ge k s.nc with h' | h'
        · exact h'
        · rw [hI.cbFresh k h'] at hph; cases hph
      constructor <;> try simp only
      · exact hI.fresh
      · exact hI.unset
      · intro x i hx
        by_cases e : x = (s.cb k).index
        · subst e; rw [upd_same] at hx; cases hx
        · rw [upd_other _ _ e] at hx; exact hI.rpcs x i hx
      · intro j hj; rw [upd_other _ _ (by omega)]; exact hI.cbFresh j hj
      · intro j hj
        by_cases e : j = k
        · subst e; rw [upd_same]; exact hI.cb _ hj
        · rw [upd_other _ _ e]; exact hI.cb j hj
      · exact hI.chan
      · exact hI.result
      · exact hI.sent
    · cases h
  | _ =>
    simp only [State.connected] at h
    repeat' split at h
    all_goals cases h
    all_goals first
      | exact rpcInv_same (l := []) hI rfl rfl rfl rfl rfl rfl rfl rfl rfl (List.append_nil _).symm rfl
      | exact rpcInv_same hI rfl rfl rfl rfl rfl rfl rfl rfl rfl rfl rfl

/-- All invariants together hold in every reachable state. -/
theorem rpcInv_run (cs : List Carried) (as : List Act) (s : State)
    (h : run (State.step cs) State.init as = some s) : RpcInv s ∧ HandInv s :=
  run_inv (I := fun s => RpcInv s ∧ HandInv s)
    (fun s a t hI h => ⟨rpcInv_step cs s a t hI.2 hI.1 h, handInv_step cs s a t hI.1 hI.2 h⟩) as State.init s
    ⟨RpcInv.init, fun p => by simp [State.init]⟩ h

end Verif.Dock
