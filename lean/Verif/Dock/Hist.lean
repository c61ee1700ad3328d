import Verif.Dock.Inv

/-!
# What the history of a dock can contain
-/

namespace Verif.Dock

open Verif Verif.Codec Verif.Proto

/-- The call of a `called` entry. -/
def calledOf : Ev → Option Call
  | .called c => some c
  | _ => none

/-- A call handed to a feature of this dock by a goroutine of this dock. -/
def localOf : Ev → Option (Nat × Call)
  | .invoke none f c => some (f, c)
  | _ => none

/-- A call handed to a feature of this dock on behalf of a peer: peer, index, feature and call. -/
def remoteOf : Ev → Option (Nat × BitVec 64 × Nat × Call)
  | .invoke (some (p, x)) f c => some (p, x, f, c)
  | _ => none

/-- A received request for a feature of this dock. -/
def askedOf (cs : List Carried) : Ev → Option (Nat × BitVec 64 × Nat × Call)
  | .recv p (.rpcRequest x slot meth args wr) =>
    (slotsOf cs slot).map fun c => (p, x, c.feature, ⟨slot, meth, args, wr⟩)
  | _ => none

/-- What a dock may send. -/
def OkSent (cs : List Carried) (log : List Ev) (p : Nat) : Proto → Prop
  | .rpcRequest _ slot _ _ _ => slotsOf cs slot = none
  | .queryRequest slot => slotsOf cs slot = none
  | .ready order => order.isPerm (collectOf cs) = true
  | .registerRequest order => order.isPerm (collectOf cs) = true
  | .rpcResponse x slot meth result err => ∃ f args wr r, Ev.returned (p, x) f ⟨slot, meth, args, wr⟩ r ∈ log ∧
      result = (if wr then r.result else []) ∧ err = r.err
  | _ => False

theorem OkSent.mono {cs : List Carried} {log : List Ev} {p : Nat} {pkt : Proto} (h : OkSent cs log p pkt)
    (l : List Ev) : OkSent cs (log ++ l) p pkt := by
  cases pkt with
  | rpcResponse x slot meth result err =>
    obtain ⟨f, args, wr, r, h1, h2⟩ := h
    exact ⟨f, args, wr, r, List.mem_append_left _ h1, h2⟩
  | _ => exact h

def Exec.key (x : Exec) : Nat × BitVec 64 × Nat × Call := (x.peer, x.index, x.feature, x.call)

/-- The execution has been handed to package chancall. -/
def ExecPhase.invoked : ExecPhase → Bool
  | .spawned => false
  | _ => true

def ExecPhase.ret : ExecPhase → Option Ret
  | .returned r => some r
  | _ => none

structure HistInv (cs : List Carried) (s : State) : Prop where
  callRemote : ∀ i, i < s.n → slotsOf cs (s.call i).slot = none
  sent : ∀ p pkt, Ev.sent p pkt ∈ s.log → OkSent cs s.log p pkt
  locals : s.log.filterMap localOf =
    (s.log.filterMap calledOf).filterMap (fun c => (slotsOf cs c.slot).map fun f => (f.feature, c))
  asked : s.log.filterMap (askedOf cs) = (List.range s.nx).map fun k => (s.exec k).key
  execFresh : ∀ k, s.nx ≤ k → (s.exec k).phase = .over
  invoked : ∃ ids : List Nat, ids.Nodup ∧ (∀ k, k ∈ ids ↔ k < s.nx ∧ (s.exec k).phase.invoked = true) ∧
    s.log.filterMap remoteOf = ids.map fun k => (s.exec k).key
  returned : ∀ k r, (s.exec k).phase.ret = some r →
    Ev.returned ((s.exec k).peer, (s.exec k).index) (s.exec k).feature (s.exec k).call r ∈ s.log
  origin : ∀ p x f c r, Ev.returned (p, x) f c r ∈ s.log → Ev.invoke (some (p, x)) f c ∈ s.log
  isRun : ∀ k, (s.exec k).phase.invoked = true → k < s.nx →
    Ev.invoke (some ((s.exec k).peer, (s.exec k).index)) (s.exec k).feature (s.exec k).call ∈ s.log

theorem HistInv.init (cs : List Carried) : HistInv cs State.init := by
  constructor <;> simp [State.init, ExecPhase.ret, ExecPhase.invoked]

/-- No entry of `l` is about calls or executions. -/
def Quiet (cs : List Carried) (l : List Ev) : Prop :=
  ∀ e ∈ l, localOf e = none ∧ calledOf e = none ∧ remoteOf e = none ∧ askedOf cs e = none ∧
    ∀ p x f c r, e ≠ .returned (p, x) f c r

theorem filterMap_none {α β : Type} {g : α → Option β} {l : List α} (h : ∀ a ∈ l, g a = none) :
    l.filterMap g = [] := by
  induction l with
  | nil => rfl
  | cons a l ih =>
    rw [List.filterMap_cons, h a (List.mem_cons_self ..)]
    exact ih fun b hb => h b (List.mem_cons_of_mem _ hb)

/-- Actions without effect on executions. -/
theorem histInv_quiet {cs : List Carried} {s t : State} {l : List Ev} (hI : HistInv cs s) (hn : t.n = s.n)
    (hc : t.call = s.call) (hx : t.nx = s.nx) (he : t.exec = s.exec) (hl : t.log = s.log ++ l) (hq : Quiet cs l)
    (hs : ∀ p pkt, Ev.sent p pkt ∈ l → OkSent cs t.log p pkt) : HistInv cs t := by
  have h1 : ∀ e ∈ l, localOf e = none := fun e h => (hq e h).1
  have h2 : ∀ e ∈ l, calledOf e = none := fun e h => (hq e h).2.1
  have h3 : ∀ e ∈ l, remoteOf e = none := fun e h => (hq e h).2.2.1
  have h4 : ∀ e ∈ l, askedOf cs e = none := fun e h => (hq e h).2.2.2.1
  constructor
  · rw [hn, hc]; exact hI.callRemote
  · rw [hl] at hs ⊢
    intro p pkt h
    rcases List.mem_append.mp h with h | h
    · exact (hI.sent p pkt h).mono l
    · exact hs p pkt h
  · rw [hl, List.filterMap_append, List.filterMap_append, filterMap_none h1, filterMap_none h2, List.append_nil,
      List.append_nil]
    exact hI.locals
  · rw [hl, List.filterMap_append, filterMap_none h4, List.append_nil, hx, he]; exact hI.asked
  · rw [hx, he]; exact hI.execFresh
  · rw [hl, List.filterMap_append, filterMap_none h3, List.append_nil, hx, he]; exact hI.invoked
  · rw [hl, he]; intro k r h; exact List.mem_append_left _ (hI.returned k r h)
  · rw [hl]; intro p x f c r h
    rcases List.mem_append.mp h with h | h
    · exact List.mem_append_left _ (hI.origin p x f c r h)
    · exact absurd rfl ((hq _ h).2.2.2.2 p x f c r)
  · rw [hl, hx, he]; intro k h1 h2; exact List.mem_append_left _ (hI.isRun k h1 h2)

theorem quiet_nil (cs : List Carried) : Quiet cs [] := by intro e h; cases h

theorem quiet_sent (cs : List Carried) (p : Nat) (pkt : Proto) : Quiet cs [.sent p pkt] := by
  intro e h; simp at h; subst h; exact ⟨rfl, rfl, rfl, rfl, by simp⟩

/-- `commit` keeps the invariant. -/
theorem histInv_commit {cs : List Carried} {s : State} {i : Nat} (hI : HistInv cs s) (hi : i < s.n) :
    HistInv cs (s.doCommit i) := by
  have hr := hI.callRemote i hi
  unfold State.doCommit
  repeat' split
  · refine histInv_quiet (l := [.sent _ (s.request i)]) hI rfl rfl rfl rfl rfl (quiet_sent cs _ _) ?_
    intro p pkt h
    simp at h
    obtain ⟨rfl, rfl⟩ := h
    exact hr
  · exact histInv_quiet (l := []) hI rfl rfl rfl rfl (List.append_nil _).symm (quiet_nil cs) (by simp)
  · refine histInv_quiet hI rfl rfl rfl rfl rfl ?_ ?_
    · intro e h
      obtain ⟨a, _, rfl⟩ := List.mem_map.mp h
      exact ⟨rfl, rfl, rfl, rfl, by simp⟩
    · intro p pkt h
      obtain ⟨a, _, h⟩ := List.mem_map.mp h
      cases h
      exact hr
  · exact histInv_quiet (l := []) hI rfl rfl rfl rfl (List.append_nil _).symm (quiet_nil cs) (by simp)

theorem key_upd {s : State} {k : Nat} {ph : ExecPhase} :
    (fun j => (upd s.exec k { s.exec k with phase := ph } j).key) = fun j => (s.exec j).key := by
  funext j
  by_cases e : j = k
  · subst e; rw [upd_same]; rfl
  · rw [upd_other _ _ e]

set_option maxHeartbeats 1000000 in
theorem histInv_step (cs : List Carried) (s : State) (a : Act) (t : State) (hR : RpcInv s) (hH : HandInv s)
    (hI : HistInv cs s) (h : s.step cs a = some t) : HistInv cs t := by
  unfold State.step at h
  split at h
  · cases h
  cases a with
  | greet e order =>
    simp only at h
    split at h
    · cases h
      rename_i ho
      refine histInv_quiet hI rfl rfl rfl rfl rfl (quiet_sent cs _ _) ?_
      intro p pkt h
      simp at h
      obtain ⟨rfl, rfl⟩ := h
      exact ho.2
    · cases h
  | call c clock =>
    simp only at h
    split at h
    · rename_i f hf
      cases h
      constructor <;> try simp only
      · exact hI.callRemote
      · intro p pkt h
        simp at h
        exact (hI.sent p pkt h).mono _
      · simp [List.filterMap_append, List.filterMap_cons, hI.locals, localOf, calledOf, hf]
      · simp [List.filterMap_append, List.filterMap_cons, hI.asked, askedOf]
      · exact hI.execFresh
      · simpa [List.filterMap_append, List.filterMap_cons, remoteOf] using hI.invoked
      · intro k r h; exact List.mem_append_left _ (hI.returned k r h)
      · intro p x f c r h
        simp at h
        exact List.mem_append_left _ (hI.origin p x f c r h)
      · intro k h1 h2; exact List.mem_append_left _ (hI.isRun k h1 h2)
    · rename_i hf
      cases h
      constructor <;> try simp only
      · intro i hi
        by_cases e : i = s.n
        · subst e; rw [upd_same]; exact hf
        · rw [upd_other _ _ e]; exact hI.callRemote i (by omega)
      · intro p pkt h
        simp at h
        exact (hI.sent p pkt h).mono _
      · simp [List.filterMap_append, List.filterMap_cons, hI.locals, localOf, calledOf, hf]
      · simp [List.filterMap_append, List.filterMap_cons, hI.asked, askedOf]
      · exact hI.execFresh
      · simpa [List.filterMap_append, List.filterMap_cons, remoteOf] using hI.invoked
      · intro k r h; exact List.mem_append_left _ (hI.returned k r h)
      · intro p x f c r h
        simp at h
        exact List.mem_append_left _ (hI.origin p x f c r h)
      · intro k h1 h2; exact List.mem_append_left _ (hI.isRun k h1 h2)
  | commit i =>
    simp only at h
    split at h
    · cases h
      rename_i hph
      exact histInv_quiet (l := []) (histInv_commit hI (hR.lt (by rw [hph]; rfl))) rfl rfl rfl rfl
        (List.append_nil _).symm (quiet_nil cs) (by simp)
    · cases h
  | recv p pkt =>
    simp only at h
    split at h
    · split at h
      · cases h
        unfold State.onPacket
        cases pkt with
        | rpcRequest index slot meth args wr =>
          simp only
          split
          · rename_i c hc
            have hk : ∀ k, k < s.nx → upd s.exec s.nx
                (⟨p, index, ⟨slot, meth, args, wr⟩, c.feature, .spawned⟩ : Exec) k = s.exec k := by
              intro k hk; rw [upd_other _ _ (by omega)]
            constructor <;> try simp only
            · exact hI.callRemote
            · intro p pkt h
              simp at h
              exact (hI.sent p pkt h).mono _
            · simp [List.filterMap_append, List.filterMap_cons, hI.locals, localOf, calledOf]
            · rw [List.filterMap_append, hI.asked, List.range_succ, List.map_append]
              congr 1
              · refine List.map_congr_left ?_
                intro k h
                rw [hk k (List.mem_range.mp h)]
              · simp [List.filterMap_cons, askedOf, hc, Exec.key]
            · intro k h; rw [upd_other _ _ (by omega)]; exact hI.execFresh k (by omega)
            · obtain ⟨ids, h1, h2, h3⟩ := hI.invoked
              refine ⟨ids, h1, ?_, ?_⟩
              · intro k
                by_cases e : k = s.nx
                · subst e; rw [h2, upd_same]; simp [ExecPhase.invoked]
                · rw [upd_other _ _ e, h2]
                  constructor
                  · rintro ⟨h, h'⟩; exact ⟨by omega, h'⟩
                  · rintro ⟨h, h'⟩; exact ⟨by omega, h'⟩
              · rw [List.filterMap_append, h3]
                simp only [remoteOf, List.filterMap_cons, List.filterMap_nil, List.append_nil]
                refine List.map_congr_left ?_
                intro k h
                rw [hk k ((h2 k).mp h).1]
            · intro k r h
              by_cases e : k = s.nx
              · subst e; rw [upd_same] at h; cases h
              · rw [upd_other _ _ e] at h ⊢
                exact List.mem_append_left _ (hI.returned k r h)
            · intro p x f c r h
              simp at h
              exact List.mem_append_left _ (hI.origin p x f c r h)
            · intro k h h'
              by_cases e : k = s.nx
              · subst e; rw [upd_same] at h; cases h
              · rw [upd_other _ _ e] at h ⊢
                exact List.mem_append_left _ (hI.isRun k h (by omega))
          · rename_i hc
            refine histInv_quiet hI rfl rfl rfl rfl rfl ?_ (by simp)
            intro e h; simp at h; subst h
            exact ⟨rfl, rfl, rfl, by simp [askedOf, hc], by simp⟩
        | registerResponse port =>
          refine histInv_quiet (l := [.recv p (.registerResponse port), .listen port]) hI rfl rfl rfl rfl (by simp) ?_ (by simp)
          intro e h
          simp at h
          rcases h with rfl | rfl <;> exact ⟨rfl, rfl, rfl, rfl, by simp⟩
        | rpcResponse index slot meth result err =>
          simp only
          split
          all_goals
            refine histInv_quiet (l := [.recv p _]) hI rfl rfl rfl rfl rfl ?_ (by simp)
            intro e h; simp at h; subst h
            exact ⟨rfl, rfl, rfl, rfl, by simp⟩
        | _ =>
          refine histInv_quiet (l := [.recv p _]) hI rfl rfl rfl rfl rfl ?_ (by simp)
          intro e h; simp at h; subst h
          exact ⟨rfl, rfl, rfl, rfl, by simp⟩
      · cases h
    · cases h
  | work p order =>
    simp only [State.work] at h
    have hp := hH p
    repeat' split at h
    all_goals cases h
    all_goals simp only [*] at hp
    all_goals first
      | exact histInv_quiet (l := []) hI rfl rfl rfl rfl (List.append_nil _).symm (quiet_nil cs) (by simp)
      | exact histInv_quiet (l := []) (histInv_commit hI (hR.lt hp)) rfl rfl rfl rfl (List.append_nil _).symm
          (quiet_nil cs) (by simp)
      | skip
    · rename_i ho
      refine histInv_quiet hI rfl rfl rfl rfl rfl (quiet_sent cs _ _) ?_
      intro p pkt h
      simp at h
      obtain ⟨rfl, rfl⟩ := h
      exact ho
    · rename_i ho
      refine histInv_quiet hI rfl rfl rfl rfl rfl ?_ ?_
      · intro e h
        simp at h
        rcases h with rfl | rfl <;> exact ⟨rfl, rfl, rfl, rfl, by simp⟩
      intro p pkt h
      simp at h
      obtain ⟨rfl, rfl⟩ := h
      exact ho
  | invoke k =>
    simp only at h
    split at h
    · cases h
      rename_i hph
      have hlt : k < s.nx := by
        rcases Nat.lt_or_ge k s.nx with h' | h'
        · exact h'
        · rw [hI.execFresh k h'] at hph; cases hph
      constructor <;> try simp only
      · exact hI.callRemote
      · intro p pkt h
        simp at h
        exact (hI.sent p pkt h).mono _
      · simp [List.filterMap_append, List.filterMap_cons, hI.locals, localOf, calledOf]
      · rw [List.filterMap_append, hI.asked, key_upd]; simp [List.filterMap_cons, askedOf]
      · intro j hj; rw [upd_other _ _ (by omega)]; exact hI.execFresh j hj
      · obtain ⟨ids, h1, h2, h3⟩ := hI.invoked
        have hni : k ∉ ids := by rw [h2, hph]; simp [ExecPhase.invoked]
        refine ⟨ids ++ [k], ?_, ?_, ?_⟩
        · rw [List.nodup_append]
          exact ⟨h1, by simp, fun a ha b hb => by simp at hb; subst hb; exact fun e => hni (e ▸ ha)⟩
        · intro j
          by_cases e : j = k
          · subst e; simp [hlt, ExecPhase.invoked]
          · rw [upd_other _ _ e]; simp [e, h2]
        · rw [List.filterMap_append, h3, key_upd, List.map_append]
          rfl
      · intro j r h
        by_cases e : j = k
        · subst e; rw [upd_same] at h; cases h
        · rw [upd_other _ _ e] at h ⊢; exact List.mem_append_left _ (hI.returned j r h)
      · intro p x f c r h
        simp at h
        exact List.mem_append_left _ (hI.origin p x f c r h)
      · intro j h h'
        by_cases e : j = k
        · subst e; rw [upd_same]; simp
        · rw [upd_other _ _ e] at h ⊢; exact List.mem_append_left _ (hI.isRun j h h')
    · cases h
  | finish k r =>
    simp only at h
    split at h
    · cases h
      rename_i hph
      have hlt : k < s.nx := by
        rcases Nat.lt_or_ge k s.nx with h' | h'
        · exact h'
        · rw [hI.execFresh k h'] at hph; cases hph
      have hinv : ∀ j, ((upd s.exec k { s.exec k with phase := .returned r }) j).phase.invoked =
          (s.exec j).phase.invoked := by
        intro j; by_cases e : j = k
        · subst e; rw [upd_same, hph]; rfl
        · rw [upd_other _ _ e]
      constructor <;> try simp only
      · exact hI.callRemote
      · intro p pkt h
        simp at h
        exact (hI.sent p pkt h).mono _
      · simp [List.filterMap_append, List.filterMap_cons, hI.locals, localOf, calledOf]
      · rw [List.filterMap_append, hI.asked, key_upd]; simp [List.filterMap_cons, askedOf]
      · intro j hj; rw [upd_other _ _ (by omega)]; exact hI.execFresh j hj
      · obtain ⟨ids, h1, h2, h3⟩ := hI.invoked
        refine ⟨ids, h1, ?_, ?_⟩
        · intro j; rw [hinv]; exact h2 j
        · rw [List.filterMap_append, h3, key_upd]; simp [List.filterMap_cons, remoteOf]
      · intro j r' h
        by_cases e : j = k
        · subst e; rw [upd_same] at h ⊢; cases h; simp
        · rw [upd_other _ _ e] at h ⊢; exact List.mem_append_left _ (hI.returned j r' h)
      · intro p x f c r' h
        simp at h
        refine List.mem_append_left _ ?_
        rcases h with h | ⟨⟨rfl, rfl⟩, rfl, rfl, rfl⟩
        · exact hI.origin p x f c r' h
        · exact hI.isRun k (by rw [hph]; rfl) hlt
      · intro j h h'
        rw [hinv] at h
        have := hI.isRun j h h'
        by_cases e : j = k
        · subst e; rw [upd_same]; exact List.mem_append_left _ this
        · rw [upd_other _ _ e]; exact List.mem_append_left _ this
    · cases h
  | respond k =>
    simp only at h
    split at h
    · rename_i r hph
      cases h
      have hlt : k < s.nx := by
        rcases Nat.lt_or_ge k s.nx with h' | h'
        · exact h'
        · rw [hI.execFresh k h'] at hph; cases hph
      have hinv : ∀ j, ((upd s.exec k { s.exec k with phase := .over }) j).phase.invoked =
          (s.exec j).phase.invoked := by
        intro j; by_cases e : j = k
        · subst e; rw [upd_same, hph]; rfl
        · rw [upd_other _ _ e]
      constructor <;> try simp only
      · exact hI.callRemote
      · intro p pkt h
        simp at h
        rcases h with h | ⟨rfl, rfl⟩
        · exact (hI.sent p pkt h).mono _
        · refine OkSent.mono (log := s.log) ?_ _
          exact ⟨(s.exec k).feature, (s.exec k).call.args, (s.exec k).call.withResult, r,
            hI.returned k r (by rw [hph]; rfl), rfl, rfl⟩
      · simp [List.filterMap_append, List.filterMap_cons, hI.locals, localOf, calledOf]
      · rw [List.filterMap_append, hI.asked, key_upd]; simp [List.filterMap_cons, askedOf]
      · intro j hj; rw [upd_other _ _ (by omega)]; exact hI.execFresh j hj
      · obtain ⟨ids, h1, h2, h3⟩ := hI.invoked
        refine ⟨ids, h1, ?_, ?_⟩
        · intro j; rw [hinv]; exact h2 j
        · rw [List.filterMap_append, h3, key_upd]; simp [List.filterMap_cons, remoteOf]
      · intro j r' h
        by_cases e : j = k
        · subst e; rw [upd_same] at h; cases h
        · rw [upd_other _ _ e] at h ⊢; exact List.mem_append_left _ (hI.returned j r' h)
      · intro p x f c r' h
        simp at h
        exact List.mem_append_left _ (hI.origin p x f c r' h)
      · intro j h h'
        rw [hinv] at h
        have := hI.isRun j h h'
        by_cases e : j = k
        · subst e; rw [upd_same]; exact List.mem_append_left _ this
        · rw [upd_other _ _ e]; exact List.mem_append_left _ this
    · cases h
  | _ =>
    simp only [State.connected] at h
    repeat' split at h
    all_goals cases h
    all_goals exact histInv_quiet (l := []) hI rfl rfl rfl rfl (List.append_nil _).symm (quiet_nil cs) (by simp)

/-- All invariants hold in every reachable state. -/
theorem histInv_run (cs : List Carried) (as : List Act) (s : State)
    (h : run (State.step cs) State.init as = some s) : HistInv cs s :=
  (run_inv (I := fun s => (RpcInv s ∧ HandInv s) ∧ HistInv cs s)
    (fun s a t hI h => ⟨⟨rpcInv_step cs s a t hI.1.2 hI.1.1 h, handInv_step cs s a t hI.1.1 hI.1.2 h⟩,
      histInv_step cs s a t hI.1.1 hI.1.2 hI.2 h⟩) as State.init s
    ⟨⟨RpcInv.init, fun p => by simp [State.init]⟩, HistInv.init cs⟩ h).2

end Verif.Dock
