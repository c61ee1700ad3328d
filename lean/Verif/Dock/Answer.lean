import Verif.Dock.Hist

/-!
# Responses of a dock: each execution is answered at most once
-/

namespace Verif.Dock

open Verif Verif.Codec Verif.Proto

/-- A response in the history: peer and index. -/
def respOf : Ev → Option (Nat × BitVec 64)
  | .sent p (.rpcResponse x _ _ _ _) => some (p, x)
  | _ => none

def ExecPhase.isOver : ExecPhase → Bool
  | .over => true
  | _ => false

structure RespInv (s : State) : Prop where
  fresh : ∀ k, s.nx ≤ k → (s.exec k).phase = .over
  sent : ∃ ids : List Nat, ids.Nodup ∧ (∀ k, k ∈ ids ↔ k < s.nx ∧ (s.exec k).phase.isOver = true) ∧
    s.log.filterMap respOf = ids.map fun k => ((s.exec k).peer, (s.exec k).index)

theorem RespInv.init : RespInv State.init := by
  constructor <;> simp [State.init]

/-- Actions without effect on executions. -/
theorem respInv_same {s t : State} {l : List Ev} (I : RespInv s) (hx : t.nx = s.nx) (he : t.exec = s.exec)
    (hl : t.log = s.log ++ l) (h : ∀ e ∈ l, respOf e = none) : RespInv t := by
  obtain ⟨I1, ids, h1, h2, h3⟩ := I
  constructor
  · rw [hx, he]; exact I1
  · refine ⟨ids, h1, ?_, ?_⟩
    · rw [hx, he]; exact h2
    · rw [hl, he, List.filterMap_append, filterMap_none h, List.append_nil]; exact h3

/-- An execution proceeds without being answered. -/
theorem respInv_phase {s t : State} {l : List Ev} {k : Nat} {ph : ExecPhase} (I : RespInv s) (hx : t.nx = s.nx)
    (he : t.exec = upd s.exec k { s.exec k with phase := ph }) (hp : (s.exec k).phase.isOver = false)
    (hp' : ph.isOver = false) (hl : t.log = s.log ++ l) (h : ∀ e ∈ l, respOf e = none) : RespInv t := by
  obtain ⟨I1, ids, h1, h2, h3⟩ := I
  have hk : k < s.nx := by
    rcases Nat.lt_or_ge k s.nx with h' | h'
    · exact h'
    · rw [I1 k h'] at hp; cases hp
  constructor
  · intro j hj
    rw [hx] at hj
    rw [he, upd_other _ _ (by omega)]
    exact I1 j hj
  · refine ⟨ids, h1, ?_, ?_⟩
    · intro j
      rw [hx, he, h2]
      by_cases e : j = k
      · subst e; rw [upd_same, hp, hp']
      · rw [upd_other _ _ e]
    · rw [hl, List.filterMap_append, filterMap_none h, List.append_nil, h3, he]
      refine List.map_congr_left ?_
      intro j _
      by_cases e : j = k
      · subst e; rw [upd_same]
      · rw [upd_other _ _ e]

theorem respInv_commit {s : State} {i : Nat} (I : RespInv s) : RespInv (s.doCommit i) := by
  unfold State.doCommit
  repeat' split
  · exact respInv_same (l := [_]) I rfl rfl rfl (by simp [State.request, respOf])
  · exact respInv_same (l := []) I rfl rfl (List.append_nil _).symm (by simp)
  · refine respInv_same I rfl rfl rfl ?_
    intro e h
    obtain ⟨a, _, rfl⟩ := List.mem_map.mp h
    rfl
  · exact respInv_same (l := []) I rfl rfl (List.append_nil _).symm (by simp)

theorem respInv_step (cs : List Carried) (s : State) (a : Act) (t : State) (I : RespInv s)
    (h : s.step cs a = some t) : RespInv t := by
  unfold State.step at h
  split at h
  · cases h
  cases a with
  | commit i =>
    simp only at h
    split at h
    · cases h
      exact respInv_same (l := []) (respInv_commit (i := i) I) rfl rfl (List.append_nil _).symm (by simp)
    · cases h
  | recv p pkt =>
    simp only at h
    split at h
    · split at h
      · cases h
        unfold State.onPacket
        cases pkt with
        | rpcRequest x slot meth args wr =>
          simp only
          split
          · obtain ⟨I1, ids, h1, h2, h3⟩ := I
            constructor
            · intro j hj
              simp only at hj ⊢
              rw [upd_other _ _ (by omega)]
              exact I1 j (by omega)
            · refine ⟨ids, h1, ?_, ?_⟩
              · intro j
                simp only
                by_cases e : j = s.nx
                · subst e
                  rw [upd_same, h2]
                  simp [ExecPhase.isOver]
                · rw [upd_other _ _ e, h2]
                  constructor
                  · rintro ⟨a, b⟩; exact ⟨by omega, b⟩
                  · rintro ⟨a, b⟩; exact ⟨by omega, b⟩
              · simp only [List.filterMap_append, h3]
                simp only [List.filterMap_cons, respOf, List.filterMap_nil, List.append_nil]
                refine List.map_congr_left ?_
                intro j hj
                have := ((h2 j).mp hj).1
                rw [upd_other _ _ (by omega)]
          · exact respInv_same (l := [_]) I rfl rfl rfl (by simp [respOf])
        | rpcResponse x slot meth r e =>
          simp only
          split
          all_goals exact respInv_same (l := [_]) I rfl rfl rfl (by simp [respOf])
        | registerResponse port =>
          exact respInv_same (l := [_, _]) I rfl rfl (List.append_assoc ..) (by simp [respOf])
        | _ => exact respInv_same (l := [_]) I rfl rfl rfl (by simp [respOf])
      · cases h
    · cases h
  | work p order =>
    simp only [State.work] at h
    repeat' split at h
    all_goals cases h
    all_goals first
      | exact respInv_same (l := []) I rfl rfl (List.append_nil _).symm (by simp)
      | exact respInv_same (l := []) (respInv_commit I) rfl rfl (List.append_nil _).symm (by simp)
      | exact respInv_same (l := [_]) I rfl rfl rfl (by simp [respOf])
      | exact respInv_same (l := [_, _]) I rfl rfl rfl (by simp [respOf])
  | invoke k =>
    simp only at h
    split at h
    · cases h
      rename_i hp
      exact respInv_phase (l := [_]) I rfl rfl (by rw [hp]; rfl) rfl rfl (by simp [respOf])
    · cases h
  | finish k r =>
    simp only at h
    split at h
    · cases h
      rename_i hp
      exact respInv_phase (l := [_]) I rfl rfl (by rw [hp]; rfl) rfl rfl (by simp [respOf])
    · cases h
  | respond k =>
    simp only at h
    split at h
    · rename_i r hp
      cases h
      obtain ⟨I1, ids, h1, h2, h3⟩ := I
      have hk : k < s.nx := by
        rcases Nat.lt_or_ge k s.nx with h' | h'
        · exact h'
        · rw [I1 k h'] at hp; cases hp
      have hni : k ∉ ids := by rw [h2, hp]; simp [ExecPhase.isOver]
      constructor
      · intro j hj
        simp only at hj ⊢
        rw [upd_other _ _ (by omega)]
        exact I1 j hj
      · refine ⟨ids ++ [k], ?_, ?_, ?_⟩
        · rw [List.nodup_append]
          exact ⟨h1, by simp, fun a ha b hb => by simp at hb; subst hb; exact fun e => hni (e ▸ ha)⟩
        · intro j
          by_cases e : j = k
          · subst e; simp [hk, ExecPhase.isOver]
          · simp only; rw [upd_other _ _ e]; simp [e, h2]
        · simp only [List.filterMap_append, h3, List.map_append]
          simp only [List.filterMap_cons, respOf, List.filterMap_nil, List.map_cons, List.map_nil, upd_same]
          congr 1
          refine List.map_congr_left ?_
          intro j hj
          have e : j ≠ k := fun e => hni (e ▸ hj)
          rw [upd_other _ _ e]
    · cases h
  | _ =>
    simp only [State.connected] at h
    repeat' split at h
    all_goals cases h
    all_goals first
      | exact respInv_same (l := []) I rfl rfl (List.append_nil _).symm (by simp)
      | exact respInv_same (l := [_]) I rfl rfl rfl (by simp [respOf])
      | exact respInv_same (l := [_, _]) I rfl rfl rfl (by simp [respOf])

theorem respInv_run (cs : List Carried) (as : List Act) (s : State) (h : run (State.step cs) State.init as = some s) :
    RespInv s :=
  run_inv (respInv_step cs) as State.init s RespInv.init h

end Verif.Dock
