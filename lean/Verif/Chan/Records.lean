import Verif.Chan.Facts

/-!
# Invariants of the chancall model: the recorded answers
-/

namespace Verif.Chan

open Verif

/-- What the recorded answers say. -/
structure RecInv (s : State) : Prop where
  count : ∀ i, (s.answers.map (·.1)).count i = if s.done i then 1 else 0
  chan : ∀ c j a, s.chan c = some (j, a) → ∃ t, (j, a, t) ∈ s.answers
  result : ∀ k j a, s.result k = some (j, a) → ∃ t, (j, a, t) ∈ s.answers
  sendH : ∀ c i r, s.handler c = .sending i r → ∃ t, (i, Ans.ok r, t) ∈ s.answers
  sendT : ∀ i, s.timer i = .sending → ∃ t, (i, Ans.timeout, t) ∈ s.answers
  retOK : ∀ i r t, (i, Ans.ok r, t) ∈ s.answers → s.ret i = some r
  retH : ∀ c i r, s.handler c = .returned i r → s.ret i = some r
  retR : ∀ c i, s.handler c = .running i → s.ret i = none
  retN : ∀ i, s.timer i = .none → s.ret i = none
  late : ∀ i t, (i, Ans.timeout, t) ∈ s.answers →
    ∃ t0 d, s.startedAt i = some (t0, d) ∧ t0 + sleepTime d ≤ t
  sleeping : ∀ i t, s.timer i = .sleeping t → ∃ t0 d, s.startedAt i = some (t0, d) ∧ t = t0 + sleepTime d
  woken : ∀ i, s.timer i = .woken → ∃ t0 d, s.startedAt i = some (t0, d) ∧ t0 + sleepTime d ≤ s.clock

set_option maxHeartbeats 4000000 in
theorem recInv_step (T : Nat → Target) (s : State) (a : Act) (t : State) (A : AnsInv s) (I : RecInv s)
    (h : s.step T a = some t) : RecInv t := by
  obtain ⟨a1, a2, a3, a4, a5, a6, a7, a8, a9, a10, a11, a12⟩ := A
  obtain ⟨h1, h2, h3, h4, h5, h6, h7, h8, h9, h10, h11, h12⟩ := I
  unfold State.step at h
  split at h
  · cases h
  cases a with
  | tick =>
    cases h
    constructor <;> (try simp only) <;> grind
  | setTimeout c m t =>
    simp only at h
    split at h <;> cases h <;> constructor <;> (try simp only) <;> assumption
  | wake i =>
    simp only at h
    repeat' split at h
    all_goals cases h
    all_goals (constructor <;> simp only [upd] <;> grind [Handler.busy, Handler.sends])
  | settleT i =>
    simp only at h
    repeat' split at h
    all_goals cases h
    all_goals (constructor <;> simp only [upd] <;> grind [Handler.busy, Handler.sends])
  | call callee caller meth args parent =>
    simp only at h
    repeat' split at h
    all_goals cases h
    all_goals (constructor <;> simp only [upd] <;> grind [Handler.busy, Handler.sends])
  | push i =>
    simp only at h
    repeat' split at h
    all_goals cases h
    all_goals (constructor <;> simp only [upd] <;> grind [Handler.busy, Handler.sends])
  | start c =>
    simp only at h
    repeat' split at h
    all_goals cases h
    all_goals
      constructor
      case sleeping =>
        intro k t e
        simp only [upd] at e ⊢
        split at e
        · rename_i hk; rw [if_pos hk]; cases e; exact ⟨_, _, rfl, rfl⟩
        · rename_i hk; rw [if_neg hk]; exact h11 k t e
      all_goals (simp only [upd]; grind [Handler.busy, Handler.sends])
  | ret c res =>
    simp only at h
    repeat' split at h
    all_goals cases h
    all_goals (constructor <;> simp only [upd] <;> grind [Handler.busy, Handler.sends])
  | settleH c =>
    simp only at h
    repeat' split at h
    all_goals cases h
    all_goals (constructor <;> simp only [upd] <;> grind [Handler.busy, Handler.sends])
  | deliverH c =>
    simp only at h
    repeat' split at h
    all_goals cases h
    all_goals (constructor <;> simp only [upd] <;> grind [Handler.busy, Handler.sends])
  | deliverT i =>
    simp only at h
    repeat' split at h
    all_goals cases h
    all_goals (constructor <;> simp only [upd] <;> grind [Handler.busy, Handler.sends])
  | receive i =>
    simp only at h
    repeat' split at h
    all_goals cases h
    all_goals (constructor <;> simp only [upd] <;> grind [Handler.busy, Handler.sends])

theorem recInv_init (T : Nat → Target) : RecInv (State.init T) := by
  constructor <;> simp [State.init]

/-- Both invariants hold in every reachable state. -/
theorem inv_run (T : Nat → Target) {acts : List Act} {s : State}
    (h : run (State.step T) (State.init T) acts = some s) : AnsInv s ∧ RecInv s :=
  run_inv (I := fun s => AnsInv s ∧ RecInv s)
    (fun s a t I h => ⟨ansInv_step T s a t I.1 h, recInv_step T s a t I.1 I.2 h⟩) acts _ _
    ⟨ansInv_init T, recInv_init T⟩ h

end Verif.Chan
