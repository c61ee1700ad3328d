import Verif.Chan.Callee

/-!
# Invariants of the chancall model
-/

namespace Verif.Chan

open Verif

/-- Which request a handler is busy with. -/
def Handler.busy : Handler → Option Nat
  | .idle => none
  | .running i => some i
  | .returned i _ => some i
  | .sending i _ => some i

/-- Which request a handler is sending the answer of. -/
def Handler.sends : Handler → Option Nat
  | .sending i _ => some i
  | _ => none

theorem Handler.busy_of_sends {h : Handler} {i : Nat} (e : h.sends = some i) : h.busy = some i := by
  cases h <;> simp_all [Handler.sends, Handler.busy]

/-- Where answers are: at most one place for each settled request. -/
structure AnsInv (s : State) : Prop where
  fresh : ∀ i, s.n ≤ i → s.pushed i = false ∧ s.done i = false ∧ s.timer i = .none ∧ s.result i = none ∧ s.ret i = none ∧
    s.startedAt i = none ∧ s.lock i = false
  inQueue : ∀ c i, i ∈ s.queue c → (s.req i).callee = c ∧ s.pushed i = true ∧ s.timer i = .none ∧ s.done i = false
  inHandler : ∀ c i, (s.handler c).busy = some i → (s.req i).callee = c ∧ s.pushed i = true ∧ s.timer i ≠ .none
  unpushed : ∀ i, s.pushed i = false → s.timer i = .none ∧ s.done i = false
  unstarted : ∀ i, s.timer i = .none → s.done i = false ∧ s.startedAt i = none
  queueNodup : ∀ c, (s.queue c).Nodup
  lockH : ∀ c i, (s.handler c).sends = some i → s.done i = true ∧ s.lock i = true ∧ s.timer i ≠ .sending
  lockT : ∀ i, s.timer i = .sending → s.done i = true ∧ s.lock i = true
  locked : ∀ i, s.lock i = true → s.timer i = .sending ∨ (s.handler (s.req i).callee).sends = some i
  chan : ∀ c j a, s.chan c = some (j, a) → s.done j = true ∧ (s.req j).caller = c ∧ s.lock j = false
  result : ∀ k j a, s.result k = some (j, a) → s.done j = true ∧ (s.req j).caller = (s.req k).caller ∧
    s.lock j = false ∧ ∀ a', s.chan (s.req j).caller ≠ some (j, a')
  once : ∀ k k' j a a', s.result k = some (j, a) → s.result k' = some (j, a') → k = k'

set_option maxHeartbeats 4000000 in
theorem ansInv_step (T : Nat → Target) (s : State) (a : Act) (t : State) (I : AnsInv s)
    (h : s.step T a = some t) : AnsInv t := by
  obtain ⟨h1, h2, h3, h4, h5, h6, h7, h8, h9, h10, h11, h12⟩ := I
  have hb : ∀ c i, (s.handler c).sends = some i → (s.req i).callee = c :=
    fun c i e => (h3 c i (Handler.busy_of_sends e)).1
  unfold State.step at h
  split at h
  · cases h
  cases a with
  | tick =>
    cases h
    constructor <;> simp only <;> assumption
  | setTimeout c m t =>
    simp only at h
    split at h <;> cases h <;> constructor <;> (try simp only) <;> assumption
  | wake i =>
    simp only at h
    repeat' split at h
    all_goals cases h
    constructor <;> simp only [upd] <;> grind [Handler.busy, Handler.sends]
  | settleT i =>
    simp only at h
    repeat' split at h
    all_goals cases h
    all_goals (constructor <;> simp only [upd] <;> grind [Handler.busy, Handler.sends])
  | call callee caller meth args parent =>
    simp only at h
    repeat' split at h
    all_goals cases h
    all_goals (constructor <;> simp only [upd] <;> grind [Handler.busy, Handler.sends])
  | push i =>
    simp only at h
    repeat' split at h
    all_goals cases h
    all_goals (constructor <;> simp only [upd] <;> grind [Handler.busy, Handler.sends])
  | start c =>
    simp only at h
    repeat' split at h
    all_goals cases h
    all_goals (constructor <;> simp only [upd] <;> grind [Handler.busy, Handler.sends])
  | ret c res =>
    simp only at h
    repeat' split at h
    all_goals cases h
    all_goals (constructor <;> simp only [upd] <;> grind [Handler.busy, Handler.sends])
  | settleH c =>
    simp only at h
    repeat' split at h
    all_goals cases h
    all_goals (constructor <;> simp only [upd] <;> grind [Handler.busy, Handler.sends])
  | deliverH c =>
    simp only at h
    repeat' split at h
    all_goals cases h
    all_goals (constructor <;> simp only [upd] <;> grind [Handler.busy, Handler.sends])
  | deliverT i =>
    simp only at h
    repeat' split at h
    all_goals cases h
    all_goals (constructor <;> simp only [upd] <;> grind [Handler.busy, Handler.sends])
  | receive i =>
    simp only at h
    repeat' split at h
    all_goals cases h
    all_goals (constructor <;> simp only [upd] <;> grind [Handler.busy, Handler.sends])

theorem ansInv_init (T : Nat → Target) : AnsInv (State.init T) := by
  constructor <;> simp [State.init, Handler.busy, Handler.sends]

end Verif.Chan
