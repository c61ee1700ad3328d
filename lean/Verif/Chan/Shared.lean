import Verif.Chan.Records
import Verif.Net.Shared

/-!
# Arguments of local calls, which caller and method share, /repo/chancall/caller.go:16-44

A local call passes the slice of its arguments to the callee as it is; the slices and maps in it are the same memory for the
caller and for the method.  This adds the memory to the model of `Chan/Callee`.  Simplified: the values of the arguments that
decide whether the call panics (`args`) are given separately.
-/

namespace Verif.Chan.Shared

open Verif Verif.Codec Verif.Codec.Heap

/-- Callees and callers with their memory, /repo/chancall/data.go:11-17. -/
structure Joint where
  st : State
  mem : Mem
  /-- by request: `args`, a slice -/
  arg : Nat → RVal
  /-- history: by request, the memory at the time of the call -/
  before : Nat → Mem

/-- The steps of `Chan/Callee`, and changes of the memory.  /repo/chancall/caller.go:16-44 -/
inductive JAct where
  /-- a call with arguments `r`, /repo/chancall/caller.go:16-22 -/
  | call (callee caller : Nat) (meth : Str) (args : List Val) (parent : Option Nat) (r : RVal)
  /-- any other step -/
  | chan (a : Act)
  /-- any goroutine changes an element of an array -/
  | write (c i : Nat) (r : RVal)
  /-- any goroutine changes a map -/
  | put (c : Nat) (es : List (Val × RVal))

/-- A call.  /repo/chancall/caller.go:16, 31 -/
def Act.isCall : Act → Bool
  | .call _ _ _ _ _ => true
  | _ => false

/-- At the beginning, /repo/chancall/API.go:26-43. -/
def Joint.init (T : Nat → Target) (h : Mem) : Joint := ⟨.init T, h, fun _ => .flat .nil, fun _ => h⟩

/-- One step.  /repo/chancall/callee.go:22-78 and /repo/chancall/caller.go:16-64. -/
def Joint.step (T : Nat → Target) (s : Joint) (a : JAct) : Option Joint :=
  match a with
  | .call callee caller meth args parent r =>
    (s.st.step T (.call callee caller meth args parent)).map fun t =>
      { s with st := t, arg := upd s.arg s.st.n r, before := upd s.before s.st.n s.mem }
  | .chan a => if Act.isCall a then none else (s.st.step T a).map fun t => { s with st := t }
  | .write c i r => some { s with mem := s.mem.write c i r }
  | .put c es => some { s with mem := s.mem.put c es }

/-- The steps of `Chan/Callee` among the steps.  Not in the code: for /repo/chancall/callee.go:22-78. -/
def JAct.plain : JAct → Option Act
  | .call callee caller meth args parent _ => some (.call callee caller meth args parent)
  | .chan a => some a
  | .write _ _ _ => none
  | .put _ _ => none

theorem plain_run {T : Nat → Target} : ∀ (acts : List JAct) (s t : Joint), run (Joint.step T) s acts = some t →
    run (State.step T) s.st (acts.filterMap JAct.plain) = some t.st := by
  intro acts
  induction acts with
  | nil => intro s t h; cases h; rfl
  | cons a acts ih =>
    intro s t h
    simp only [run] at h
    split at h
    · cases h
    · rename_i u hu
      have h2 := ih u t h
      cases a with
      | call callee caller meth args parent r =>
        simp only [Joint.step, Option.map_eq_some_iff] at hu
        obtain ⟨x, hx, rfl⟩ := hu
        simp only [List.filterMap_cons, JAct.plain, run, hx]
        exact h2
      | chan a =>
        simp only [Joint.step] at hu
        split at hu
        · cases hu
        · simp only [Option.map_eq_some_iff] at hu
          obtain ⟨x, hx, rfl⟩ := hu
          simp only [List.filterMap_cons, JAct.plain, run, hx]
          exact h2
      | write c i r => cases hu; exact h2
      | put c es => cases hu; exact h2

/-- Nobody changes the arguments of a call while its caller waits. -/
def Polite (s : Joint) : JAct → Prop
  | .write c i _ => ∀ k, k < s.st.n → s.st.result k = none → ¬ Has s.mem (s.arg k) (.elem c i)
  | .put c _ => ∀ k, k < s.st.n → s.st.result k = none → ¬ Has s.mem (s.arg k) (.map c)
  | _ => True

/-- This holds in the whole execution. -/
def PoliteRun (T : Nat → Target) (s0 : Joint) (acts : List JAct) : Prop :=
  AllSteps (Joint.step T) s0 acts Polite

theorem step_keeps {T : Nat → Target} {s t : State} {a : Act} (ha : Act.isCall a = false) (h : s.step T a = some t) :
    t.n = s.n ∧ ∀ k, t.result k = none → s.result k = none := by
  unfold State.step at h
  split at h
  · cases h
  cases a with
  | call => cases ha
  | receive i =>
    simp only at h
    split at h
    · split at h
      · cases h
        refine ⟨rfl, fun k hk => ?_⟩
        simp only [upd] at hk
        split at hk
        · cases hk
        · exact hk
      · cases h
    · cases h
  | _ =>
    simp only at h
    repeat' split at h
    all_goals first
      | (cases h; done)
      | (cases h; exact ⟨rfl, fun k hk => hk⟩)

theorem call_keeps {T : Nat → Target} {s t : State} {callee caller : Nat} {meth : Str} {args : List Val} {parent : Option Nat}
    (h : s.step T (.call callee caller meth args parent) = some t) : t.n = s.n + 1 ∧ t.result = s.result := by
  unfold State.step at h
  split at h
  · cases h
  simp only at h
  repeat' split at h
  all_goals first
    | (cases h; done)
    | (cases h; exact ⟨rfl, rfl⟩)

/-- The arguments of all calls that have not returned are as they were. -/
def Kept (s : Joint) : Prop := ∀ k, k < s.st.n → s.st.result k = none → Agree (s.before k) s.mem (s.arg k)

theorem kept_step {T : Nat → Target} {s t : Joint} {a : JAct} (I : Kept s) (hp : Polite s a) (h : s.step T a = some t) :
    Kept t := by
  cases a with
  | call callee caller meth args parent r =>
    simp only [Joint.step, Option.map_eq_some_iff] at h
    obtain ⟨x, hx, rfl⟩ := h
    obtain ⟨h1, h2⟩ := call_keeps hx
    intro k hk hr
    simp only [h1, h2] at hk hr
    simp only [upd]
    split
    · exact Net.Shared.agree_refl _ _
    · exact I k (by omega) hr
  | chan a =>
    simp only [Joint.step] at h
    split at h
    · cases h
    · rename_i hc
      simp only [Option.map_eq_some_iff] at h
      obtain ⟨x, hx, rfl⟩ := h
      obtain ⟨h1, h2⟩ := step_keeps (by simpa using hc) hx
      intro k hk hr
      exact I k (by simpa only [h1] using hk) (h2 k hr)
  | write c i r => cases h; exact fun k hk hr => Net.Shared.same_write (I k hk hr) (hp k hk hr)
  | put c es => cases h; exact fun k hk hr => Net.Shared.same_put (I k hk hr) (hp k hk hr)

theorem kept_run {T : Nat → Target} : ∀ (acts : List JAct) (s t : Joint), Kept s → PoliteRun T s acts →
    run (Joint.step T) s acts = some t → Kept t := by
  intro acts
  induction acts with
  | nil => intro s t I _ h; cases h; exact I
  | cons a acts ih =>
    intro s t I hp h
    simp only [run] at h
    split at h
    · cases h
    · rename_i u hu
      refine ih u t (kept_step I (hp [] a acts s rfl rfl) hu) ?_ h
      intro pre b post x e hx
      refine hp (a :: pre) b post x (by rw [e]; rfl) ?_
      simp only [run, hu]
      exact hx

end Verif.Chan.Shared
