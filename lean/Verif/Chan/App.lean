import Verif.Chan.Records
import Verif.Chan.Meta

/-!
# Objects whose methods are known

`Verif.Chan` lets the bodies of methods return anything.  Here the objects behind the callees are those of a given
application: for every method its parameter types and what it may return for which parameters.
-/

namespace Verif.Chan

open Verif Verif.Codec

/-- A method of the target object: /repo/chancall/meta.go:22-42 reads the parameter types, 44-62 runs it. -/
structure Method where
  params : List PTy
  /-- called with these parameters it may return these results -/
  yields : List Val → List Val → Prop

/-- The objects behind the callees: by callee and name, the exported methods (/repo/chancall/meta.go:31-42). -/
abbrev Objects := Nat → Str → Option Method

/-- The callees with these objects, /repo/chancall/API.go:26-34. -/
def Objects.targets (o : Conv) (A : Objects) (c : Nat) : Target := targetOf o fun m => (A c m).map (·.params)

/-- The bodies of the methods do what the application says: a method that returns `res` yields it for the parameters it was
given, /repo/chancall/meta.go:47-60. -/
def Follows (o : Conv) (A : Objects) (s : State) : Act → Prop
  | .ret c res => ∀ q, s.handler c = .running q → ∀ M ps, A c (s.req q).meth = some M →
      convertArgs o M.params (s.req q).args = .ok ps → M.yields ps res
  | _ => True

/-- What `ret` holds in executions that follow the application.  Not in the code: /repo/chancall/meta.go:44-62 leaves to
the method what it returns. -/
structure AppInv (o : Conv) (A : Objects) (s : State) : Prop where
  running : ∀ c q, s.handler c = .running q →
    q < s.n ∧ (s.req q).callee = c ∧ (A.targets o c).invoke (s.req q).meth (s.req q).args = .runs
  unknown : ∀ q, s.ret q = some none → q < s.n ∧ A (s.req q).callee (s.req q).meth = none
  known : ∀ q v, s.ret q = some (some v) → q < s.n ∧ ∃ M ps, A (s.req q).callee (s.req q).meth = some M ∧
    convertArgs o M.params (s.req q).args = .ok ps ∧ M.yields ps v

theorem invoke_runs {o : Conv} {A : Objects} {c : Nat} {m : Str} {args : List Val}
    (h : (A.targets o c).invoke m args = .runs) : ∃ M ps, A c m = some M ∧ convertArgs o M.params args = .ok ps := by
  unfold Objects.targets targetOf Target.invoke at h
  cases hm : A c m with
  | none => simp [hm] at h
  | some M =>
    cases hc : convertArgs o M.params args <;> simp [hm, hc] at h
    exact ⟨M, _, rfl, hc⟩

theorem invoke_unknown {o : Conv} {A : Objects} {c : Nat} {m : Str} {args : List Val}
    (h : (A.targets o c).invoke m args = .unknown) : A c m = none := by
  unfold Objects.targets targetOf Target.invoke at h
  cases hm : A c m with
  | none => rfl
  | some M => cases hc : convertArgs o M.params args <;> simp [hm, hc] at h

set_option maxHeartbeats 2000000 in
theorem appInv_step (o : Conv) (A : Objects) (s : State) (a : Act) (t : State) (B : AnsInv s) (I : AppInv o A s)
    (hf : Follows o A s a) (h : s.step (A.targets o) a = some t) : AppInv o A t := by
  obtain ⟨a1, a2, a3, a4, a5, a6, a7, a8, a9, a10, a11, a12⟩ := B
  obtain ⟨h1, h2, h3⟩ := I
  unfold State.step at h
  split at h
  · cases h
  cases a with
  | ret c res =>
    simp only at h
    repeat' split at h
    all_goals cases h
    rename_i q hq _
    obtain ⟨e1, e2, e3⟩ := h1 c q hq
    obtain ⟨M, ps, e4, e5⟩ := invoke_runs e3
    have e6 := hf q hq M ps e4 e5
    constructor <;> simp only [upd] <;> grind
  | start c =>
    simp only at h
    repeat' split at h
    all_goals cases h
    all_goals (constructor <;> simp only [upd] <;> grind [invoke_unknown])
  | _ =>
    simp only at h
    repeat' split at h
    all_goals cases h
    all_goals (constructor <;> (try simp only [upd]) <;> grind)

theorem appInv_init (o : Conv) (A : Objects) : AppInv o A (State.init (A.targets o)) := by
  constructor <;> intros <;> simp [State.init] at *

end Verif.Chan
