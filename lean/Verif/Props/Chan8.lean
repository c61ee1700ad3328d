import Verif.Chan.Shared
import Verif.Props.Chan1

/-! # C143: arguments of local calls -/

namespace Verif.Props

open Verif Verif.Chan Verif.Chan.Shared Verif.Codec Verif.Codec.Heap

/-- C143, until the timeout.  In all executions in which caller objects are not shared and nobody changes the arguments of a call
while its caller waits: whenever a method runs, its caller still waits and its arguments are what they were when the call was made;
or the call has returned the timeout error, not before the timeout since the method was started. -/
theorem C143_arguments_partial (T : Nat → Target) (h : Mem) (acts : List JAct) (s : Joint)
    (u : Unshared T (acts.filterMap JAct.plain)) (hp : PoliteRun T (Joint.init T h) acts)
    (hr : run (Joint.step T) (Joint.init T h) acts = some s) (c i : Nat) (hi : s.st.handler c = .running i) :
    (s.st.result i = none ∧ ∀ v, Unfolds (s.before i) (s.arg i) v → Unfolds s.mem (s.arg i) v) ∨
    (s.st.result i = some (i, .timeout) ∧ ∃ t0 d t, s.st.startedAt i = some (t0, d) ∧ (i, Ans.timeout, t) ∈ s.st.answers ∧
      t0 + sleepTime d ≤ t) := by
  have hs := plain_run acts _ _ hr
  obtain ⟨A, R⟩ := inv_run T hs
  have hn : i < s.st.n := by
    refine Classical.byContradiction fun hlt => ?_
    have h1 := (A.fresh i (by omega)).2.2.1
    exact (A.inHandler c i (by rw [hi]; rfl)).2.2 h1
  cases hx : s.st.result i with
  | none =>
    have K : Kept s := kept_run acts _ _ (fun k hk => absurd hk (Nat.not_lt_zero k)) hp hr
    exact .inl ⟨rfl, fun v hv => Agree.unfolds hv (K i hn hx)⟩
  | some x =>
    obtain ⟨j, a⟩ := x
    obtain ⟨rfl, h2⟩ := C36_own_answer T _ _ u hs i j a hx
    cases a with
    | ok r =>
      have := h2 r rfl
      rw [R.retR c j hi] at this
      cases this
    | timeout =>
      obtain ⟨t, ht⟩ := R.result _ _ _ hx
      obtain ⟨t0, d, h3, h4⟩ := R.late j t ht
      exact .inr ⟨rfl, t0, d, t, h3, ht, h4⟩

open Verif.Chan.Shared in
/-- The memory that `C143_arguments_partial` compares with is that of the time of the call, and the arguments are those of the
call. -/
theorem C143_at_call_partial (T : Nat → Target) (h : Mem) (acts : List JAct) (s : Joint)
    (hr : run (Joint.step T) (Joint.init T h) acts = some s) (i : Nat) (hi : i < s.st.n) :
    ∃ pre callee caller meth args parent post t, acts = pre ++ .call callee caller meth args parent (s.arg i) :: post ∧
      run (Joint.step T) (Joint.init T h) pre = some t ∧ t.st.n = i ∧ t.mem = s.before i := by
  induction hl : acts.length generalizing acts s with
  | zero =>
    rw [List.length_eq_zero_iff.mp hl] at hr
    cases hr
    cases hi
  | succ n ih =>
    rcases List.eq_nil_or_concat acts with rfl | ⟨pre, a, rfl⟩
    · cases hl
    · rw [List.concat_eq_append] at *
      rw [run_append] at hr
      cases hp : run (Joint.step T) (Joint.init T h) pre with
      | none => rw [hp] at hr; cases hr
      | some t =>
        rw [hp] at hr
        simp only [Option.bind_some, run] at hr
        split at hr
        · cases hr
        · rename_i u hu
          cases hr
          have old : i < t.st.n → s.arg i = t.arg i → s.before i = t.before i →
              ∃ p callee caller meth args parent q x, pre ++ [a] = p ++ .call callee caller meth args parent (s.arg i) :: q ∧
              run (Joint.step T) (Joint.init T h) p = some x ∧ x.st.n = i ∧ x.mem = s.before i := by
            intro ht e1 e2
            obtain ⟨p, c1, c2, m, ar, pa, q, x, e, h1, h2, h3⟩ := ih pre t hp ht (by simpa using hl)
            exact ⟨p, c1, c2, m, ar, pa, q ++ [a], x, by rw [e, e1]; simp, h1, h2, by rw [h3, e2]⟩
          cases a with
          | call callee caller meth args parent r =>
            simp only [Joint.step, Option.map_eq_some_iff] at hu
            obtain ⟨x, hx, rfl⟩ := hu
            by_cases he : i = t.st.n
            · subst he
              refine ⟨pre, callee, caller, meth, args, parent, [], t, by simp, hp, rfl, by simp⟩
            · have := (call_keeps hx).1
              simp only [this] at hi
              exact old (by omega) (by simp [upd, he]) (by simp [upd, he])
          | chan a =>
            simp only [Joint.step] at hu
            split at hu
            · cases hu
            · rename_i hc
              simp only [Option.map_eq_some_iff] at hu
              obtain ⟨x, hx, rfl⟩ := hu
              have := (step_keeps (by simpa using hc) hx).1
              exact old (by simpa only [this] using hi) rfl rfl
          | write c i r => cases hu; exact old hi rfl rfl
          | put c es => cases hu; exact old hi rfl rfl

/-- One slice of arguments with one element, true. -/
def argMem : Mem := ⟨fun _ => [.flat (.bool 0 true)], fun _ => []⟩

/-- A call whose method takes longer than its timeout; when the call has returned, the caller uses the slice for something else. -/
def lateCall : List JAct :=
  [.chan (.setTimeout 0 [97] 0), .call 0 0 [97] [] none (.slice .ifaceSlice 0 0 1), .chan (.push 0), .chan (.start 0), .chan (.wake 0),
    .chan (.settleT 0), .chan (.deliverT 0), .chan (.receive 0), .write 0 0 (.flat (.bool 0 false))]

private theorem unfolds_one {h : Mem} {x v : Val} (hx : h.elem 0 0 = .flat x) (hu : Unfolds h (.slice .ifaceSlice 0 0 1) v) :
    v = .seq .ifaceSlice [x] := by
  cases hu with
  | slice _ _ _ _ vs hl he =>
    match vs, hl with
    | [a], _ =>
      have h0 := he 0 (by omega)
      have h0 : Unfolds h (.flat x) a := hx ▸ h0
      cases h0
      rfl

private theorem unfolds_one_intro {h : Mem} {x : Val} (hx : h.elem 0 0 = .flat x) :
    Unfolds h (.slice .ifaceSlice 0 0 1) (.seq .ifaceSlice [x]) := by
  refine .slice _ _ _ _ [x] rfl fun i hi => ?_
  have : i = 0 := by omega
  subst this
  show Unfolds h (h.elem 0 0) x
  rw [hx]
  exact .flat x

/-- C143 refuted, though callers change their arguments only when their calls have returned: the method runs with true and sees
false later. -/
theorem C143_late_refuted : ∃ s, PoliteRun demo (Joint.init demo argMem) lateCall ∧
    run (Joint.step demo) (Joint.init demo argMem) lateCall = some s ∧ s.st.handler 0 = .running 0 ∧
    Unfolds (s.before 0) (s.arg 0) (.seq .ifaceSlice [.bool 0 true]) ∧
    Unfolds s.mem (s.arg 0) (.seq .ifaceSlice [.bool 0 false]) ∧ ¬ Unfolds s.mem (s.arg 0) (.seq .ifaceSlice [.bool 0 true]) := by
  have fact : ∀ {β : Type} {f : Joint → β} {x : β} {n : Nat} {s : Joint},
      (run (Joint.step demo) (Joint.init demo argMem) (lateCall.take n)).map f = some x →
      run (Joint.step demo) (Joint.init demo argMem) (lateCall.take n) = some s → f s = x := by
    intro β f x n s h1 h2
    rw [h2] at h1
    exact Option.some.inj h1
  obtain ⟨s, hs⟩ : ∃ s, run (Joint.step demo) (Joint.init demo argMem) (lateCall.take 9) = some s := ⟨_, rfl⟩
  have h1 : s.st.handler 0 = .running 0 := fact (f := fun s => s.st.handler 0) rfl hs
  have h2 : s.arg 0 = .slice .ifaceSlice 0 0 1 := fact (f := fun s => s.arg 0) rfl hs
  have h3 : (s.before 0).elem 0 0 = .flat (.bool 0 true) := fact (f := fun s => (s.before 0).elem 0 0) rfl hs
  have h4 : s.mem.elem 0 0 = .flat (.bool 0 false) := fact (f := fun s => s.mem.elem 0 0) rfl hs
  refine ⟨s, ?_, hs, h1, h2 ▸ unfolds_one_intro h3, h2 ▸ unfolds_one_intro h4, fun hu => ?_⟩
  · intro pre a post t e hr
    have ha : lateCall[pre.length]? = some a := by rw [e]; simp
    have hpre : pre = lateCall.take pre.length := by rw [e]; simp
    rw [hpre] at hr
    generalize pre.length = n at ha hr
    match n, ha with
    | 0, ha | 1, ha | 2, ha | 3, ha | 4, ha | 5, ha | 6, ha | 7, ha => cases ha; trivial
    | 8, ha =>
      cases ha
      have e1 : t.st.n = 1 := fact (f := fun s => s.st.n) rfl hr
      have e2 : t.st.result 0 = some (0, .timeout) := fact (f := fun s => s.st.result 0) rfl hr
      intro k hk hk'
      have : k = 0 := by omega
      subst this
      rw [e2] at hk'
      cases hk'
    | n + 9, ha => cases ha
  · rw [h2] at hu
    have := unfolds_one h4 hu
    cases this

/-- A state as in `C143_arguments_partial`: the method runs, and its caller waits. -/
example : ∃ s, run (Joint.step demo) (Joint.init demo argMem) (lateCall.take 4) = some s ∧ s.st.handler 0 = .running 0 ∧
    s.st.result 0 = none ∧ Unfolds s.mem (s.arg 0) (.seq .ifaceSlice [.bool 0 true]) :=
  ⟨_, rfl, rfl, rfl, unfolds_one_intro rfl⟩

end Verif.Props
