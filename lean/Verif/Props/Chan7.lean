import Verif.Chan.Variadic
import Verif.Props.Chan3

/-! # C140: methods with a variadic parameter -/

namespace Verif.Props

open Verif Verif.Chan Verif.Codec

/-- Objects without variadic methods are those of `targetOf`, so what is proved for them holds. -/
theorem targetOfSigs_plain (o : Conv) (methods : Str → Option (List PTy)) :
    targetOfSigs o (fun m => (methods m).map fun ps => ⟨ps, none⟩) = targetOf o methods := by
  unfold targetOfSigs targetOf
  congr 1
  · funext m; simp
  · funext m args
    dsimp only
    cases methods m with
    | none => rfl
    | some ps => simp only [Option.map_some, Sig.pass]; cases convertArgs o ps args <;> rfl

private theorem convert_cases (o : Conv) (p : PTy) (v : Val) : convert o p v = .panic ∨ ∃ w, convert o p v = .ok w := by
  unfold convert
  split <;> first | exact .inl rfl | exact .inr ⟨_, rfl⟩ | (split <;> first | exact .inl rfl | exact .inr ⟨_, rfl⟩)

private theorem convertArgs_cases (o : Conv) (ps : List PTy) (args : List Val) :
    convertArgs o ps args = .panic ∨ ∃ ws, convertArgs o ps args = .ok ws := by
  induction ps generalizing args with
  | nil => cases args <;> first | exact .inl rfl | exact .inr ⟨_, rfl⟩
  | cons p ps ih =>
    cases args with
    | nil => exact .inl rfl
    | cons v args =>
      simp only [convertArgs]
      rcases convert_cases o p v with e | ⟨w, e⟩
      · rw [e]; exact .inl rfl
      · rw [e]
        rcases ih args with e | ⟨ws, e⟩
        · rw [e]; exact .inl rfl
        · rw [e]; exact .inr ⟨_, rfl⟩

private theorem convertArgs_length {o : Conv} {ps : List PTy} {args ws : List Val} (h : convertArgs o ps args = .ok ws) :
    args.length = ps.length := by
  refine Classical.byContradiction fun hn => ?_
  rw [convertArgs_wrong o ps args (.inl hn)] at h
  cases h

/-- C140, what a variadic method gets.  For every type `T` and all arguments, a method with the parameters
`fixed, xs ...T` runs exactly if the arguments are suitable for the fixed parameters and there are no others, and then `xs` is
empty; or if there is exactly one other, it can be converted to `[]T`, and a `[]T` can be assigned to `T` (as for
`interface{}`), and then `xs` has one element, which is that whole slice.  In all other cases the call panics. -/
theorem C140_exact_partial (o : Conv) (fixed : List PTy) (slice : PTy) (self : Bool) (args : List Val) (r : List Val × List Val) :
    (Sig.pass o ⟨fixed, some (slice, self)⟩ args = .ok r ↔
      (convertArgs o fixed args = .ok r.1 ∧ r.2 = []) ∨
      (self = true ∧ ∃ front last w, args = front ++ [last] ∧ convertArgs o fixed front = .ok r.1 ∧
        convert o slice last = .ok w ∧ r.2 = [w])) ∧
    ((∀ r, Sig.pass o ⟨fixed, some (slice, self)⟩ args ≠ .ok r) → Sig.pass o ⟨fixed, some (slice, self)⟩ args = .panic) := by
  have split := List.take_append_drop fixed.length args
  constructor
  · constructor
    · intro h
      simp only [Sig.pass] at h
      rcases convertArgs_cases o fixed (args.take fixed.length) with e | ⟨ws, e⟩
      · rw [e] at h; cases h
      · rw [e] at h
        cases hd : args.drop fixed.length with
        | nil =>
          rw [hd] at h split
          cases h
          rw [List.append_nil] at split
          rw [split] at e
          exact .inl ⟨e, rfl⟩
        | cons v rest =>
          cases rest with
          | nil =>
            rw [hd] at h split
            rcases convert_cases o slice v with ev | ⟨w, ev⟩
            · rw [show (Res.ok ws >>= fun ws => (convert o slice v >>= fun w =>
                if self = true then (pure (ws, [w]) : Res _) else Res.panic)) = .panic by rw [ev]; rfl] at h
              cases h
            · rw [show (Res.ok ws >>= fun ws => (convert o slice v >>= fun w =>
                if self = true then (pure (ws, [w]) : Res _) else Res.panic)) =
                  if self = true then .ok (ws, [w]) else .panic by rw [ev]; rfl] at h
              cases self with
              | false => cases h
              | true => cases h; exact .inr ⟨rfl, _, v, w, split.symm, e, ev, rfl⟩
          | cons x rest => rw [hd] at h; cases h
    · rintro (⟨h1, h2⟩ | ⟨hs, front, last, w, rfl, h1, h2, h3⟩)
      · have hl := convertArgs_length h1
        obtain ⟨r1, r2⟩ := r
        cases h2
        simp only [Sig.pass, List.take_of_length_le (Nat.le_of_eq hl), List.drop_eq_nil_of_le (Nat.le_of_eq hl)]
        rw [h1]
        rfl
      · have hl := convertArgs_length h1
        obtain ⟨r1, r2⟩ := r
        cases h3
        cases hs
        simp only [Sig.pass]
        rw [show (front ++ [last]).take fixed.length = front by rw [← hl]; simp,
          show (front ++ [last]).drop fixed.length = [last] by rw [← hl]; simp, h1]
        show (convert o slice last >>= fun w => (pure (r1, [w]) : Res _)) = _
        rw [h2]
        rfl
  · intro h
    simp only [Sig.pass] at h ⊢
    rcases convertArgs_cases o fixed (args.take fixed.length) with e | ⟨ws, e⟩
    · rw [e]; rfl
    · rw [e] at h ⊢
      cases hd : args.drop fixed.length with
      | nil => rw [hd] at h; exact absurd rfl (h (ws, []))
      | cons v rest =>
        cases rest with
        | cons x rest => rfl
        | nil =>
          rw [hd] at h
          show (convert o slice v >>= fun w => if self = true then (pure (ws, [w]) : Res _) else Res.panic) = _
          rcases convert_cases o slice v with ev | ⟨w, ev⟩
          · rw [ev]; rfl
          · cases self with
            | false => rw [ev]; rfl
            | true =>
              refine absurd ?_ (h (ws, [w]))
              show (convert o slice v >>= fun w => if true = true then (pure (ws, [w]) : Res _) else Res.panic) = _
              rw [ev]; rfl

/-- C140 refuted, for all methods and arguments.  When the handler of a feature comes to a call of a method with a variadic
parameter `...T` with at least one argument for it, and `[]T` cannot be assigned to `T`, or with at least two, the whole
process dies: nothing happens any more, and the call is not answered. -/
theorem C140_variadic_kills_refuted (o : Conv) (methods : Nat → Str → Option Sig) (acts : List Act) (s t : State)
    (h : run (State.step fun c => targetOfSigs o (methods c)) (State.init fun c => targetOfSigs o (methods c)) acts = some s)
    (c i : Nat) (fixed : List PTy) (slice : PTy) (self : Bool) (hq : (s.queue c).head? = some i)
    (hm : methods c (s.req i).meth = some ⟨fixed, some (slice, self)⟩)
    (hn : fixed.length < (s.req i).args.length ∧ (self = true → fixed.length + 1 < (s.req i).args.length))
    (hs : s.step (fun c => targetOfSigs o (methods c)) (.start c) = some t) :
    t.dead = true ∧ (∀ a, t.step (fun c => targetOfSigs o (methods c)) a = none) ∧
      t.done i = false ∧ ∀ k a, t.result k ≠ some (i, a) := by
  have A := (inv_run _ h).1
  have hi : i ∈ s.queue c := List.mem_of_mem_head? hq
  have hd := (A.inQueue c i hi).2.2.2
  have hp : Sig.pass o ⟨fixed, some (slice, self)⟩ (s.req i).args = .panic := by
    refine (C140_exact_partial o fixed slice self _ ([], [])).2 fun r hr => ?_
    rcases (C140_exact_partial o fixed slice self _ r).1.mp hr with ⟨h1, _⟩ | ⟨h1, front, last, w, h2, h3, _⟩
    · have := convertArgs_length h1
      omega
    · have := convertArgs_length h3
      have hl := hn.2 h1
      rw [h2] at hl
      simp at hl
      omega
  have hb : (targetOfSigs o (methods c)).invoke (s.req i).meth (s.req i).args = .panics := by
    simp [Target.invoke, targetOfSigs, hm, hp]
  have hr : ∀ k a, s.result k ≠ some (i, a) := by
    intro k a e
    have := (A.result k i a e).1
    rw [hd] at this
    cases this
  unfold State.step at hs
  split at hs
  · cases hs
  simp only at hs
  split at hs
  · rename_i j rest hidle hq'
    rw [hq'] at hq
    cases hq
    rw [hb] at hs
    cases hs
    exact ⟨rfl, fun a => by simp [State.step], hd, hr⟩
  · cases hs

/-! ## Two methods -/

/-- Only slices are converted to slices. -/
def variadicConv : Conv := ⟨id, id, fun p v => match p, v with | .other _, .seq ty xs => some (.seq ty xs) | _, _ => none⟩

/-- "a" is `Sum(name string, xs ...int)`, "b" is `Print(xs ...interface{})`; the types `[]int` and `[]interface{}` are numbers 1
and 2. -/
def variadicSigs : Str → Option Sig := fun m =>
  if m = [97] then some ⟨[.str 0], some (.other 1, false)⟩ else if m = [98] then some ⟨[], some (.other 2, true)⟩ else none

/-- C140 refuted: `Sum("", 1)` ends the process, though the method exists and the argument is an int. -/
theorem C140_sum_refuted :
    ∃ acts s, run (State.step fun _ => targetOfSigs variadicConv variadicSigs) (State.init fun _ => targetOfSigs variadicConv variadicSigs) acts =
        some s ∧ s.dead = true ∧ (s.req 0).args = [.str 0 [], .int .int 0 1] :=
  ⟨[.call 0 0 [97] [.str 0 [], .int .int 0 1] none, .push 0, .start 0], _, rfl, rfl, rfl⟩

/-- The state before, which `C140_variadic_kills_refuted` is about. -/
example : ∃ s t, run (State.step fun _ => targetOfSigs variadicConv variadicSigs) (State.init fun _ => targetOfSigs variadicConv variadicSigs)
      [.call 0 0 [97] [.str 0 [], .int .int 0 1] none, .push 0] = some s ∧ (s.queue 0).head? = some 0 ∧
    s.step (fun _ => targetOfSigs variadicConv variadicSigs) (.start 0) = some t ∧
    variadicSigs (s.req 0).meth = some ⟨[.str 0], some (.other 1, false)⟩ ∧ 1 < (s.req 0).args.length :=
  ⟨_, _, rfl, rfl, rfl, rfl, by decide⟩

/-- `Sum("")` runs without numbers; `Print([]interface{}{true})` prints one value, the slice. -/
example : Sig.pass variadicConv ⟨[.str 0], some (.other 1, false)⟩ [.str 0 [65]] = .ok ([.str 0 [65]], []) ∧
    (∀ ty, Sig.pass variadicConv ⟨[], some (.other 2, true)⟩ [.seq ty [.bool 0 true]] = .ok ([], [.seq ty [.bool 0 true]])) ∧
    Sig.pass variadicConv ⟨[], some (.other 2, true)⟩ [.bool 0 true] = .panic :=
  ⟨rfl, fun _ => rfl, rfl⟩

end Verif.Props
