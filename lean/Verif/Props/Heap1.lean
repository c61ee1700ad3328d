import Verif.Net.Shared

/-! # C141: values that refer to themselves; C142: values that change after Send -/

namespace Verif.Props

open Verif Verif.Codec Verif.Codec.Heap

/-! ## C141 -/

/-- The encoder returns from the value. -/
def Returns (h : Mem) (r : RVal) : Prop := ∃ t, Steps h (Machine.start r) t ∧ t.next h = none

/-- C141, for values without references that lead back: `Encode` returns.  In general: it returns if no infinite chain of
references starts from the value. -/
theorem C141_returns_partial (h : Mem) (r : RVal) (hr : ¬ Endless h r) : Returns h r := by
  obtain ⟨t, h1, h2⟩ := ends_val ((grounded_iff h r).mpr hr) [] []
  refine ⟨t, h1, ?_⟩
  obtain ⟨todo, out, err⟩ := t
  rcases h2 with h2 | ⟨h2, h3⟩
  · cases err with
    | none => exact absurd rfl h2
    | some x => rfl
  · cases h2
    cases h3
    rfl

/-- C141, exactly: for all memories and all values without unsupported parts, `Encode` returns exactly if no infinite chain of
references starts from the value. -/
theorem C141_exact_partial (h : Mem) (r : RVal) (hp : Plain h r) : Returns h r ↔ ¬ Endless h r := by
  refine ⟨?_, C141_returns_partial h r⟩
  rintro ⟨t, h1, h2⟩
  have he := plain_steps h1 rfl fun w hw => by
    rcases List.mem_cons.mp hw with rfl | hw
    · exact hp
    · cases hw
  exact (grounded_iff h r).mp ((fine_of_steps h1 ⟨next_none h2 he, he⟩).2 _ List.mem_cons_self)

/-- C141: the values from which no infinite chain starts are exactly those that stand for a tree, and for these sharing makes no
difference: `Encode` writes and returns what it does for the tree. -/
theorem C141_tree_partial (h : Mem) (r : RVal) :
    ((∃ v, Unfolds h r v) ↔ ¬ Endless h r) ∧
    ∀ v, Unfolds h r v → ∀ t, Steps h (Machine.start r) t → t.next h = none →
      t.out = (encodeValue v).bytes ∧ t.err = (encodeValue v).err := by
  refine ⟨⟨?_, fun hr => unfolds_of_grounded ((grounded_iff h r).mpr hr)⟩, fun v hv t h1 h2 => ?_⟩
  · rintro ⟨v, hv⟩
    refine (grounded_iff h r).mp ?_
    induction hv with
    | flat v => exact flat_fine h v
    | slice ty c off n vs _ _ ih =>
      refine ⟨_, fun y hy => ?_⟩
      cases hy with
      | elem _ _ _ _ i hi => exact ih i hi
    | map ty c kvs _ _ ih =>
      refine ⟨_, fun y hy => ?_⟩
      cases hy with
      | entry _ _ k hk => exact ih k hk
  · have hd := does_val hv [] []
    cases he : (encodeValue v).err with
    | none =>
      rw [he] at hd
      have := Steps.unique h1 hd h2 rfl
      subst this
      exact ⟨rfl, rfl⟩
    | some x =>
      rw [he] at hd
      obtain ⟨k', hd⟩ := hd
      have := Steps.unique h1 hd h2 rfl
      subst this
      exact ⟨rfl, rfl⟩

/-- `s := []interface{}{nil}; s[0] = s` -/
def selfMem : Mem := ⟨fun _ => [.slice .ifaceSlice 0 0 1], fun _ => []⟩

private theorem self_steps : ∀ (n : Nat) (k : List Work) (o : List Byte),
    ∃ k' o', Steps selfMem ⟨.val (.slice .ifaceSlice 0 0 1) :: k, o, none⟩ ⟨.val (.slice .ifaceSlice 0 0 1) :: k', o', none⟩ ∧
      k'.length = k.length + n ∧ o'.length = o.length + 5 * n := by
  intro n
  induction n with
  | zero => intro k o; exact ⟨k, o, .refl _, rfl, rfl⟩
  | succ n ih =>
    intro k o
    obtain ⟨k', o', h1, h2, h3⟩ := ih (.elems 0 1 0 :: k) (o ++ header cArr32 1)
    refine ⟨k', o', .next rfl (.next rfl h1), ?_, ?_⟩
    · rw [h2]; simp; omega
    · rw [h3]; simp [header]; omega

private theorem self_endless : Endless selfMem (.slice .ifaceSlice 0 0 1) :=
  ⟨fun _ => .slice .ifaceSlice 0 0 1, rfl, fun _ => .elem .ifaceSlice 0 0 1 0 (by omega)⟩

private theorem self_plain : Plain selfMem (.slice .ifaceSlice 0 0 1) := by
  have key : ∀ r x, Below selfMem r x → r = .slice .ifaceSlice 0 0 1 → x = .slice .ifaceSlice 0 0 1 := by
    intro r x h
    induction h with
    | refl => exact id
    | step h1 _ ih =>
      rintro rfl
      refine ih ?_
      cases h1 with
      | elem _ _ _ _ i hi =>
        have : i = 0 := by omega
        subst this
        rfl
  exact ⟨fun v hv => (nomatch key _ _ hv rfl), fun ty c hc => (nomatch key _ _ hc rfl)⟩

/-- C141 refuted: `Encode` of a slice that is its own element does not return; the recursion gets deeper and the output longer
than any bound, so that the process ends when its stack or its memory is used up. -/
theorem C141_self_refuted :
    ¬ Returns selfMem (.slice .ifaceSlice 0 0 1) ∧
    ∀ n, ∃ t, Steps selfMem (Machine.start (.slice .ifaceSlice 0 0 1)) t ∧ n ≤ t.todo.length ∧ n ≤ t.out.length := by
  refine ⟨fun h => (C141_exact_partial _ _ self_plain).mp h self_endless, fun n => ?_⟩
  obtain ⟨k', o', h1, h2, h3⟩ := self_steps n [] []
  exact ⟨_, h1, by simp only [List.length_cons, h2, List.length_nil]; omega, by simp only [h3, List.length_nil]; omega⟩

/-- `a := []interface{}{true}; b := []interface{}{a, a}`, and a map that is its own value below NaN. -/
def shareMem : Mem :=
  ⟨fun c => if c = 0 then [.flat (.bool 0 true)] else [.slice .ifaceSlice 0 0 1, .slice .ifaceSlice 0 0 1],
    fun _ => [(.f64 0 0x7ff8000000000001#64, .map .ifaceMap 0)]⟩

/-- Sharing: `b` is the tree `[[true], [true]]`. -/
example : Unfolds shareMem (.slice .ifaceSlice 1 0 2)
    (.seq .ifaceSlice [.seq .ifaceSlice [.bool 0 true], .seq .ifaceSlice [.bool 0 true]]) := by
  have a : Unfolds shareMem (.slice .ifaceSlice 0 0 1) (.seq .ifaceSlice [.bool 0 true]) :=
    .slice _ _ _ _ [.bool 0 true] rfl fun i hi => by
      have : i = 0 := by omega
      subst this
      exact .flat _
  refine .slice _ _ _ _ _ rfl fun i hi => ?_
  match i, hi with
  | 0, _ => exact a
  | 1, _ => exact a

/-- A map that is its own value below NaN is encoded, since the value is not found. -/
example : ∃ t, Steps shareMem (Machine.start (.map .ifaceMap 0)) t ∧ t.next shareMem = none ∧ t.err = none :=
  ⟨_, .next rfl (.next rfl (.next rfl (.next rfl (.next rfl (.next rfl (.refl _)))))), rfl, rfl⟩

/-! ## C142 -/

open Verif.Net.Shared in
/-- C142, if nobody changes what has been passed to `Send` before it has been sent: for all executions, the packets are sent in the
order of `Send`, and each is the encoding of the tree that its value was when it was passed to `Send`, though it is encoded later
and other memory changes all the time. -/
theorem C142_calm_partial (h : Mem) (acts : List Net.Shared.Act) (s : Net.Shared.State) (hc : CalmRun (State.init h) acts)
    (hr : run State.step (State.init h) acts = some s) (k : Nat) (bs : List Byte) (hk : s.sent[k]? = some bs) :
    ∃ r h0 v, s.sends[k]? = some (r, h0) ∧ Unfolds h0 r v ∧ encodeValue v = ⟨bs, none⟩ := by
  obtain ⟨⟨r, h0⟩, hp, v, hv, he⟩ := (Net.Shared.inv_run acts s hc hr).sent k bs hk
  exact ⟨r, h0, v, hp, hv, he⟩

open Verif.Net.Shared in
/-- The memories that `C142_calm_partial` speaks about are those of the calls of `Send`. -/
theorem C142_at_send_partial (h : Mem) (acts : List Net.Shared.Act) (s : Net.Shared.State)
    (hr : run State.step (State.init h) acts = some s) (k : Nat) (r : RVal) (h0 : Mem) (hk : s.sends[k]? = some (r, h0)) :
    ∃ pre post t, acts = pre ++ .send r :: post ∧ run State.step (State.init h) pre = some t ∧ t.mem = h0 ∧
      t.sends.length = k := by
  induction hl : acts.length generalizing acts s with
  | zero =>
    rw [List.length_eq_zero_iff.mp hl] at hr
    cases hr
    cases hk
  | succ n ih =>
    rcases List.eq_nil_or_concat acts with rfl | ⟨pre, a, rfl⟩
    · cases hl
    · rw [List.concat_eq_append] at *
      rw [run_append] at hr
      cases hp : run State.step (State.init h) pre with
      | none => rw [hp] at hr; cases hr
      | some t =>
        rw [hp] at hr
        simp only [Option.bind_some, run] at hr
        split at hr
        · cases hr
        · rename_i u hu
          cases hr
          have old : t.sends[k]? = some (r, h0) → ∃ p q x, pre ++ [a] = p ++ .send r :: q ∧
              run State.step (State.init h) p = some x ∧ x.mem = h0 ∧ x.sends.length = k := by
            intro ht
            obtain ⟨p, q, x, e, h1, h2, h3⟩ := ih pre t hp ht (by simpa using hl)
            exact ⟨p, q ++ [a], x, by rw [e]; simp, h1, h2, h3⟩
          unfold State.step at hu
          split at hu
          · cases hu
          cases a with
          | write c i r =>
            simp only at hu
            split at hu
            · cases hu; exact old hk
            · cases hu
          | put c es => cases hu; exact old hk
          | send r' =>
            cases hu
            simp only at hk
            by_cases hlt : k < t.sends.length
            · rw [List.getElem?_append_left hlt] at hk
              exact old hk
            · rw [List.getElem?_append_right (by omega)] at hk
              by_cases h0' : k - t.sends.length = 0
              · rw [h0'] at hk
                cases hk
                exact ⟨pre, [], t, rfl, hp, rfl, by omega⟩
              · rw [List.getElem?_eq_none (by simp; omega)] at hk
                cases hk
          | work =>
            simp only at hu
            split at hu
            · split at hu
              · cases hu
              · cases hu; exact old hk
            · split at hu
              · cases hu; exact old hk
              · split at hu <;> (cases hu; exact old hk)

/-- An array of two numbers, both 0. -/
def pairMem : Mem := ⟨fun _ => [.flat (.int .i8 0 0), .flat (.int .i8 0 0)], fun _ => []⟩

open Verif.Net.Shared in
/-- A goroutine passes the slice to `Send` and sets first its first, then its second number to 1. -/
def tearing : List Net.Shared.Act :=
  [.send (.slice .ifaceSlice 0 0 2), .work, .work, .work, .work, .write 0 0 (.flat (.int .i8 0 1)),
    .write 0 1 (.flat (.int .i8 0 1)), .work, .work, .work, .work]

private theorem unfolds_pair {h : Mem} {x y v : Val} (hx : h.elem 0 0 = .flat x) (hy : h.elem 0 1 = .flat y)
    (hu : Unfolds h (.slice .ifaceSlice 0 0 2) v) : v = .seq .ifaceSlice [x, y] := by
  have flat : ∀ {r : RVal} {a b : Val}, r = .flat a → Unfolds h r b → b = a := by
    intro r a b e hu
    subst e
    cases hu
    rfl
  cases hu with
  | slice _ _ _ _ vs hl he =>
    match vs, hl with
    | [a, b], _ =>
      have h0 := flat hx (he 0 (by omega))
      have h1 := flat hy (he 1 (by omega))
      simp only [List.getElem?_cons_zero, Option.getD_some, List.getElem?_cons_succ] at h0 h1
      rw [h0, h1]

open Verif.Net.Shared in
/-- C142 refuted: the packet has 0 and 1.  The slice was 0 and 0, then 1 and 0, then 1 and 1: at no time was it what the packet
says. -/
theorem C142_torn_refuted :
    ∃ bs s, run State.step (State.init pairMem) tearing = some s ∧ s.sent = [bs] ∧
      encodeValue (.seq .ifaceSlice [.int .i8 0 0, .int .i8 0 1]) = ⟨bs, none⟩ ∧
      ∀ pre post t v, tearing = pre ++ post → run State.step (State.init pairMem) pre = some t →
        Unfolds t.mem (.slice .ifaceSlice 0 0 2) v → (encodeValue v).bytes ≠ bs := by
  refine ⟨_, _, rfl, rfl, by decide, ?_⟩
  intro pre post t v e hr hu
  have hpre : pre = tearing.take pre.length := by rw [e]; simp
  have hlen : pre.length ≤ 11 := by
    have := congrArg List.length e
    simp [tearing] at this
    omega
  have key : ∀ n, n ≤ 11 → ∃ t, run State.step (State.init pairMem) (tearing.take n) = some t ∧ ∃ x y,
      t.mem.elem 0 0 = .flat x ∧ t.mem.elem 0 1 = .flat y ∧ (encodeValue (.seq .ifaceSlice [x, y])).bytes ≠
        [0xdd, 0, 0, 0, 2, 0xd0, 0, 0xd0, 1] := by
    intro n hn
    match n, hn with
    | 0, _ | 1, _ | 2, _ | 3, _ | 4, _ | 5, _ | 6, _ | 7, _ | 8, _ | 9, _ | 10, _ | 11, _ =>
      exact ⟨_, rfl, _, _, rfl, rfl, by decide⟩
  obtain ⟨t', h1, x, y, hx, hy, hne⟩ := key _ hlen
  rw [← hpre, hr] at h1
  cases h1
  rw [unfolds_pair hx hy hu]
  exact hne

open Verif.Net.Shared in
/-- An execution as in `C142_calm_partial`: another element of the same array changes while the packet waits. -/
example : CalmRun (State.init pairMem) [.send (.slice .ifaceSlice 0 0 1), .work, .write 0 1 (.flat .nil), .work, .work, .work, .work, .work] ∧
    ∃ s bs, run State.step (State.init pairMem)
      [.send (.slice .ifaceSlice 0 0 1), .work, .write 0 1 (.flat .nil), .work, .work, .work, .work, .work] = some s ∧
      s.sent = [bs] ∧ encodeValue (.seq .ifaceSlice [.int .i8 0 0]) = ⟨bs, none⟩ := by
  refine ⟨?_, _, _, rfl, rfl, by decide⟩
  intro pre a post s e hr
  match pre, e with
  | [], e => cases e; trivial
  | [_], e => cases e; trivial
  | [_, _], e =>
    cases e
    cases hr
    intro p hp
    rw [show p = (.slice .ifaceSlice 0 0 1, pairMem) from List.mem_singleton.mp hp]
    intro hh
    generalize hx : Cell.elem 0 1 = x at hh
    cases hh with
    | elem _ _ _ _ i hi => injection hx with _ hx; omega
    | inner h1 h2 =>
      cases h1 with
      | elem _ _ _ _ i hi =>
        have : i = 0 := by omega
        subst this
        generalize hy : Mem.elem _ 0 (0 + 0) = y at h2
        have : y = .flat (.int .i8 0 0) := hy.symm
        subst this
        cases h2 with
        | inner h3 _ => cases h3
  | [_, _, _], e => cases e; trivial
  | [_, _, _, _], e => cases e; trivial
  | [_, _, _, _, _], e => cases e; trivial
  | [_, _, _, _, _, _], e => cases e; trivial
  | [_, _, _, _, _, _, _], e => cases e; trivial
  | _ :: _ :: _ :: _ :: _ :: _ :: _ :: _ :: pre, e =>
    have := congrArg List.length e
    simp at this

end Verif.Props
