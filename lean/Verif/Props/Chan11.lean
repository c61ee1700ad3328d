import Verif.Props.Chan10

/-!
# C162: a goroutine that makes one call after another comes to the end of its list
-/

namespace Verif.Props

open Verif Verif.Chan

/-- The calls of the execution are those of one goroutine, which makes the calls of a list one after another, on one
callee and with one caller object: it makes the next call only when the one before has returned, and then it does.
This is the goroutine of /repo/chancall/API_test.go:48-70. -/
structure InTurn (T : Nat → Target) (E : Exec (State.step T) (State.init T)) (L : List (Str × List Codec.Val)) : Prop where
  only : ∀ n callee caller meth args parent, E.act n = .call callee caller meth args parent →
    callee = 0 ∧ caller = 0 ∧ parent = none ∧ L[(E.st n).n]? = some (meth, args) ∧
      ∀ j, j < (E.st n).n → (E.st n).result j ≠ none
  does : ∀ n, (∀ j, j < (E.st n).n → (E.st n).result j ≠ none) → (E.st n).n < L.length →
    ∃ m callee caller meth args parent, n ≤ m ∧ E.act m = .call callee caller meth args parent

theorem inTurn_unshared {T : Nat → Target} {E : Exec (State.step T) (State.init T)} {L : List (Str × List Codec.Val)}
    (S : InTurn T E L) : UnsharedRun T E := by
  intro n callee caller meth args parent e j hj _
  exact (S.only n callee caller meth args parent e).2.2.2.2 j hj

/-- The requests are those of the list, in its order, and so they entered the queue. -/
structure TurnInv (L : List (Str × List Codec.Val)) (s : State) : Prop where
  bound : s.n ≤ L.length
  reqs : ∀ i, i < s.n → (s.req i).callee = 0 ∧ L[i]? = some ((s.req i).meth, (s.req i).args)
  entered : s.entered 0 = List.range s.n ∧ (∀ i, i < s.n → s.pushed i = true) ∨
    ∃ k, s.n = k + 1 ∧ s.entered 0 = List.range k ∧ (∀ i, i < k → s.pushed i = true) ∧ s.pushed k = false

theorem turnInv_step (T : Nat → Target) (L : List (Str × List Codec.Val)) (s : State) (a : Act) (t : State)
    (A : AnsInv s) (ok : ∀ callee caller meth args parent, a = .call callee caller meth args parent →
      callee = 0 ∧ caller = 0 ∧ parent = none ∧ L[s.n]? = some (meth, args) ∧ ∀ j, j < s.n → s.result j ≠ none)
    (own : ∀ k j a, s.result k = some (j, a) → j = k)
    (I : TurnInv L s) (h : s.step T a = some t) : TurnInv L t := by
  obtain ⟨h1, h2, h3⟩ := I
  cases a with
  | call callee caller meth args parent =>
    obtain ⟨rfl, rfl, rfl, hl, hr⟩ := ok _ _ _ _ _ rfl
    have all : ∀ j, j < s.n → s.pushed j = true := by
      intro j hj
      cases e : s.result j with
      | none => exact absurd e (hr j hj)
      | some x =>
        obtain ⟨k, b⟩ := x
        have := own j k b e
        subst this
        have hd := (A.result _ _ _ e).1
        cases hp : s.pushed k with
        | true => rfl
        | false => have := (A.unpushed k hp).2; rw [hd] at this; cases this
    have hlen : s.n < L.length := by
      refine Nat.lt_of_not_le fun hge => ?_
      rw [List.getElem?_eq_none hge] at hl
      cases hl
    unfold State.step at h
    split at h
    · cases h
    cases h
    refine ⟨hlen, ?_, ?_⟩
    · intro i hi
      by_cases e : i = s.n
      · subst e; simpa using hl
      · simp only [upd_other _ _ e]
        exact h2 i (by simp only at hi; omega)
    · right
      refine ⟨s.n, rfl, ?_, all, (A.fresh s.n (Nat.le_refl _)).1⟩
      rcases h3 with h3 | ⟨k, e, -, -, hk⟩
      · exact h3.1
      · have := all k (by omega); rw [hk] at this; cases this
  | push i =>
    unfold State.step at h
    split at h
    · cases h
    simp only at h
    split at h
    swap
    · cases h
    rename_i hp
    cases h
    refine ⟨h1, h2, ?_⟩
    rcases h3 with ⟨-, h3⟩ | ⟨k, e, h3, h4, h5⟩
    · have := h3 i hp.1; rw [hp.2.1] at this; cases this
    · have hik : i = k := by
        by_cases hlt : i < k
        · have := h4 i hlt; rw [hp.2.1] at this; cases this
        · have := hp.1; omega
      subst hik
      left
      have hc := (h2 i hp.1).1
      refine ⟨?_, ?_⟩
      · simp only [hc, upd_same, h3, e, List.range_succ]
      · intro j hj
        by_cases e' : j = i
        · subst e'; simp
        · simp only [upd_other _ _ e']
          exact h4 j (by simp only at hj; omega)
  | _ =>
    have same : t.n = s.n ∧ t.req = s.req ∧ t.entered = s.entered ∧ t.pushed = s.pushed := by
      unfold State.step at h
      split at h
      · cases h
      simp only at h
      repeat' split at h
      all_goals cases h
      all_goals exact ⟨rfl, rfl, rfl, rfl⟩
    obtain ⟨e1, e2, e3, e4⟩ := same
    exact ⟨by rw [e1]; exact h1, by rw [e1, e2]; exact h2, by rw [e1, e3, e4]; exact h3⟩

/-- **C162.**  In every fair execution in which methods return, a goroutine that makes the calls of a list one after
another comes to its end: from some point on all calls have been made and have returned, each with what its own method
returned or, no earlier than its timeout after the start of its method, with the timeout error; and the methods have been
executed one after another, each once, in the order of the list. -/
theorem C162_list (T : Nat → Target) (E : Exec (State.step T) (State.init T)) (L : List (Str × List Codec.Val))
    (F : FairRun T E) (S : InTurn T E L)
    (hb : ∀ n c q, (E.st n).handler c = .running q → ∃ m, n ≤ m ∧ (E.st m).handler c ≠ .running q) :
    ∃ n, ∀ m, n ≤ m → (E.st m).n = L.length ∧
      (∀ i meth args, L[i]? = some (meth, args) → ((E.st m).req i).meth = meth ∧ ((E.st m).req i).args = args ∧
        ∃ a, (E.st m).result i = some (i, a) ∧
          match a with
          | .ok r => (E.st m).ret i = some r
          | .timeout => ∃ t0 d at', (E.st m).startedAt i = some (t0, d) ∧ t0 + sleepTime d ≤ at' ∧ at' ≤ (E.st m).clock) ∧
      (E.st m).log 0 = (List.range L.length).flatMap fun i => [.started i, .finished i] := by
  have U := inTurn_unshared S
  have I := fair_all U
  have J : ∀ n, TurnInv L (E.st n) := by
    intro n
    induction n with
    | zero => rw [E.init]; exact ⟨Nat.zero_le _, by simp [State.init], .inl ⟨rfl, by simp [State.init]⟩⟩
    | succ n ih =>
      exact turnInv_step T L _ _ _ (I n).ans (fun callee caller meth args parent e => S.only n _ _ _ _ _ e) (I n).own.own
        ih (E.next n)
  have stays : ∀ i n m, n ≤ m → (E.st n).result i ≠ none → (E.st m).result i ≠ none := by
    intro i n m hm e
    rw [(fair_later hm i).2.2.2.2.1 e]; exact e
  have nmono : ∀ n m, n ≤ m → (E.st n).n ≤ (E.st m).n := by
    intro n m hm
    cases e : (E.st n).n with
    | zero => omega
    | succ k => have := (fair_later (E := E) hm k).1 (by omega); omega
  -- all calls that have been made return
  have ret : ∀ n, ∃ M, n ≤ M ∧ ∀ m, M ≤ m → ∀ j, j < (E.st n).n → (E.st m).result j ≠ none := by
    intro n
    obtain ⟨M, hM⟩ := eventually_all (fun j m => (E.st m).result j ≠ none) (E.st n).n (fun j hj => by
      obtain ⟨m, a, hm, h⟩ := C124_returns T E F U hb n j hj
      exact ⟨m, fun m' hm' => stays j m m' hm' (by rw [h]; simp)⟩)
    exact ⟨max n M, by omega, fun m hm => hM m (by omega)⟩
  -- all calls of the list are made
  have made : ∀ k, k ≤ L.length → ∃ m, k ≤ (E.st m).n := by
    intro k
    induction k with
    | zero => intro _; exact ⟨0, Nat.zero_le _⟩
    | succ k ih =>
      intro hk
      obtain ⟨m, hm⟩ := ih (by omega)
      obtain ⟨M, hM, hr⟩ := ret m
      by_cases e : k + 1 ≤ (E.st M).n
      · exact ⟨M, e⟩
      have hn : (E.st M).n = (E.st m).n := by have := nmono m M hM; omega
      obtain ⟨q, callee, caller, meth, args, parent, hq, ea⟩ := S.does M
        (fun j hj => hr M (Nat.le_refl _) j (by omega)) (by omega)
      refine ⟨q + 1, ?_⟩
      obtain ⟨-, -, hp, -⟩ := S.only q _ _ _ _ _ ea
      subst hp
      have st := E.next q
      rw [ea] at st
      unfold State.step at st
      split at st
      · cases st
      have e2 := congrArg State.n (Option.some.inj st)
      simp only at e2
      have := nmono M q hq
      omega
  obtain ⟨m0, h0⟩ := made L.length (Nat.le_refl _)
  have hn : ∀ m, m0 ≤ m → (E.st m).n = L.length := by
    intro m hm
    have := nmono m0 m hm
    have := (J m).bound
    omega
  obtain ⟨M, hM, hr⟩ := ret m0
  have hlen := hn m0 (Nat.le_refl _)
  have res : ∀ m, M ≤ m → ∀ i, i < L.length → ∃ a, (E.st m).result i = some (i, a) := by
    intro m hm i hi
    cases e : (E.st m).result i with
    | none => exact absurd e (hr m hm i (by omega))
    | some x =>
      obtain ⟨j, a⟩ := x
      have := (I m).own.own i j a e
      subst this
      exact ⟨a, rfl⟩
  have donei : ∀ m, M ≤ m → ∀ i, i < L.length → (E.st m).done i = true := by
    intro m hm i hi
    obtain ⟨a, e⟩ := res m hm i hi
    exact ((I m).ans.result _ _ _ e).1
  have small : ∀ m, M ≤ m → ∀ c i, i ∈ (E.st m).queue c → i < L.length := by
    intro m hm c i hi
    rw [← hn m (by omega)]
    refine Nat.lt_of_not_le fun hge => ?_
    have h1 := ((I m).ans.fresh i hge).1
    rw [((I m).ans.inQueue c i hi).2.1] at h1
    cases h1
  have empty : ∀ m, M ≤ m → ∀ c, (E.st m).queue c = [] := by
    intro m hm c
    cases e : (E.st m).queue c with
    | nil => rfl
    | cons i rest =>
      have hmem : i ∈ (E.st m).queue c := by rw [e]; exact List.mem_cons_self ..
      have h1 := ((I m).ans.inQueue c i hmem).2.2.2
      rw [donei m hm i (small m hm c i hmem)] at h1
      cases h1
  -- the last method returns
  have rest : ∃ N, M ≤ N ∧ ∀ m, N ≤ m → ∀ q, (E.st m).handler 0 ≠ .running q := by
    have keep : ∀ m, M ≤ m → (∀ q, (E.st m).handler 0 ≠ .running q) → ∀ q, (E.st (m + 1)).handler 0 ≠ .running q := by
      intro m hm h q e
      rcases fair_handler (E.next m) 0 with ⟨g, -⟩ | ⟨-, g⟩ | ⟨k, r, g, -⟩ | ⟨k, r, -, g | ⟨g, -⟩⟩ | ⟨k, r, -, g⟩
      · rw [g] at e; exact h q e
      · have st := E.next m
        rw [g] at st
        unfold State.step at st
        split at st
        · cases st
        simp only [empty m hm 0] at st
        split at st
        · rename_i h1 h2; cases h2
        · cases st
      · exact h k g
      all_goals rw [e] at g; cases g
    have start : ∃ N, M ≤ N ∧ ∀ q, (E.st N).handler 0 ≠ .running q := by
      refine Classical.byContradiction fun hno => ?_
      have all : ∀ m, M ≤ m → ∃ q, (E.st m).handler 0 = .running q := by
        intro m hm
        refine Classical.byContradiction fun h => hno ⟨m, hm, fun q e => h ⟨q, e⟩⟩
      obtain ⟨q, hq⟩ := all M (Nat.le_refl _)
      have const : ∀ m, M ≤ m → (E.st m).handler 0 = .running q := by
        refine E.stable (P := fun s => s.handler 0 = .running q) hq ?_
        intro m hm e
        obtain ⟨q', e'⟩ := all (m + 1) (by omega)
        rcases fair_handler (E.next m) 0 with ⟨g, -⟩ | ⟨g, -⟩ | ⟨k, r, -, g⟩ | ⟨k, r, g, -⟩ | ⟨k, r, g, -⟩
        · rw [g]; exact e
        · rw [e] at g; cases g
        · rw [e'] at g; cases g
        · rw [e] at g; cases g
        · rw [e] at g; cases g
      obtain ⟨m, hm, e⟩ := hb M 0 q hq
      exact e (const m hm)
    obtain ⟨N, hN, h⟩ := start
    exact ⟨N, hN, E.stable (P := fun s => ∀ q, s.handler 0 ≠ .running q) h fun m hm => keep m (by omega)⟩
  obtain ⟨N, hN, hrun⟩ := rest
  refine ⟨N, fun m hm => ⟨hn m (by omega), ?_, ?_⟩⟩
  · intro i meth args hl
    have hi : i < L.length := by
      refine Nat.lt_of_not_le fun hge => ?_
      rw [List.getElem?_eq_none hge] at hl; cases hl
    have hreq := ((J m).reqs i (by rw [hn m (by omega)]; exact hi)).2
    rw [hl] at hreq
    cases hreq
    refine ⟨rfl, rfl, ?_⟩
    obtain ⟨a, e⟩ := res m (by omega) i hi
    refine ⟨a, e, ?_⟩
    obtain ⟨t', ht'⟩ := (I m).recd.result _ _ _ e
    cases a with
    | ok r => exact (I m).recd.retOK _ _ _ ht'
    | timeout =>
      obtain ⟨t0, d, e1, e2⟩ := (I m).recd.late _ _ ht'
      have H := run_inv (I := fun s => AnsInv s ∧ HeldInv s)
        (fun s a t I h => ⟨ansInv_step T s a t I.1 h, heldInv_step T s a t I.1 I.2 h⟩) _ _ _
        ⟨ansInv_init T, by constructor <;> simp [State.init]⟩ (E.reach m)
      exact ⟨t0, d, t', e1, e2, H.2.past _ _ _ ht'⟩
  · have O := orderInv_run T (E.reach m)
    obtain ⟨pre, e1, e2⟩ := O.alive (fair_alive m) 0
    have hnone : Props.running ((E.st m).handler 0) = none := by
      cases e : (E.st m).handler 0 <;> simp_all [Props.running]
    rw [hnone, empty m (by omega)] at e1
    rw [hnone] at e2
    simp only [Option.toList, List.append_nil, List.map_nil] at e1 e2
    have hent : (E.st m).entered 0 = List.range L.length := by
      rcases (J m).entered with ⟨h, -⟩ | ⟨k, h1, -, -, h4⟩
      · rw [h, hn m (by omega)]
      · have hd := donei m (by omega) k (by rw [← hn m (by omega)]; omega)
        have := ((I m).ans.unpushed k h4).2
        rw [hd] at this; cases this
    rw [e2, ← e1, hent]
    rfl

/-! ## Example -/

/-- Two calls, one after another; the first returns the result of its method, the second times out. -/
def twoInTurn : List Act :=
  [.setTimeout 0 [97] 0, .call 0 0 [97] [] none, .push 0, .start 0, .ret 0 [], .settleH 0, .deliverH 0, .receive 0, .wake 0,
    .settleT 0, .call 0 0 [97] [] none, .push 1, .start 0, .wake 1, .settleT 1, .deliverT 1, .receive 1, .ret 0 [],
    .settleH 0]

/-- The action is a call. -/
def isCall : Act → Bool
  | .call .. => true
  | _ => false

theorem twoInTurn_quiet : ∃ s, run (State.step demo) (State.init demo) twoInTurn = some s ∧ Quiet s ∧ s.n = 2 ∧
    ∀ c, s.handler c = .idle := by
  obtain ⟨s, h⟩ : ∃ s, run (State.step demo) (State.init demo) twoInTurn = some s :=
    Option.isSome_iff_exists.mp (by decide +kernel)
  have hn : s.n = 2 := final_of (·.n) h (by decide +kernel)
  have hi : ∀ c, s.handler c = .idle := by
    intro c
    match c with
    | 0 => exact final_of (·.handler 0) h (by rfl)
    | c + 1 => exact final_of (·.handler (c + 1)) h (by rfl)
  refine ⟨s, h, ⟨final_of (·.dead) h (by decide +kernel), fun c => .inr ⟨hi c, ?_⟩, fun i hi => ?_, fun i => ?_,
    fun c => ?_⟩, hn, hi⟩
  · match c with
    | 0 => exact final_of (·.queue 0) h (by decide +kernel)
    | c + 1 => exact final_of (·.queue (c + 1)) h (by rfl)
  · rw [hn] at hi
    match i, hi with
    | 0, _ => exact final_of (·.pushed 0) h (by decide +kernel)
    | 1, _ => exact final_of (·.pushed 1) h (by decide +kernel)
  · match i with
    | 0 => exact .inr (final_of (·.timer 0) h (by decide +kernel))
    | 1 => exact .inr (final_of (·.timer 1) h (by decide +kernel))
    | i + 2 => exact .inl (final_of (·.timer (i + 2)) h (by rfl))
  · match c with
    | 0 => exact final_of (·.chan 0) h (by rfl)
    | c + 1 => exact final_of (·.chan (c + 1)) h (by rfl)

example : ∃ E : Exec (State.step demo) (State.init demo), FairRun demo E ∧ InTurn demo E [([97], []), ([97], [])] ∧
    ∀ n c q, (E.st n).handler c = .running q → ∃ m, n ≤ m ∧ (E.st m).handler c ≠ .running q := by
  obtain ⟨s, h, q, hn, hi⟩ := twoInTurn_quiet
  have at' : ∀ n, n ≤ 19 → run (State.step demo) (State.init demo) (twoInTurn.take n) = some ((thenTicks h q).st n) :=
    fun n hn => lasso_run (b := fun _ => Act.tick) h n hn
  have later : ∀ n, 11 ≤ n → 2 ≤ ((thenTicks h q).st n).n := by
    intro n hn
    have e : ((thenTicks h q).st 11).n = 2 := final_of (·.n) (at' 11 (by decide)) (by decide +kernel)
    exact (fair_later hn 1).1 (by rw [e]; decide)
  refine ⟨thenTicks h q, thenTicks_fair h q, ⟨?_, ?_⟩, ?_⟩
  · intro n callee caller meth args parent e
    have hlt : n < 19 := by
      refine Nat.lt_of_not_le fun hge => ?_
      rw [(thenTicks_tail h q n hge).2] at e; cases e
    have e' : twoInTurn[n]?.getD .tick = .call callee caller meth args parent := e
    have hc : isCall (twoInTurn[n]?.getD .tick) = true := by rw [e']; rfl
    have two : ∀ n : Fin 19, isCall (twoInTurn[n.1]?.getD .tick) = true → n.1 = 1 ∨ n.1 = 10 := by decide
    rcases two ⟨n, hlt⟩ hc with e1 | e1
    · simp only at e1
      subst e1
      cases e'
      have hn : ((thenTicks h q).st 1).n = 0 := final_of (·.n) (at' 1 (by decide)) (by decide +kernel)
      rw [hn]
      exact ⟨rfl, rfl, rfl, rfl, fun j hj => absurd hj (Nat.not_lt_zero _)⟩
    · simp only at e1
      subst e1
      cases e'
      have hn : ((thenTicks h q).st 10).n = 1 := final_of (·.n) (at' 10 (by decide)) (by decide +kernel)
      have hr : (((thenTicks h q).st 10).result 0).isSome = true :=
        final_of (fun s => (s.result 0).isSome) (at' 10 (by decide)) (by decide +kernel)
      rw [hn]
      refine ⟨rfl, rfl, rfl, rfl, fun j hj => ?_⟩
      have : j = 0 := by omega
      subst this
      intro e
      rw [e] at hr; cases hr
  · intro n _ hlt
    have hlt : ((thenTicks h q).st n).n < 2 := hlt
    by_cases e : n ≤ 10
    · exact ⟨10, _, _, _, _, _, e, rfl⟩
    · have := later n (by omega)
      omega
  · intro n c p _
    obtain ⟨k, e⟩ := (thenTicks_tail h q (max n 19) (by show 19 ≤ _; omega)).1
    refine ⟨max n 19, by omega, ?_⟩
    rw [e]
    intro h
    have := hi c
    rw [this] at h
    cases h

end Verif.Props
