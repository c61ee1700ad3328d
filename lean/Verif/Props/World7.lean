import Verif.Props.World10

/-!
# C121: examples for calls that can return
-/

namespace Verif.Props

open Verif Verif.Codec Verif.Proto Verif.Dock Verif.System

theorem untied_n {cs : List Carried} {s t : Dock.State} {a : Dock.Act} (ha : Whole.tiedD a = false) (h : s.step cs a = some t) :
    t.n = s.n := by
  unfold Dock.State.step at h
  split at h
  · cases h
  cases a with
  | call c k => cases ha
  | recv p pkt =>
    simp only at h
    repeat' split at h
    all_goals first
      | (cases h; done)
      | skip
    cases h
    cases pkt <;> simp only [Dock.State.onPacket]
    all_goals (repeat' split)
    all_goals rfl
  | commit i =>
    simp only at h
    split at h
    · cases h
      simp only [Dock.State.doCommit]
      repeat' split
      all_goals rfl
    · cases h
  | work p order =>
    simp only [Dock.State.work] at h
    repeat' split at h
    all_goals first
      | (cases h; done)
      | (cases h; rfl)
      | skip
    cases h
    simp only [Dock.State.doCommit]
    repeat' split
    all_goals rfl
  | _ =>
    simp only at h
    repeat' split at h
    all_goals first
      | (cases h; done)
      | (cases h; rfl)

/-- A dock whose goroutines have done nothing has made no calls, whatever the others do. -/
theorem untouched {C : Nat → List Carried} {T : Nat → Nat → Chan.Target} {H R : Nat → Str} {black : List Int} {as : List World.Act}
    {S : World.State} (h : run (World.State.step C T H R black) (World.State.init T) as = some S) (d : Nat)
    (hd : ∀ a, World.Act.dock d a ∉ as) : (S.sys.dock d).n = 0 ∧ S.rest d = Whole.State.init (T d) := by
  induction as using List.reverseRecOn generalizing S with
  | nil => cases h; exact ⟨rfl, rfl⟩
  | append_singleton as a ih =>
    rw [run_append] at h
    cases e : run (World.State.step C T H R black) (World.State.init T) as with
    | none => rw [e] at h; cases h
    | some U =>
      rw [e] at h
      have hs : U.step C T H R black a = some S := by
        simp only [Option.bind_some, run] at h
        cases e2 : U.step C T H R black a with
        | none => rw [e2] at h; cases h
        | some V => rw [e2] at h; cases h; rfl
      obtain ⟨i1, i2⟩ := ih e fun b hb => hd b (List.mem_append_left _ hb)
      have hne : ∀ b, a ≠ .dock d b := by
        rintro b rfl
        exact hd b (by simp)
      constructor
      · rcases World.at_step hs (World.inv_run e).down d with e | ⟨-, b, e1, e2⟩
        · have : S.sys.dock d = U.sys.dock d := congrArg Whole.State.dock e
          rw [this]; exact i1
        · rcases e2 with rfl | ⟨⟨b', rfl, hb⟩, -⟩
          · exact absurd rfl (hne b)
          · have : (S.sys.dock d).n = (U.sys.dock d).n := by
              simp only [Whole.State.step] at e1
              split at e1
              · cases e1
              · rw [hb] at e1
                simp only [Bool.false_eq_true, if_false] at e1
                obtain ⟨x, hx, hy⟩ := Option.map_eq_some_iff.mp e1
                have : (S.sys.dock d) = x := (congrArg Whole.State.dock hy).symm
                rw [this]
                exact untied_n hb hx
            rw [this]; exact i1
      · cases a with
        | sys a => rw [(World.step_sys hs).2.2]; exact i2
        | dock d2 a =>
          have hne2 : d ≠ d2 := by rintro rfl; exact hne a rfl
          obtain ⟨-, -, w, -, rfl⟩ := World.step_whole hs
          show upd U.rest d2 w d = _
          rw [upd_other _ _ hne2]
          exact i2

/-- As in the other examples, with methods that accept all arguments. -/
def worldT2 : Nat → Nat → Chan.Target := fun _ _ => ⟨fun m => m == methM, fun _ _ => false⟩

theorem apt_of {cs : List Carried} {T : Nat → Chan.Target} (h : ∀ c m a, (T c).invoke m a ≠ .panics) (s : Whole.State) : Apt cs T s :=
  ⟨fun _ _ _ => h _ _ _, fun _ _ _ _ => h _ _ _⟩

/-- A call that waits for its response. -/
def isWaiting : CallPhase → Bool
  | .waiting => true
  | _ => false

/-- An execution that has not asked its callee yet. -/
def isSpawned : ExecPhase → Bool
  | .spawned => true
  | _ => false

/-- A handler that does nothing. -/
def isIdle : Handler → Bool
  | .idle => true
  | _ => false

instance (S : World.State) (d' k : Nat) (r : Ret) : Decidable (CanSend S d' k r) := by
  unfold CanSend Short
  infer_instance

/-- As in `worldAsk`, and the request has been received.  Then the application calls feature `b` of dock 1 from dock 0, for which
a request is under way on the same connection. -/
def worldUnder : List World.Act :=
  worldAsk ++ [.sys (.deliver 5), .dock 0 (.call ⟨nameB, methM, [], true⟩ 88 none)] ++
  List.map lift [.dock 0 (.store 0), .dock 0 (.setReq 0), .dock 0 (.commit 0)]

/-- A request or a response that arrives. -/
def passes (p : Proto) : Bool :=
  match fate p with
  | .arrives (.rpcRequest _ _ _ _ _) => true
  | .arrives (.rpcResponse _ _ _ _ _) => true
  | _ => false

theorem worldT2_fine (c d : Nat) (m : Str) (a : List Val) : (worldT2 d c).invoke m a ≠ .panics := by
  simp only [worldT2, Chan.Target.invoke, Bool.false_eq_true, if_false]
  by_cases e : (m == methM) = true <;> simp [e]

theorem passes_passing {d : Nat} {p : Proto} (h : passes p = true) : ∃ q, fate p = .arrives q ∧ Passing worldC worldT2 d q := by
  unfold passes at h
  split at h
  · exact ⟨_, by assumption, .inl ⟨_, _, _, _, _, rfl, fun c _ => worldT2_fine c d _ _⟩⟩
  · exact ⟨_, by assumption, .inr ⟨_, _, _, _, _, rfl⟩⟩
  · cases h

set_option synthInstance.maxSize 100000 in
set_option synthInstance.maxHeartbeats 2000000 in
/-- The method of dock 1 waits for feature `a` of dock 0, which is busy; the request has been received, and a request of dock 0 is
under way on the connection.  All that the theorems ask for is the case, and no chain of waiting goes round in a circle: the call can return. -/
example : ∃ S, run (World.State.step worldC worldT2 sysH sysR []) (World.State.init worldT2) worldUnder = some S ∧
    Distinct S ∧ (∀ d, Apt (worldC d) (worldT2 d) (S.at d)) ∧
    (∀ d p i, (S.rest d).blocked p = some i → ∃ d' k, Under worldC worldT2 S d i d' k) ∧ Under worldC worldT2 S 1 0 0 0 ∧ (S.rest 0).served 0 = none ∧ S.sys.queue 4 ≠ [] ∧
    Waits worldC S 1 0 0 0 ∧ Closes worldC worldT2 S 1 0 ∧
    ∃ more S' r, (∀ a ∈ more, benign a = true) ∧ run (World.State.step worldC worldT2 sysH sysR []) S more = some S' ∧
      (S'.sys.dock 1).phase 0 = .returned r := by
  have : ∃ S, run (World.State.step worldC worldT2 sysH sysR []) (World.State.init worldT2) worldUnder = some S ∧
      ([0, 1].map fun d => (S.sys.down (.dock d), (S.sys.dock d).dead, (S.rest d).chan.dead),
       [0, 1].map fun d => ((S.sys.dock d).n, (S.sys.dock d).nx, (S.rest d).blocked 0, (S.rest d).served 0, (S.rest d).chan.n,
        (S.rest d).chan.handler 0, (S.rest d).chan.waits 0),
       (isWaiting ((S.sys.dock 1).phase 0), (S.sys.dock 1).index 0),
       (((S.sys.dock 0).exec 0).call.slot, ((S.sys.dock 0).exec 0).index, ((S.sys.dock 0).exec 0).peer,
        isSpawned ((S.sys.dock 0).exec 0).phase),
       (S.sys.owner 4, isIdle ((S.sys.dock 1).handler 4), (S.sys.queue 4).map passes, (S.sys.dock 1).isPeer 4, decide (CanSend S 0 0 ⟨[], []⟩),
        decide (CanSend S 0 0 (Whole.retOf ((S.sys.dock 0).exec 0).call.meth .timeout)))) =
      ([(false, false, false), (false, false, false)],
       [(1, 1, none, none, 1, .running 0, none), (1, 0, some 0, none, 1, .running 0, none)], (true, 77), (nameA, 77, 5, true),
       (some (.dock 1), true, [true], true, true, true)) :=
    worldWitness (by decide +kernel)
  obtain ⟨S, h, e⟩ := this
  injection e with e1 e
  injection e with e2 e
  injection e with e3 e
  injection e with e4 e5
  simp only [List.map_cons, List.map_nil, List.cons.injEq, Prod.mk.injEq, and_true] at e1 e2 e3 e4 e5
  obtain ⟨⟨a1, a2, a3⟩, a4, a5, a6⟩ := e1
  obtain ⟨⟨b1, b2, b3, b4, b5, b6, b7⟩, c1, c2, c3, c4, c5, c6, c7⟩ := e2
  obtain ⟨d1, d2⟩ := e3
  obtain ⟨f1, f2, f3, f4⟩ := e4
  obtain ⟨g1, g2, g3, g6, g4, g5⟩ := e5
  have un : ∀ d, (S.sys.dock (d + 2)).n = 0 ∧ S.rest (d + 2) = Whole.State.init (worldT2 (d + 2)) := by
    intro d
    refine untouched h _ fun a ha => ?_
    have : ∀ b ∈ worldUnder, (match b with | World.Act.dock d _ => decide (d < 2) | _ => true) = true := by
      decide +kernel
    have := this _ ha
    simp at this
    omega
  have hd : Distinct S := by
    intro d i j hi hj _
    match d with
    | 0 => rw [b1] at hi hj; omega
    | 1 => rw [c1] at hi hj; omega
    | d + 2 => rw [(un d).1] at hi; omega
  have hw : Under worldC worldT2 S 1 0 0 0 := by
    have g3' : ∀ pkt ∈ S.sys.queue 4, passes pkt = true := by
      intro pkt hp
      have : passes pkt ∈ (S.sys.queue 4).map passes := List.mem_map_of_mem hp
      rw [g3] at this
      simpa using this
    refine ⟨⟨a1, a2, a3⟩, by omega, ?_, by omega, by rw [d2, f2], ?_, ?_, of_decide_eq_true g4, of_decide_eq_true g5, ?_⟩
    · revert d1; cases (S.sys.dock 1).phase 0 <;> simp [isWaiting]
    · revert f4; cases ((S.sys.dock 0).exec 0).phase <;> simp [isSpawned]
    · rw [f3]
      refine ⟨⟨a4, a5, a6⟩, g1, g6, ?_, fun pkt hp => passes_passing (g3' pkt hp)⟩
      show (S.sys.dock 1).handler 4 = .idle
      revert g2; cases (S.sys.dock 1).handler 4 <;> simp [isIdle]
    · intro q v hq; rw [b4] at hq; cases hq
  have hq4 : S.sys.queue 4 ≠ [] := by
    intro e
    rw [e] at g3
    cases g3
  have blk : ∀ d p i, (S.rest d).blocked p = some i → d = 1 ∧ p = 0 ∧ i = 0 := by
    intro d p i hb
    obtain ⟨-, -, -, Bl, -⟩ := Reach.facts ⟨_, h⟩ d
    have hp : p < (S.rest d).chan.n := (Bl p i hb).2.2
    match d with
    | 0 =>
      rw [b5] at hp
      obtain rfl : p = 0 := by omega
      rw [b3] at hb; cases hb
    | 1 =>
      rw [c5] at hp
      obtain rfl : p = 0 := by omega
      rw [c3] at hb; cases hb
      exact ⟨rfl, rfl, rfl⟩
    | d + 2 => rw [(un d).2] at hb; cases hb
  have hall : ∀ d p i, (S.rest d).blocked p = some i → ∃ d' k, Under worldC worldT2 S d i d' k := by
    intro d p i hb
    obtain ⟨rfl, rfl, rfl⟩ := blk d p i hb
    exact ⟨0, 0, hw⟩
  have apt : ∀ d, Apt (worldC d) (worldT2 d) (S.at d) := fun d => apt_of (fun c m a => worldT2_fine c d m a) _
  have end0 : Closes worldC worldT2 S 0 0 := by
    refine .intro 0 0 (fun p i _ hb => hall 0 p i hb) ?_
    rintro d' c' ⟨p, hp, hor⟩
    rw [b6] at hp
    cases hp
    rcases hor with ⟨-, q, hq, -⟩ | ⟨i, k, hb, -⟩
    · rw [b7] at hq; cases hq
    · rw [b3] at hb; cases hb
  have l0 : LastAt (worldC 0) nameA 0 := calleeOf_last (by decide +kernel)
  have ends : ∀ c, LastAt (worldC 0) ((S.sys.dock 0).exec 0).call.slot c → Closes worldC worldT2 S 0 c := by
    intro c hc
    rw [f1] at hc
    have h1 := last_callee hc
    rw [last_callee l0] at h1
    cases h1
    exact end0
  have w1 : Waits worldC S 1 0 0 0 := by
    refine ⟨0, c6, Or.inr ⟨0, 0, c3, by omega, by omega, by rw [f3]; exact g1, by rw [d2, f2], by rw [f1]; exact l0, ?_⟩⟩
    intro q hq
    rw [b4] at hq
    cases hq
  refine ⟨S, h, hd, apt, hall, hw, b4, hq4, w1, ?_, ?_⟩
  · refine .intro 1 0 (fun p i _ hb => hall 1 p i hb) ?_
    rintro d' c' ⟨p, hp, hor⟩
    rw [c6] at hp
    cases hp
    rcases hor with ⟨-, q, hq, -⟩ | ⟨i, k, hb, hi, hk, ho, hx, hl, -⟩
    · rw [c7] at hq; cases hq
    · rw [c3] at hb
      cases hb
      obtain ⟨bs, hbs⟩ := World.sys_reach h
      obtain ⟨rfl, rfl⟩ := exec_unique hbs (hd 1) hk (by omega : 0 < (S.sys.dock 0).nx) ho (by rw [f3]; exact g1)
        (hx.trans (by rw [d2, f2]))
      exact ends c' hl
  · obtain ⟨more, S', r, m1, m2, -, m3⟩ := C121_returns_partial _ _ _ _ _ _ S h hd apt 1 0 0 0 hw (.inr ends)
    exact ⟨more, S', r, m1, m2, m3⟩

end Verif.Props
