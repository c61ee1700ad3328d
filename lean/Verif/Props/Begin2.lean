import Verif.Props.Begin1

/-!
# C134, the example application; executions
-/

namespace Verif.Props

open Verif Verif.Codec Verif.Proto Verif.System
open Verif.Dock (Carried LastNamed)

variable {C : Nat → List Carried} {T : Nat → Nat → Chan.Target} {H R : Nat → Str} {black : List Int}
  {E : World.Course C T H R black}

/-! ## The example application -/

/-- Loops only start features that the dock carries. -/
theorem loop_named (n d l : Nat) (L : Whole.Loop) (h : ((E.st n).rest d).starts[l]? = some L) :
    (∀ x ∈ L.todo, x ∈ Dock.keysOf (C d)) ∧ ∀ x, L.current = some x → x ∈ Dock.keysOf (C d) := by
  refine Trace.keep (P := fun n => ∀ L, ((E.st n).rest d).starts[l]? = some L → (∀ x ∈ L.todo, x ∈ Dock.keysOf (C d)) ∧
    ∀ x, L.current = some x → x ∈ Dock.keysOf (C d)) (n := 0) ?_ ?_ n (Nat.zero_le _) L h
  · intro L h
    rw [E.init] at h
    cases h
  · intro m _ ih L h
    rcases Nat.lt_or_ge l ((E.st m).rest d).starts.length with hl | hl
    · obtain ⟨L', hL'⟩ : ∃ L', ((E.st m).rest d).starts[l]? = some L' := ⟨_, List.getElem?_eq_getElem hl⟩
      have := ih L' hL'
      rcases loop_step hL' with ⟨h', _⟩ | ⟨name, _, h1, _, h'⟩ | ⟨name, _, _, h'⟩ <;> rw [h] at h' <;> cases h'
      · exact this
      · exact ⟨fun x hx => this.1 x (List.mem_of_mem_erase hx), fun x hx => by cases hx; exact this.1 _ h1⟩
      · exact ⟨this.1, by simp⟩
    · cases ha : E.act m with
      | none => rw [E.none_step ha] at h; exact ih L h
      | some a =>
        rcases starts_step (E.some_step ha) d with ⟨e, _⟩ | ⟨rfl, _, e⟩ | ⟨l', name, todo, rfl, h1, h2, e⟩ |
            ⟨l', name, todo, rfl, h1, e⟩ <;> rw [e] at h
        · exact ih L h
        · rw [List.getElem?_append_right hl] at h
          have := List.mem_singleton.mp (List.mem_of_getElem? h)
          subst this
          exact ⟨fun x hx => hx, by simp⟩
        · rw [List.getElem?_eq_none (by rw [List.length_set]; exact hl)] at h
          cases h
        · rw [List.getElem?_eq_none (by rw [List.length_set]; exact hl)] at h
          cases h

/-- `math.Print("Hello World!")` of /repo/test/game.go:32. -/
def testPrint : Dock.Call := ⟨bytesOf "IMath", bytesOf "Print", [.str 0 (bytesOf "Hello World!")], false⟩

/-- The call that the proxy of `IGame` makes, /repo/test/lobby.go:28. -/
def testStart : Dock.Call := ⟨bytesOf "IGame", bytesOf "Start", [.str 0 (bytesOf "level1")], false⟩

/-- What `OnStart` of the features of the example application waits for, /repo/test/game.go:30-38, /repo/test/lobby.go:27-30
and /repo/ferry.go:67-69: that of `math` for nothing, that of `game` for its two calls, that of `lobby` for its call. -/
structure TestStarts (E : World.Course exampleC T H R black) : Prop where
  math : ∀ n l, ¬ ∀ m, n ≤ m → Starting (E.st m) 0 l (bytesOf "IMath")
  game : ∀ n l, (∀ m, n ≤ m → Starting (E.st m) 1 l (bytesOf "IGame")) →
    ∃ k c, Starting (E.st k) 1 l (bytesOf "IGame") ∧ (c = testPrint ∨ c = exampleCall) ∧ NeverReturns E k 1 c
  lobby : ∀ n l, (∀ m, n ≤ m → Starting (E.st m) 1 l (bytesOf "ILobby")) →
    ∃ k, Starting (E.st k) 1 l (bytesOf "ILobby") ∧ NeverReturns E k 1 testStart

/-- **C134, the example application (partial).**  In every fair execution of the two docks of /repo/test with their hub, in which
methods return, clocks give no reading twice and the first socket of a dock is the one to the hub, `OnStart` of the game and
of the lobby is called, and returns: `wg.Done` is called twice, and `main` gets to its end. -/
theorem C134_test_partial {E : World.Course exampleC T H R black} (F : World.Fair E) (W : E.WeaklyFair StartTurn)
    (hb : BodiesReturn E) (hd : ∀ d, ReadingsDiffer E d) (hh : HubFirst E) (hs : TestStarts E) (n0 n1 : Nat)
    (h0 : E.act n0 = some (.sys (.join 0))) (h1 : E.act n1 = some (.sys (.join 1))) :
    ∀ name ∈ [bytesOf "IGame", bytesOf "ILobby"], ∃ i j, i < j ∧ E.act i = some (.dock 1 (.onStart 0 name)) ∧
      E.act j = some (.dock 1 (.onStarted 0)) ∧ ∀ m, i < m → m ≤ j → Starting (E.st m) 1 0 name := by
  have hw : StartsWait E := by
    intro n d l name hall
    obtain ⟨todo, hn⟩ := hall n (Nat.le_refl _)
    have hk := (loop_named n d l _ hn).2 name rfl
    have known : ∀ c : Dock.Call, c.slot = bytesOf "IMath" → Known E 1 c.slot := fun c hc =>
      Or.inr ⟨n0, 0, ⟨bytesOf "IMath", 1, true⟩, h0, ⟨[], [], rfl, hc.symm, by simp⟩, rfl⟩
    rcases (show d = 0 ∨ d = 1 ∨ 2 ≤ d by omega) with rfl | rfl | h2
    · have e : Dock.keysOf (exampleC 0) = [bytesOf "IMath"] := by decide +kernel
      rw [e, List.mem_singleton] at hk
      subst hk
      exact (hs.math n l hall).elim
    · have e : Dock.keysOf (exampleC 1) = [bytesOf "IGame", bytesOf "ILobby"] := by decide +kernel
      rw [e] at hk
      simp only [List.mem_cons, List.not_mem_nil, or_false] at hk
      rcases hk with rfl | rfl
      · obtain ⟨k, c, h2, h3, h4⟩ := hs.game n l hall
        exact ⟨k, c, h2, h4, known c (by rcases h3 with rfl | rfl <;> rfl)⟩
      · obtain ⟨k, h2, h3⟩ := hs.lobby n l hall
        exact ⟨k, _, h2, h3, Or.inl ⟨⟨bytesOf "IGame", 2, true⟩, List.mem_cons_self, rfl⟩⟩
    · have e : exampleC d = [] := by
        unfold exampleC
        rw [if_neg (by omega), if_neg (by omega)]
      rw [e] at hk
      cases hk
  obtain ⟨-, hall⟩ := C134_started_partial F W hb hd hw hh n1 1 h1
  intro name hn
  obtain ⟨f, hf, rfl⟩ : ∃ f ∈ exampleC 1, f.name = name := by
    simp only [List.mem_cons, List.not_mem_nil, or_false] at hn
    rcases hn with rfl | rfl
    · exact ⟨⟨bytesOf "IGame", 2, true⟩, List.mem_cons_self, rfl⟩
    · exact ⟨⟨bytesOf "ILobby", 3, true⟩, List.mem_cons_of_mem _ List.mem_cons_self, rfl⟩
  obtain ⟨i, j, h2, h3, h4, h5, -⟩ := hall f hf
  exact ⟨i, j, h2, h3, h4, h5⟩

/-! ## Executions that come to rest -/

/-- Nothing is left to the goroutines that start features: all have begun, and each is in an `OnStart` or has no more to call. -/
def startsRest (D : Nat) (S : World.State) : Bool :=
  (List.range D).all fun d => (S.rest d).starts.length == Whole.startsIn (S.sys.dock d).log &&
    (S.rest d).starts.all fun L => L.current.isSome || L.todo.isEmpty

/-- All dock's first sockets are those to the hub, where features are started. -/
def firstHub (D : Nat) (S : World.State) : Bool :=
  (List.range D).all fun d => Whole.startsIn (S.sys.dock d).log == 0 || (S.sys.dock d).sockets.head? == some .hub

/-- All states of an execution pass a test. -/
def allStates (C : Nat → List Carried) (T : Nat → Nat → Chan.Target) (H R : Nat → Str) (black : List Int)
    (f : World.State → Bool) : World.State → List World.Act → Bool
  | S, [] => f S
  | S, a :: as => f S && match S.step C T H R black a with
    | some S' => allStates C T H R black f S' as
    | none => true

theorem allStates_take {f : World.State → Bool} {as : List World.Act} {S S' : World.State} {n : Nat}
    (h : allStates C T H R black f S as = true) (hr : run (World.State.step C T H R black) S (as.take n) = some S') : f S' = true := by
  induction as generalizing S n with
  | nil =>
    simp only [List.take_nil, run] at hr
    cases hr
    exact h
  | cons a as ih =>
    simp only [allStates, Bool.and_eq_true] at h
    cases n with
    | zero =>
      simp only [List.take_zero, run] at hr
      cases hr
      exact h.1
    | succ n =>
      simp only [List.take_succ_cons, run] at hr
      split at hr
      · cases hr
      · rename_i S1 hs
        rw [hs] at h
        exact ih h.2 hr

/-- What is said of an execution that has come to rest and is continued by the passing of time. -/
theorem begin_of {D : Nat} {as : List World.Act} {S : World.State}
    (h : run (World.State.step C T H R black) (World.State.init T) as = some S) (ha : (as.all fun a => a.tame D) = true)
    (hq : startsRest D S = true) (alive : ∀ d, (S.rest d).chan.dead = false) (F : World.Fair E)
    (hst : ∀ n, n ≤ as.length → run (World.State.step C T H R black) (World.State.init T) (as.take n) = some (E.st n))
    (htail : ∀ n, as.length ≤ n → S.later (E.st n)) :
    E.WeaklyFair StartTurn ∧ (allStates C T H R black (firstHub D) (World.State.init T) as = true → HubFirst E) := by
  have J := World.tame_run h (List.all_eq_true.mp ha) alive
  have J' := World.tame_rest h (List.all_eq_true.mp ha)
  have hsys : ∀ n, as.length ≤ n → (E.st n).sys = S.sys := fun n hn => (htail n hn).1
  have hstarts : ∀ n d, as.length ≤ n → ((E.st n).rest d).starts = (S.rest d).starts := fun n d hn => by
    obtain ⟨k, e⟩ := (htail n hn).2 d
    exact (congrArg Whole.State.starts e :)
  have rest : ∀ d, (S.rest d).starts.length = Whole.startsIn (S.sys.dock d).log ∧
      ∀ L ∈ (S.rest d).starts, L.current.isSome = true ∨ L.todo = [] := by
    intro d
    rcases Nat.lt_or_ge d D with hd | hd
    · have := List.all_eq_true.mp hq d (List.mem_range.mpr hd)
      simp only [Bool.and_eq_true, beq_iff_eq, List.all_eq_true, Bool.or_eq_true, List.isEmpty_iff] at this
      exact this
    · rw [J.dock d hd, J' d hd]
      exact ⟨rfl, by simp [Whole.State.init]⟩
  refine ⟨?_, fun hf n d hlog => ?_⟩
  · intro K hK n hall
    obtain ⟨a, hk, hs⟩ := hall (max n as.length) (by omega)
    obtain ⟨S', hs⟩ := Option.ne_none_iff_exists'.mp hs
    have e1 := hsys (max n as.length) (by omega)
    have e2 := fun d => hstarts (max n as.length) d (by omega)
    cases hK with
    | begins d =>
      cases hk
      rcases starts_step hs d with ⟨_, h, _⟩ | ⟨_, h, _⟩ | ⟨_, _, _, h, _⟩ | ⟨_, _, _, h, _⟩
      · exact absurd rfl h
      · rw [e1, e2] at h
        have := (rest d).1
        omega
      · cases h
      · cases h
    | next d l =>
      obtain ⟨name, rfl⟩ := hk
      rcases starts_step hs d with ⟨_, _, h, _⟩ | ⟨h, _⟩ | ⟨_, _, todo, h, h1, h2, _⟩ | ⟨_, _, _, h, _⟩
      · exact absurd rfl (h l name)
      · cases h
      · cases h
        rw [e2] at h1
        rcases (rest d).2 _ (List.mem_of_getElem? h1) with h | h
        · cases h
        · have h : todo = [] := h
          rw [h] at h2; cases h2
      · cases h
  · rcases Nat.lt_or_ge d D with hd | hd
    · have check : firstHub D (E.st n) = true → ((E.st n).sys.dock d).sockets.head? = some .hub := by
        intro hc
        have := List.all_eq_true.mp hc d (List.mem_range.mpr hd)
        simp only [Bool.or_eq_true, beq_iff_eq] at this
        rcases this with h0 | h0
        · have := startsIn_pos.mpr hlog
          omega
        · exact h0
      rcases Nat.le_total n as.length with hn | hn
      · exact check (allStates_take hf (hst n hn))
      · have hS : firstHub D S = true := allStates_take (n := as.length) hf (by rw [List.take_length]; exact h)
        exact check (by unfold firstHub at hS ⊢; rw [hsys n hn]; exact hS)
    · obtain ⟨l, hl⟩ := begin_log F d (show n ≤ max n as.length by omega)
      rw [hsys _ (by omega), J.dock d hd] at hl
      have : ((E.st n).sys.dock d).log = [] := (List.append_eq_nil_iff.mp hl.symm).1
      rw [this] at hlog
      cases hlog

/-- Once all loops have ended, no `OnStart` lasts for ever. -/
theorem ended_of {as : List World.Act} {S : World.State} (htail : ∀ n, as.length ≤ n → S.later (E.st n))
    (hS : ∀ d, ∀ L ∈ (S.rest d).starts, L.current = none) (n d l : Nat) (name : Str) :
    ¬ ∀ m, n ≤ m → Starting (E.st m) d l name := by
  intro h
  obtain ⟨todo, h⟩ := h (max n as.length) (by omega)
  obtain ⟨k, e⟩ := (htail (max n as.length) (by omega)).2 d
  have e : ((E.st (max n as.length)).rest d).starts = (S.rest d).starts := (congrArg Whole.State.starts e :)
  rw [e] at h
  cases hS d _ (List.mem_of_getElem? h)

/-- In executions that have come to rest with no method running, methods return. -/
theorem bodies_of {D : Nat} {as : List World.Act} {S : World.State}
    (h : run (World.State.step C T H R black) (World.State.init T) as = some S) (ha : (as.all fun a => a.tame D) = true)
    (hi : ∀ d c, (S.rest d).chan.handler c = .idle) (htail : ∀ n, as.length ≤ n → S.later (E.st n)) : BodiesReturn E := by
  intro n d c q _
  refine ⟨max n as.length, by omega, fun hr => ?_⟩
  obtain ⟨k, e⟩ := (htail (max n as.length) (by omega)).2 d
  have e : ((E.st (max n as.length)).rest d).chan = { (S.rest d).chan with clock := k } := congrArg Whole.State.chan e
  rw [e] at hr
  have hr : (S.rest d).chan.handler c = .running q := hr
  rw [hi d c] at hr
  cases hr

/-! ## Executions -/

/-- Both docks register with the hub. -/
def bothJoin : List World.Act := List.map lift
  [.join 0, .dock 0 .storeHub, .dock 0 (.greet 0 [nameA]), .deliver 1, .hub (.work 1), .hub (.work 1), .deliver 0,
   .dock 0 (.work 0 []), .dock 0 (.work 0 [nameA]), .deliver 1, .hub (.work 1), .hub (.work 1),
   .join 1, .dock 1 .storeHub, .dock 1 (.greet 2 [nameB]), .deliver 3, .hub (.work 3), .hub (.work 3), .deliver 2,
   .dock 1 (.work 2 []), .dock 1 (.work 2 [nameB]), .deliver 3, .hub (.work 3), .hub (.work 3)]

/-- `OnStart` of the feature of each dock calls the feature of the other dock; the calls are made at the same time. -/
def mutualRest : List World.Act := impatient ++ bothJoin ++
  [.dock 0 .start, .dock 0 (.onStart 0 nameA), .dock 1 .start, .dock 1 (.onStart 0 nameB),
   .dock 1 (.call ⟨nameA, methM, [], true⟩ 77 none)] ++
  List.map lift
  [.dock 1 (.store 0), .dock 1 (.setReq 0), .dock 1 (.commit 0), .deliver 3, .hub (.look 0), .hub (.examine 0),
   .hub (.respond 0), .deliver 2, .dial 1 2 0 20001, .dock 1 (.work 2 []), .accept 5, .dock 0 (.greet 5 [nameA]), .deliver 4,
   .dock 1 (.work 4 [nameB]), .dock 1 (.work 4 []), .dock 1 (.work 4 []), .dock 1 (.greet 4 [nameB]), .deliver 5,
   .dock 0 (.work 5 []), .dock 0 (.work 5 []), .dock 0 (.work 5 []), .deliver 5, .dock 0 (.work 5 [nameA]),
   .dock 0 (.work 5 []), .dock 0 (.work 5 []), .deliver 4, .dock 1 (.work 4 []), .dock 1 (.visit 4 0), .dock 1 (.work 4 []),
   .dock 1 (.work 4 []), .dock 1 (.work 4 []), .dock 1 (.work 4 [])] ++
  [.dock 0 (.call ⟨nameB, methM, [], true⟩ 78 none), .dock 0 (.dock (.store 0)), .dock 0 (.dock (.setReq 0)),
   .dock 0 (.dock (.commit 0)), .sys (.deliver 5), .sys (.deliver 4), .dock 0 (.invoke 0), .dock 1 (.invoke 0)] ++
  (List.flatten ([0, 1].map fun d =>
  [.dock d (.chan (.push 0)), .dock d (.chan (.start 0)), .dock d (.chan (.ret 0 [.bool 0 true])), .dock d (.chan (.settleH 0)),
   .dock d (.chan (.deliverH 0)), .dock d (.chan (.receive 0)), .dock d (.finish 0), .dock d (.respond 0)])) ++
  [.sys (.deliver 4), .sys (.deliver 5)] ++
  (List.flatten ([0, 1].map fun d =>
   [.dock d (.dock (.callback 0)), .dock d (.dock (.receive 0)), .dock d (.returns 0), .dock d (.dock (.delete 0)), .dock d (.onStarted 0),
    .dock d (.chan (.wake 0)), .dock d (.chan (.settleT 0))]))

/-- The hub's answer to dock 1 is handled before `run` has stored the socket to the hub, /repo/dock.go:199-204 and 117-122.  `OnStart`
calls a feature of dock 0; the query for it is sent to `sockets[0]`, which nobody is connected to. -/
def lateRest : List World.Act := List.map lift
  [.join 0, .dock 0 .storeHub, .dock 0 (.greet 0 [nameA]), .deliver 1, .hub (.work 1), .hub (.work 1), .deliver 0,
   .dock 0 (.work 0 []), .dock 0 (.work 0 [nameA]), .deliver 1, .hub (.work 1), .hub (.work 1),
   .join 1, .dock 1 (.greet 2 [nameB]), .deliver 3, .hub (.work 3), .hub (.work 3), .deliver 2,
   .dock 1 (.work 2 []), .dock 1 .storeHub, .dock 1 (.work 2 [nameB]), .deliver 3, .hub (.work 3), .hub (.work 3)] ++
  [.dock 0 .start, .dock 0 (.onStart 0 nameA), .dock 0 (.onStarted 0), .dock 1 .start, .dock 1 (.onStart 0 nameB),
   .dock 1 (.call ⟨nameA, methM, [], true⟩ 77 none), .dock 1 (.dock (.store 0)), .dock 1 (.dock (.setReq 0)), .dock 1 (.dock (.commit 0))]
/-- Both docks of the example application register with the hub. -/
def testJoin : List World.Act :=
  [.dock 0 (.chan (.setTimeout 0 (bytesOf "Print") 0)), .dock 0 (.chan (.setTimeout 0 (bytesOf "Add") 0)),
   .dock 1 (.chan (.setTimeout 0 (bytesOf "Start") 0))] ++
  List.map lift
  [.join 0, .dock 0 .storeHub, .dock 0 (.greet 0 [bytesOf "IMath"]), .deliver 1, .hub (.work 1), .hub (.work 1), .deliver 0,
   .dock 0 (.work 0 []), .dock 0 (.work 0 [bytesOf "IMath"]), .deliver 1, .hub (.work 1), .hub (.work 1),
   .join 1, .dock 1 .storeHub, .dock 1 (.greet 2 [bytesOf "IGame", bytesOf "ILobby"]), .deliver 3, .hub (.work 3), .hub (.work 3),
   .hub (.work 3), .deliver 2, .dock 1 (.work 2 []), .dock 1 (.work 2 [bytesOf "IGame", bytesOf "ILobby"]), .deliver 3,
   .hub (.work 3), .hub (.work 3), .hub (.work 3)]

/-- Dock 0 runs a method and sends the result to dock 1. -/
def testServe (i : Nat) (res : List Val) : List World.Act :=
  [.sys (.deliver 5), .dock 0 (.invoke i), .dock 0 (.chan (.push i)), .dock 0 (.chan (.start 0)), .dock 0 (.chan (.ret 0 res)),
   .dock 0 (.chan (.settleH 0)), .dock 0 (.chan (.deliverH 0)), .dock 0 (.chan (.receive i)), .dock 0 (.finish i),
   .dock 0 (.respond i), .sys (.deliver 4), .dock 1 (.dock (.callback i)), .dock 1 (.dock (.receive i)), .dock 1 (.returns i),
   .dock 1 (.dock (.delete i)), .dock 0 (.chan (.wake i)), .dock 0 (.chan (.settleT i))]

/-- The example application: `OnStart` of the game calls `Print` and `Add` of the other dock, that of the lobby calls `Start` of
the same dock; all calls return. -/
def testRest : List World.Act := testJoin ++
  [.dock 0 .start, .dock 0 (.onStart 0 (bytesOf "IMath")), .dock 0 (.onStarted 0),
   .dock 1 .start, .dock 1 (.onStart 0 (bytesOf "IGame")), .dock 1 (.call testPrint 77 none)] ++
  List.map lift
  [.dock 1 (.store 0), .dock 1 (.setReq 0), .dock 1 (.commit 0), .deliver 3, .hub (.look 0), .hub (.examine 0),
   .hub (.respond 0), .deliver 2, .dial 1 2 0 20001, .dock 1 (.work 2 []), .accept 5, .dock 0 (.greet 5 [bytesOf "IMath"]),
   .deliver 4, .dock 1 (.work 4 [bytesOf "IGame", bytesOf "ILobby"]), .dock 1 (.work 4 []), .dock 1 (.work 4 []),
   .dock 1 (.greet 4 [bytesOf "IGame", bytesOf "ILobby"]), .deliver 5, .dock 0 (.work 5 []), .dock 0 (.work 5 []),
   .dock 0 (.work 5 []), .dock 0 (.work 5 []), .dock 0 (.work 5 []), .deliver 5, .dock 0 (.work 5 [bytesOf "IMath"]),
   .dock 0 (.work 5 []), .dock 0 (.work 5 []), .dock 0 (.work 5 []), .deliver 4, .dock 1 (.work 4 []), .dock 1 (.visit 4 0),
   .dock 1 (.work 4 []), .dock 1 (.work 4 []), .dock 1 (.work 4 []), .dock 1 (.work 4 [])] ++
  testServe 0 [] ++
  [.dock 1 (.call exampleCall 78 none), .dock 1 (.dock (.store 1)), .dock 1 (.dock (.setReq 1)), .dock 1 (.dock (.commit 1))] ++
  testServe 1 [.f64 0 0x4008000000000000] ++
  [.dock 1 (.onStarted 0), .dock 1 (.onStart 0 (bytesOf "ILobby")), .dock 1 (.call testStart 79 none), .dock 1 (.chan (.push 0)),
   .dock 1 (.chan (.start 0)), .dock 1 (.chan (.ret 0 [])), .dock 1 (.chan (.settleH 0)), .dock 1 (.chan (.deliverH 0)),
   .dock 1 (.chan (.receive 0)), .dock 1 (.onStarted 0), .dock 1 (.chan (.wake 0)), .dock 1 (.chan (.settleT 0))]

set_option synthInstance.maxSize 100000 in
set_option synthInstance.maxHeartbeats 2000000 in
/-- A fair execution in which `OnStart` of both docks call each other, and what C134 says of it. -/
example : ∃ E : World.Course worldC worldT sysH sysR [], World.Fair E ∧ E.WeaklyFair StartTurn ∧ BodiesReturn E ∧
    (∀ d, ReadingsDiffer E d) ∧ StartsWait E ∧ HubFirst E ∧ E.act 14 = some (.sys (.join 1)) ∧
    ∃ i j, i < j ∧ E.act i = some (.dock 1 (.onStart 0 nameB)) ∧ E.act j = some (.dock 1 (.onStarted 0)) := by
  obtain ⟨S, h, hv⟩ := worldWitness (C := worldC) (T := worldT) (H := sysH) (R := sysR) (as := mutualRest)
    (f := fun S => (World.quietOn false 2 S, startsRest 2 S, (S.sys.dock 0).n, (S.sys.dock 1).n,
      [0, 1].map fun d => (S.rest d).starts.map fun L => L.current)) (b := (true, true, 1, 1, [[none], [none]])) (by decide +kernel)
  simp only [Prod.mk.injEq] at hv
  obtain ⟨hq, hr, n0, n1, hl⟩ := hv
  have ht : (mutualRest.all fun a => a.tame 2) = true := by decide +kernel
  have hlen : mutualRest.length = 103 := by decide
  obtain ⟨E, F, hd, hD, hact, hst, htail⟩ := course_of (w := false) h ht hq (by
    intro d hd
    match d, hd with
    | 0, _ => omega
    | 1, _ => omega)
  have htail : ∀ n, mutualRest.length ≤ n → S.later (E.st n) := fun n hn => (htail n hn).1
  have Q := World.quiet_of h ht hq
  have hb := bodies_of h ht (Q.2.2.2 rfl) htail
  obtain ⟨W, hh⟩ := begin_of h ht hr (fun d => (Q.1.chan d).alive) F hst htail
  have hh := hh (by decide +kernel)
  have hw : StartsWait E := fun n d l name hall => (ended_of htail (by
    intro d L hL
    simp only [List.map_cons, List.map_nil, List.cons.injEq, and_true] at hl
    rcases (show d = 0 ∨ d = 1 ∨ 2 ≤ d by omega) with rfl | rfl | h2
    · exact List.mem_singleton.mp (hl.1 ▸ List.mem_map.mpr ⟨L, hL, rfl⟩)
    · exact List.mem_singleton.mp (hl.2 ▸ List.mem_map.mpr ⟨L, hL, rfl⟩)
    · rw [World.tame_rest h (List.all_eq_true.mp ht) d h2] at hL
      cases hL) n d l name hall).elim
  have hj : E.act 14 = some (.sys (.join 1)) := hact 14 (by omega)
  obtain ⟨i, j, h1, h2, h3, -⟩ := (C134_started_partial F W hb hd hw hh 14 1 hj).2 ⟨nameB, 2, true⟩ List.mem_cons_self
  exact ⟨E, F, W, hb, hd, hw, hh, hj, i, j, h1, h2, h3⟩

/-- The methods of the example application. -/
abbrev testT : Nat → Nat → Chan.Target := fun d => (exampleA someAdd d).targets noConv

set_option synthInstance.maxSize 100000 in
set_option synthInstance.maxHeartbeats 2000000 in
/-- A fair execution of the example application, and what C134 says of it. -/
example : ∃ E : World.Course exampleC testT sysH sysR [], World.Fair E ∧ E.WeaklyFair StartTurn ∧ BodiesReturn E ∧
    (∀ d, ReadingsDiffer E d) ∧ HubFirst E ∧ TestStarts E ∧ E.act 3 = some (.sys (.join 0)) ∧ E.act 15 = some (.sys (.join 1)) ∧
    ∀ name ∈ [bytesOf "IGame", bytesOf "ILobby"], ∃ i j, i < j ∧ E.act i = some (.dock 1 (.onStart 0 name)) ∧
      E.act j = some (.dock 1 (.onStarted 0)) := by
  obtain ⟨S, h, hv⟩ := worldWitness (C := exampleC) (T := testT) (H := sysH) (R := sysR) (as := testRest)
    (f := fun S => (World.quietOn false 2 S, startsRest 2 S, (S.sys.dock 0).n, (S.sys.dock 1).n,
      ((S.sys.dock 1).index 0, (S.sys.dock 1).index 1),
      [0, 1].map fun d => (S.rest d).starts.map fun L => L.current)) (b := (true, true, 0, 2, (77, 78), [[none], [none]]))
      (by decide +kernel)
  simp only [Prod.mk.injEq] at hv
  obtain ⟨hq, hr, n0, n1, ⟨i0, i1⟩, hl⟩ := hv
  have ht : (testRest.all fun a => a.tame 2) = true := by decide +kernel
  have hlen : testRest.length = 120 := by decide
  obtain ⟨E, F, hd, hD, hact, hst, htail⟩ := course_from (w := false) h ht hq (by
    intro d hd i j hi hj hij
    match d, hd with
    | 0, _ => omega
    | 1, _ =>
      rw [n1] at hi hj
      match i, j, hi, hj with
      | 0, 0, _, _ => rfl
      | 0, 1, _, _ => rw [i0, i1] at hij; exact absurd hij (by decide)
      | 1, 0, _, _ => rw [i0, i1] at hij; exact absurd hij (by decide)
      | 1, 1, _, _ => rfl)
  have htail : ∀ n, testRest.length ≤ n → S.later (E.st n) := fun n hn => (htail n hn).1
  have Q := World.quiet_of h ht hq
  have hb := bodies_of h ht (Q.2.2.2 rfl) htail
  obtain ⟨W, hh⟩ := begin_of h ht hr (fun d => (Q.1.chan d).alive) F hst htail
  have hh := hh (by decide +kernel)
  have ended := ended_of htail (by
    intro d L hL
    simp only [List.map_cons, List.map_nil, List.cons.injEq, and_true] at hl
    rcases (show d = 0 ∨ d = 1 ∨ 2 ≤ d by omega) with rfl | rfl | h2
    · exact List.mem_singleton.mp (hl.1 ▸ List.mem_map.mpr ⟨L, hL, rfl⟩)
    · exact List.mem_singleton.mp (hl.2 ▸ List.mem_map.mpr ⟨L, hL, rfl⟩)
    · rw [World.tame_rest h (List.all_eq_true.mp ht) d h2] at hL
      cases hL)
  have hs : TestStarts E := ⟨fun n l => ended n 0 l _, fun n l h => (ended n 1 l _ h).elim, fun n l h => (ended n 1 l _ h).elim⟩
  have hj0 : E.act 3 = some (.sys (.join 0)) := hact 3 (by omega)
  have hj1 : E.act 15 = some (.sys (.join 1)) := hact 15 (by omega)
  refine ⟨E, F, W, hb, hd, hh, hs, hj0, hj1, fun name hn => ?_⟩
  obtain ⟨i, j, h1, h2, h3, -⟩ := C134_test_partial F W hb hd hh hs 3 15 hj0 hj1 name hn
  exact ⟨i, j, h1, h2, h3⟩

set_option synthInstance.maxSize 100000 in
set_option synthInstance.maxHeartbeats 2000000 in
/-- **C134, violated.**  There is a fair execution that meets all other hypotheses of `C134_started_partial`, in which `run` has not
stored the socket to the hub when dock 1 handles the hub's answer.  `OnStart` of dock 1 calls a feature that dock 0 offers, and
never returns. -/
theorem C134_overtaken_refuted : ∃ E : World.Course worldC worldT sysH sysR [], World.Fair E ∧ E.WeaklyFair StartTurn ∧
    BodiesReturn E ∧ (∀ d, ReadingsDiffer E d) ∧ StartsWait E ∧ E.act 12 = some (.sys (.join 1)) ∧
    E.act 28 = some (.dock 1 (.onStart 0 nameB)) ∧ ∀ m, 28 < m → Starting (E.st m) 1 0 nameB := by
  obtain ⟨S, h, hv⟩ := worldWitness (C := worldC) (T := worldT) (H := sysH) (R := sysR) (as := lateRest)
    (f := fun S => ((World.quietOn true 2 S, startsRest 2 S, (S.sys.dock 0).n, (S.sys.dock 1).n), ((S.sys.dock 1).phase 0).result.isNone,
      [0, 1].map fun d => ((S.rest d).chan.n, (S.rest d).starts.map fun L => (L.todo, L.current))))
    (b := ((true, true, 0, 1), true, [(0, [([], none)]), (0, [([], some nameB)])])) (by decide +kernel)
  obtain ⟨S1, hs1, hv1⟩ := worldWitness (C := worldC) (T := worldT) (H := sysH) (R := sysR) (as := lateRest.take 29)
    (f := fun S => ((S.sys.dock 1).n, (S.rest 1).starts.map fun L => (L.todo, L.current))) (b := (0, [([], some nameB)])) (by decide +kernel)
  simp only [Prod.mk.injEq, List.map_cons, List.map_nil, List.cons.injEq, and_true] at hv hv1
  obtain ⟨⟨hq, hr, n0, n1⟩, hret, ⟨c0, l0⟩, c1, l1⟩ := hv
  have ht : (lateRest.all fun a => a.tame 2) = true := by decide +kernel
  have hlen : lateRest.length = 33 := by decide
  obtain ⟨E, F, hd, hD, hact, hst, htail⟩ := course_of (w := true) h ht hq (by
    intro d hd
    match d, hd with
    | 0, _ => omega
    | 1, _ => omega)
  rw [hlen] at hact
  have htick := fun n hn => (htail n hn).2
  have htail : ∀ n, lateRest.length ≤ n → S.later (E.st n) := fun n hn => (htail n hn).1
  have Q := World.quiet_of h ht hq
  obtain ⟨W, -⟩ := begin_of h ht hr (fun d => (Q.1.chan d).alive) F hst htail
  have st29 : E.st 29 = S1 := Option.some.inj ((hst 29 (by omega)).symm.trans hs1)
  have J' := World.tame_rest h (List.all_eq_true.mp ht)
  have hstarts : ∀ n d, 33 ≤ n → ((E.st n).rest d).starts = (S.rest d).starts := fun n d hn => by
    obtain ⟨k, e⟩ := (htail n (by omega)).2 d
    exact (congrArg Whole.State.starts e :)
  have one : ∀ {l : List Whole.Loop} {t c}, l.map (fun L => (L.todo, L.current)) = [(t, c)] → l = [⟨t, c⟩] := by
    intro l t c hl
    match l, hl with
    | [⟨_, _⟩], hl => cases hl; rfl
  have s1 := one l1
  -- the feature is being started
  have hon : ∀ m, 28 < m → ((E.st m).rest 1).starts[0]? = some ⟨[], some nameB⟩ := by
    refine Trace.keep (P := fun m => ((E.st m).rest 1).starts[0]? = some ⟨[], some nameB⟩) ?_ ?_
    · rw [st29, one hv1.2]; rfl
    · intro m hm hp
      rcases loop_step hp with ⟨h, _⟩ | ⟨_, h, _⟩ | ⟨_, _, h, _⟩
      · exact h
      · cases h
      · have hlt : m < 33 := Nat.lt_of_not_le fun hle => by
          obtain ⟨d', e⟩ := htick m (by omega)
          rw [e] at h
          cases h
        rw [hact m hlt] at h
        rcases (show m = 29 ∨ m = 30 ∨ m = 31 ∨ m = 32 by omega) with rfl | rfl | rfl | rfl <;> cases h
  have h29 : E.act 29 = some (.dock 1 (.call ⟨nameA, methM, [], true⟩ 77 none)) := hact 29 (by omega)
  have hno : ∀ m r, 29 < m → ((E.st m).sys.dock 1).phase ((E.st 29).sys.dock 1).n ≠ .returned r := by
    intro m r hm hr
    have hlt := course_called F hm h29 (by decide +kernel)
    have h2 := course_returned F (show m ≤ max m 33 by omega) hlt hr
    rw [(htail (max m 33) (by omega)).1, st29, hv1.1] at h2
    rw [h2] at hret
    cases hret
  have hb : BodiesReturn E := by
    intro n d c q hrun
    -- no method has been called
    have hn : (S.rest d).chan.n = 0 := by
      rcases (show d = 0 ∨ d = 1 ∨ 2 ≤ d by omega) with rfl | rfl | h2
      · exact c0
      · exact c1
      · rw [J' d h2]; rfl
    refine ⟨max n 33, by omega, fun hr => ?_⟩
    obtain ⟨t, e⟩ := (htail (max n 33) (by omega)).2 d
    have e : ((E.st (max n 33)).rest d).chan = { (S.rest d).chan with clock := t } := congrArg Whole.State.chan e
    rw [e] at hr
    have hr : (S.rest d).chan.handler c = .running q := hr
    have A : Chan.AnsInv (S.rest d).chan := (Reach.facts ⟨_, h⟩ d).2.1.ans
    obtain ⟨h1, -, h3⟩ := A.inHandler c q (by rw [hr]; rfl)
    have := fair_exists A h3
    omega
  have hw : StartsWait E := by
    intro n d l name hall
    obtain ⟨todo, hs⟩ := hall (max n 33) (by omega)
    rw [hstarts _ _ (by omega)] at hs
    rcases (show d = 0 ∨ d = 1 ∨ 2 ≤ d by omega) with rfl | rfl | h2
    · rw [one l0] at hs
      cases List.mem_singleton.mp (List.mem_of_getElem? hs)
    · rw [s1] at hs
      match l, hs with
      | 0, hs =>
        cases hs
        refine ⟨29, ⟨nameA, methM, [], true⟩, ⟨_, hon 29 (by omega)⟩, ⟨⟨77, h29⟩, ?_, fun _ m r hm => hno m r hm⟩, ?_⟩
        · intro hc
          exact absurd hc (by decide +kernel)
        · exact Or.inr ⟨0, 0, ⟨nameA, 3, true⟩, hact 0 (by omega), ⟨[], [], rfl, rfl, by simp⟩, rfl⟩
    · rw [J' d h2] at hs
      cases hs
  exact ⟨E, F, W, hb, hd, hw, hact 12 (by omega), hact 28 (by omega), fun m hm => ⟨_, hon m hm⟩⟩

end Verif.Props
