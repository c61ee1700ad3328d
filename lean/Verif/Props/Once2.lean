import Verif.Props.Once1

/-!
# C148: the program of the README; executions for C147 and C148
-/

namespace Verif.Props

open Verif Verif.Codec Verif.Proto Verif.System
open Verif.Dock (Carried LastNamed)

variable {T : Nat → Nat → Chan.Target} {H R : Nat → Str} {black : List Int}

/-- The docks `logger` and `game` of the README, /repo/README.md:89-90 and 119-120. -/
def helloC : Nat → List Carried := fun d =>
  if d = 0 then [⟨bytesOf "ILogger", 1, true⟩]
  else if d = 1 then [⟨bytesOf "IGame", 2, true⟩]
  else []

/-- `s.Call("ILogger", "Print", "Hello Ferry!")`, /repo/README.md:114. -/
def helloPrint : Dock.Call := ⟨bytesOf "ILogger", bytesOf "Print", [.str 0 (bytesOf "Hello Ferry!")], false⟩

/-- What `OnStart` of the features of the README does, /repo/README.md:112-115 and /repo/ferry.go:67-69: that of `logger` nothing;
that of `game` makes the call, once, and waits for nothing else; nobody else calls. -/
structure HelloStarts (E : World.Course helloC T H R black) : Prop where
  logger : ∀ n l, ¬ ∀ m, n ≤ m → Starting (E.st m) 0 l (bytesOf "ILogger")
  game : ∀ n l, (∀ m, n ≤ m → Starting (E.st m) 1 l (bytesOf "IGame")) →
    ∃ k, Starting (E.st k) 1 l (bytesOf "IGame") ∧ NeverReturns E k 1 helloPrint
  calls : ∀ i j, i < j → E.act i = some (.dock 1 (.onStart 0 (bytesOf "IGame"))) → E.act j = some (.dock 1 (.onStarted 0)) →
    ∃ n, i < n ∧ n < j ∧ Calls E n 1 helloPrint
  only : ∀ n d c, Calls E n d c → d = 1 ∧ c = helloPrint
  once : ∀ n n', Calls E n 1 helloPrint → Calls E n' 1 helloPrint → n = n'

private theorem logger_at {d k : Nat} (h : LastAt (helloC d) (bytesOf "ILogger") k) : d = 0 ∧ k = 0 := by
  obtain ⟨pre, f, post, h1, h2, -, rfl⟩ := h
  unfold helloC at h1
  split at h1
  · rename_i e
    cases pre with
    | nil => exact ⟨e, rfl⟩
    | cons x l =>
      have := congrArg List.length h1
      simp at this
  · split at h1
    · cases pre with
      | nil =>
        cases h1
        exact absurd h2 (by decide +kernel)
      | cons x l =>
        have := congrArg List.length h1
        simp at this
    · simp at h1

/-- **C148 (partial).**  In every fair execution of the hub, the logger and the game in which the methods
return, clocks give no reading twice and the first socket of the docks is the one to the hub, `OnStart` of the game is called
and returns, and exactly one method is started ever, by anyone: `Print` of the logger, with "Hello Ferry!".
Missing: that the first socket is the one to the hub, see `C148_silent_refuted`. -/
theorem C148_hello_partial {E : World.Course helloC T H R black} (F : World.Fair E) (W : E.WeaklyFair StartTurn)
    (hb : BodiesReturn E) (hd : ∀ d, ReadingsDiffer E d) (hh : HubFirst E) (hs : HelloStarts E) (n0 n1 : Nat)
    (h0 : E.act n0 = some (.sys (.join 0))) (h1 : E.act n1 = some (.sys (.join 1))) :
    ∃ i j m, i < j ∧ i < m ∧ E.act i = some (.dock 1 (.onStart 0 (bytesOf "IGame"))) ∧ E.act j = some (.dock 1 (.onStarted 0)) ∧
      StartsMethod E m 0 0 (bytesOf "Print") [.str 0 (bytesOf "Hello Ferry!")] ∧
      ∀ m' d k, E.act m' = some (.dock d (.chan (.start k))) → m' = m := by
  have known : Known E 1 helloPrint.slot :=
    Or.inr ⟨n0, 0, ⟨bytesOf "ILogger", 1, true⟩, h0, ⟨[], [], rfl, rfl, by simp⟩, rfl⟩
  have remote : ∀ f ∈ helloC 1, f.name ≠ helloPrint.slot := by decide +kernel
  have hw : StartsWait E := by
    intro n d l name hall
    obtain ⟨todo, hn⟩ := hall n (Nat.le_refl _)
    have hk := (loop_named n d l _ hn).2 name rfl
    rcases (show d = 0 ∨ d = 1 ∨ 2 ≤ d by omega) with rfl | rfl | h2
    · have e : Dock.keysOf (helloC 0) = [bytesOf "ILogger"] := by decide +kernel
      rw [e, List.mem_singleton] at hk
      subst hk
      exact (hs.logger n l hall).elim
    · have e : Dock.keysOf (helloC 1) = [bytesOf "IGame"] := by decide +kernel
      rw [e, List.mem_singleton] at hk
      subst hk
      obtain ⟨k, h2, h3⟩ := hs.game n l hall
      exact ⟨k, _, h2, h3, known⟩
    · have e : helloC d = [] := by
        unfold helloC
        rw [if_neg (by omega), if_neg (by omega)]
      rw [e] at hk
      cases hk
  obtain ⟨-, hall⟩ := C134_started_partial F W hb hd hw hh n1 1 h1
  obtain ⟨i, j, hij, hi, hj, hrun, honce⟩ := hall ⟨bytesOf "IGame", 2, true⟩ List.mem_cons_self
  obtain ⟨n, hin, hnj, hc⟩ := hs.calls i j hij hi hj
  have offered : ∀ n, Calls E n 1 helloPrint → Offered E n 1 helloPrint.slot := by
    intro n' hc'
    obtain rfl := hs.once n n' hc hc'
    obtain ⟨todo, hn⟩ := hrun n hin (by omega)
    refine ⟨hh n 1 ?_, known.resolve_left fun ⟨f, hf, e⟩ => remote f hf e⟩
    rw [← startsIn_pos]
    have := loops_le F n 1
    have hl : 0 < ((E.st n).rest 1).starts.length := by
      rcases Nat.lt_or_ge 0 ((E.st n).rest 1).starts.length with h' | h'
      · exact h'
      · rw [List.getElem?_eq_none h'] at hn; cases hn
    omega
  obtain ⟨f, f1, f2, f3⟩ := C147_exactly_once F hb hd (by
    intro n' d c hc' _
    obtain ⟨rfl, rfl⟩ := hs.only n' d c hc'
    exact ⟨offered n' hc', by decide +kernel⟩)
  obtain ⟨hlt, d', k, meth, args, ⟨rfl, hl, ha⟩, hst⟩ := f1 n 1 _ hc
  obtain ⟨rfl, rfl⟩ := logger_at hl
  have ha : args = [.str 0 (bytesOf "Hello Ferry!")] := by
    rcases ha with ⟨e, _⟩ | ⟨_, _, rfl⟩
    · cases e
    · decide +kernel
  subst ha
  refine ⟨i, j, f n, hij, by omega, hi, hj, hst, fun m' d k hm' => ?_⟩
  obtain ⟨n', d2, c, hc', rfl⟩ := f3 m' d k hm'
  obtain ⟨rfl, rfl⟩ := hs.only n' d2 c hc'
  rw [hs.once n n' hc hc']

/-! ## Executions -/

/-- The methods of the README, /repo/README.md:82-84. -/
def helloA : Application := fun d k m =>
  if d = 0 ∧ k = 0 ∧ m = bytesOf "Print" then some ⟨[.str 0], fun _ res => res = []⟩ else none

/-- The methods of the README as targets of callees, /repo/README.md:82-84. -/
abbrev helloT : Nat → Nat → Chan.Target := fun d => (helloA d).targets noConv

/-- The program of the README: the docks register, `OnStart` of the game calls `Print` of the logger, the call returns. -/
def helloRest : List World.Act :=
  [.dock 0 (.chan (.setTimeout 0 (bytesOf "Print") 0))] ++
  List.map lift
  [.join 0, .dock 0 .storeHub, .dock 0 (.greet 0 [bytesOf "ILogger"]), .deliver 1, .hub (.work 1), .hub (.work 1), .deliver 0,
   .dock 0 (.work 0 []), .dock 0 (.work 0 [bytesOf "ILogger"]), .deliver 1, .hub (.work 1), .hub (.work 1),
   .join 1, .dock 1 .storeHub, .dock 1 (.greet 2 [bytesOf "IGame"]), .deliver 3, .hub (.work 3), .hub (.work 3),
   .deliver 2, .dock 1 (.work 2 []), .dock 1 (.work 2 [bytesOf "IGame"]), .deliver 3,
   .hub (.work 3), .hub (.work 3)] ++
  [.dock 0 .start, .dock 0 (.onStart 0 (bytesOf "ILogger")), .dock 0 (.onStarted 0),
   .dock 1 .start, .dock 1 (.onStart 0 (bytesOf "IGame")), .dock 1 (.call helloPrint 77 none)] ++
  List.map lift
  [.dock 1 (.store 0), .dock 1 (.setReq 0), .dock 1 (.commit 0), .deliver 3, .hub (.look 0), .hub (.examine 0),
   .hub (.respond 0), .deliver 2, .dial 1 2 0 20001, .dock 1 (.work 2 []), .accept 5, .dock 0 (.greet 5 [bytesOf "ILogger"]),
   .deliver 4, .dock 1 (.work 4 [bytesOf "IGame"]), .dock 1 (.work 4 []), .dock 1 (.work 4 []),
   .dock 1 (.greet 4 [bytesOf "IGame"]), .deliver 5, .dock 0 (.work 5 []), .dock 0 (.work 5 []),
   .dock 0 (.work 5 []), .deliver 5, .dock 0 (.work 5 [bytesOf "ILogger"]),
   .dock 0 (.work 5 []), .dock 0 (.work 5 []), .deliver 4, .dock 1 (.work 4 []), .dock 1 (.visit 4 0),
   .dock 1 (.work 4 []), .dock 1 (.work 4 []), .dock 1 (.work 4 []), .dock 1 (.work 4 [])] ++
  testServe 0 [] ++ [.dock 1 (.onStarted 0)]

/-- The calls among actions, with the steps. -/
def callsIn (as : List World.Act) : List (Nat × Nat × Dock.Call) :=
  as.zipIdx.filterMap fun x => match x.1 with
    | .dock d (.call c _ _) => some (x.2, d, c)
    | _ => none

/-- The steps among actions in which dock 1 calls `OnStart`, or `OnStart` returns. -/
private def startsAt (as : List World.Act) : List (Nat × Bool) :=
  as.zipIdx.filterMap fun x => match x.1 with
    | .dock d (.onStart _ _) => if d = 1 then some (x.2, true) else none
    | .dock d (.onStarted _) => if d = 1 then some (x.2, false) else none
    | _ => none

variable {C : Nat → List Carried} {E : World.Course C T H R black}

theorem course_zip {as : List World.Act} (hact : ∀ n, n < as.length → E.act n = as[n]?)
    (htick : ∀ n, as.length ≤ n → ∃ d, E.act n = some (.dock d (.chan .tick))) {n : Nat} {a : World.Act} (ha : E.act n = some a)
    (hn : ∀ d, a ≠ .dock d (.chan .tick)) : (a, n) ∈ as.zipIdx := by
  rcases Nat.lt_or_ge n as.length with h | h
  · rw [hact n h] at ha
    exact List.mk_mem_zipIdx_iff_getElem?.mpr ha
  · obtain ⟨d, e⟩ := htick n h
    rw [ha] at e
    cases e
    exact absurd rfl (hn d)

theorem calls_in {as : List World.Act} (hact : ∀ n, n < as.length → E.act n = as[n]?)
    (htick : ∀ n, as.length ≤ n → ∃ d, E.act n = some (.dock d (.chan .tick))) {n d : Nat} {c : Dock.Call} (h : Calls E n d c) :
    (n, d, c) ∈ callsIn as := by
  obtain ⟨clock, p, h⟩ := h
  exact List.mem_filterMap.mpr ⟨_, course_zip hact htick h (by simp), rfl⟩

private theorem starts_at {as : List World.Act} (hact : ∀ n, n < as.length → E.act n = as[n]?)
    (htick : ∀ n, as.length ≤ n → ∃ d, E.act n = some (.dock d (.chan .tick))) {n l : Nat} :
    (∀ name, E.act n = some (.dock 1 (.onStart l name)) → (n, true) ∈ startsAt as) ∧
      (E.act n = some (.dock 1 (.onStarted l)) → (n, false) ∈ startsAt as) :=
  ⟨fun _ h => List.mem_filterMap.mpr ⟨_, course_zip hact htick h (by simp), rfl⟩,
    fun h => List.mem_filterMap.mpr ⟨_, course_zip hact htick h (by simp), rfl⟩⟩

set_option synthInstance.maxSize 100000 in
set_option synthInstance.maxHeartbeats 2000000 in
/-- A fair execution of the program of the README, and what C148 says of it. -/
example : ∃ E : World.Course helloC helloT sysH sysR [], World.Fair E ∧ E.WeaklyFair StartTurn ∧ BodiesReturn E ∧
    (∀ d, ReadingsDiffer E d) ∧ HubFirst E ∧ HelloStarts E ∧ E.act 1 = some (.sys (.join 0)) ∧ E.act 13 = some (.sys (.join 1)) ∧
    ∃ m, StartsMethod E m 0 0 (bytesOf "Print") [.str 0 (bytesOf "Hello Ferry!")] := by
  obtain ⟨S, h, hv⟩ := worldWitness (C := helloC) (T := helloT) (H := sysH) (R := sysR) (as := helloRest)
    (f := fun S => (World.quietOn false 2 S, startsRest 2 S, (S.sys.dock 0).n, (S.sys.dock 1).n,
      [0, 1].map fun d => (S.rest d).starts.map fun L => L.current)) (b := (true, true, 0, 1, [[none], [none]]))
      (by decide +kernel)
  simp only [Prod.mk.injEq] at hv
  obtain ⟨hq, hr, n0, n1, hl⟩ := hv
  have ht : (helloRest.all fun a => a.tame 2) = true := by decide +kernel
  have hlen : helloRest.length = 81 := by decide
  obtain ⟨E, F, hd, hD, hact, hst, htail'⟩ := course_of (w := false) h ht hq (by
    intro d hd
    match d, hd with
    | 0, _ => omega
    | 1, _ => omega)
  have htail : ∀ n, helloRest.length ≤ n → S.later (E.st n) := fun n hn => (htail' n hn).1
  have htick : ∀ n, helloRest.length ≤ n → ∃ d, E.act n = some (.dock d (.chan .tick)) := fun n hn => (htail' n hn).2
  have Q := World.quiet_of h ht hq
  have hb := bodies_of h ht (Q.2.2.2 rfl) htail
  obtain ⟨W, hh⟩ := begin_of h ht hr (fun d => (Q.1.chan d).alive) F hst htail
  have hh := hh (by decide +kernel)
  have ended := ended_of htail (by
    intro d L hL
    simp only [List.map_cons, List.map_nil, List.cons.injEq, and_true] at hl
    rcases (show d = 0 ∨ d = 1 ∨ 2 ≤ d by omega) with rfl | rfl | h2
    · exact List.mem_singleton.mp (hl.1 ▸ List.mem_map.mpr ⟨L, hL, rfl⟩)
    · exact List.mem_singleton.mp (hl.2 ▸ List.mem_map.mpr ⟨L, hL, rfl⟩)
    · rw [World.tame_rest h (List.all_eq_true.mp ht) d h2] at hL
      cases hL)
  have hcalls : callsIn helloRest = [(30, 1, helloPrint)] := by decide +kernel
  have hstarts : startsAt helloRest = [(29, true), (80, false)] := by decide +kernel
  have only : ∀ n d c, Calls E n d c → n = 30 ∧ d = 1 ∧ c = helloPrint := by
    intro n d c hc
    have := calls_in hact htick hc
    rw [hcalls, List.mem_singleton] at this
    cases this
    exact ⟨rfl, rfl, rfl⟩
  have hc : Calls E 30 1 helloPrint := ⟨77, none, hact 30 (by omega)⟩
  have hs : HelloStarts E := by
    refine ⟨fun n l => ended n 0 l _, fun n l h => (ended n 1 l _ h).elim, fun i j hij hi hj => ?_, fun n d c h => (only n d c h).2,
      fun n n' h h' => (only _ _ _ h).1.trans (only _ _ _ h').1.symm⟩
    have a1 := (starts_at hact htick).1 _ hi
    have a2 := (starts_at hact htick).2 hj
    rw [hstarts] at a1 a2
    simp only [List.mem_cons, Prod.mk.injEq, List.not_mem_nil, or_false, Bool.true_eq_false, Bool.false_eq_true, and_true, and_false,
      or_false, false_or] at a1 a2
    exact ⟨30, by omega, by omega, hc⟩
  have hj0 : E.act 1 = some (.sys (.join 0)) := hact 1 (by omega)
  have hj1 : E.act 13 = some (.sys (.join 1)) := hact 13 (by omega)
  obtain ⟨_, _, m, _, _, _, _, hm, _⟩ := C148_hello_partial F W hb hd hh hs 1 13 hj0 hj1
  exact ⟨E, F, W, hb, hd, hh, hs, hj0, hj1, m, hm⟩

set_option synthInstance.maxSize 100000 in
set_option synthInstance.maxHeartbeats 2000000 in
/-- A fair execution of the example application, with two calls of another dock and one of the own, and what C147 says of it. -/
example : ∃ E : World.Course exampleC testT sysH sysR [], World.Fair E ∧ BodiesReturn E ∧ (∀ d, ReadingsDiffer E d) ∧
    (∀ n d c, Calls E n d c → (∀ f ∈ exampleC d, f.name ≠ c.slot) → Offered E n d c.slot ∧ wireOKList c.args = true) ∧
    (∃ n, Calls E n 1 testPrint) ∧ (∃ n, Calls E n 1 exampleCall) ∧ (∃ n, Calls E n 1 testStart) ∧
    ∃ f : Nat → Nat, ∀ m d k, E.act m = some (.dock d (.chan (.start k))) → ∃ n d' c, Calls E n d' c ∧ f n = m := by
  obtain ⟨S, h, hv⟩ := worldWitness (C := exampleC) (T := testT) (H := sysH) (R := sysR) (as := testRest)
    (f := fun S => (World.quietOn false 2 S, (S.sys.dock 0).n, (S.sys.dock 1).n,
      ((S.sys.dock 1).index 0, (S.sys.dock 1).index 1))) (b := (true, 0, 2, (77, 78))) (by decide +kernel)
  simp only [Prod.mk.injEq] at hv
  obtain ⟨hq, n0, n1, ⟨i0, i1⟩⟩ := hv
  have ht : (testRest.all fun a => a.tame 2) = true := by decide +kernel
  have hlen : testRest.length = 120 := by decide
  obtain ⟨E, F, hd, hD, hact, hst, htail'⟩ := course_from (w := false) h ht hq (by
    intro d hd i j hi hj hij
    match d, hd with
    | 0, _ => omega
    | 1, _ =>
      rw [n1] at hi hj
      match i, j, hi, hj with
      | 0, 0, _, _ => rfl
      | 0, 1, _, _ => rw [i0, i1] at hij; exact absurd hij (by decide)
      | 1, 0, _, _ => rw [i0, i1] at hij; exact absurd hij (by decide)
      | 1, 1, _, _ => rfl)
  have htail : ∀ n, testRest.length ≤ n → S.later (E.st n) := fun n hn => (htail' n hn).1
  have htick : ∀ n, testRest.length ≤ n → ∃ d, E.act n = some (.dock d (.chan .tick)) := fun n hn => (htail' n hn).2
  have Q := World.quiet_of h ht hq
  have hb := bodies_of h ht (Q.2.2.2 rfl) htail
  have hcalls : callsIn testRest = [(34, 1, testPrint), (87, 1, exampleCall), (110, 1, testStart)] := by decide +kernel
  have hj0 : E.act 3 = some (.sys (.join 0)) := hact 3 (by omega)
  have hub : ∀ n, n ≤ 120 → (∃ S, run (World.State.step exampleC testT sysH sysR []) (World.State.init testT) (testRest.take n) = some S ∧
      (S.sys.dock 1).sockets.head? = some .hub) → ((E.st n).sys.dock 1).sockets.head? = some .hub := by
    rintro n hn ⟨S', h1, h2⟩
    rw [hst n (by omega)] at h1
    cases h1
    exact h2
  have ho : ∀ n d c, Calls E n d c → (∀ f ∈ exampleC d, f.name ≠ c.slot) → Offered E n d c.slot ∧ wireOKList c.args = true := by
    intro n d c hc hr
    have := calls_in hact htick hc
    rw [hcalls] at this
    simp only [List.mem_cons, Prod.mk.injEq, List.not_mem_nil, or_false] at this
    rcases this with ⟨rfl, rfl, rfl⟩ | ⟨rfl, rfl, rfl⟩ | ⟨rfl, rfl, rfl⟩
    · exact ⟨⟨hub 34 (by omega) (worldWitness (by decide +kernel)), 3, 0, ⟨bytesOf "IMath", 1, true⟩, hj0, ⟨[], [], rfl, rfl, by simp⟩, rfl⟩,
        by decide +kernel⟩
    · exact ⟨⟨hub 87 (by omega) (worldWitness (by decide +kernel)), 3, 0, ⟨bytesOf "IMath", 1, true⟩, hj0, ⟨[], [], rfl, rfl, by simp⟩, rfl⟩,
        by decide +kernel⟩
    · exact absurd rfl (hr ⟨bytesOf "IGame", 2, true⟩ List.mem_cons_self)
  obtain ⟨f, -, -, f3⟩ := C147_exactly_once F hb hd ho
  exact ⟨E, F, hb, hd, ho, ⟨34, 77, none, hact 34 (by omega)⟩, ⟨87, 78, none, hact 87 (by omega)⟩, ⟨110, 79, none, hact 110 (by omega)⟩,
    f, f3⟩

end Verif.Props
