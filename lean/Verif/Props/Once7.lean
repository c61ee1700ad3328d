import Verif.Props.Once6

/-!
# C157: the methods that are executed are those that the `OnStart` functions call; the tests of the package
-/

namespace Verif.Props

open Verif Verif.Codec Verif.Proto Verif.System
open Verif.Dock (Carried LastNamed)

variable {C : Nat → List Carried} {T : Nat → Nat → Chan.Target} {H R : Nat → Str} {black : List Int}
  {E : World.Course C T H R black}

/-- A connection to the hub is made by joining. -/
theorem hub_joined {E : System.Course C H R black} (n d : Nat) (h : ((E.st n).dock d).peers.filter (fun x => x.2 = .hub) ≠ []) :
    ∃ m, E.act m = some (.join d) := by
  refine Classical.byContradiction fun hno => h ?_
  refine Trace.keep (P := fun n => ((E.st n).dock d).peers.filter (fun x => x.2 = .hub) = []) (n := 0) ?_ ?_ n (Nat.zero_le _)
  · rw [E.init]; rfl
  · intro m _ ih
    cases ha : E.act m with
    | none => rw [E.none_step ha]; exact ih
    | some a =>
      have hs := E.some_step ha
      have hp := dock_part hs d
      cases hx : (E.st m).dockAct a d with
      | none => rw [hx] at hp; simp only at hp; rw [hp]; exact ih
      | some x =>
        rw [hx] at hp
        simp only at hp
        cases Dock.newPeer_step _ _ _ _ hp with
        | same _ h' => rw [h']; exact ih
        | hub e h0 h' =>
          exfalso
          cases a with
          | join d' =>
            simp only [System.State.dockAct] at hx
            split at hx
            · rename_i e'; subst e'; exact hno ⟨m, ha⟩
            · cases hx
          | dock d' b =>
            simp only [System.State.dockAct] at hx
            split at hx
            · cases hx
              simp only [System.State.step] at hs
              simp [dockAlone] at hs
            · cases hx
          | _ =>
            simp only [System.State.dockAct] at hx
            repeat' split at hx
            all_goals cases hx
        | accept e port h' => rw [h', List.filter_append, ih]; simp
        | dial p e h' => rw [h', List.filter_append, ih]; simp

/-- The application consists of `OnStart` functions with lists of calls: that of the feature `name` of dock `d` makes the
calls `P d name`, and `who n` says for a call made in step `n` by which `OnStart` it is made and as which of its calls. -/
structure Scripts (E : World.Course C T H R black) (P : Nat → Str → List Dock.Call) (who : Nat → Str × Nat) : Prop where
  /-- all calls are made by an `OnStart` that has been called and has not returned -/
  made : ∀ n d c, Calls E n d c → (P d (who n).1)[(who n).2]? = some c ∧ (∃ f ∈ C d, f.name = (who n).1) ∧
    Starting (E.st n) d 0 (who n).1
  /-- each of them once -/
  once : ∀ n n' d c c', Calls E n d c → Calls E n' d c' → who n = who n' → n = n'
  /-- an `OnStart` that returns has made them all -/
  whole : ∀ i j d name k, i < j → E.act i = some (.dock d (.onStart 0 name)) → E.act j = some (.dock d (.onStarted 0)) →
    k < (P d name).length → ∃ n c, i < n ∧ Calls E n d c ∧ who n = (name, k)
  /-- one that does not return waits for one of them -/
  waits : ∀ n d l name, (∀ m, n ≤ m → Starting (E.st m) d l name) →
    ∃ k c, Starting (E.st k) d l name ∧ c ∈ P d name ∧ NeverReturns E k d c

/-- The feature `name` of dock `d` is started, and `c` is the call number `k` of its `OnStart`. -/
def Scripted (E : World.Course C T H R black) (P : Nat → Str → List Dock.Call) (d : Nat) (name : Str) (k : Nat)
    (c : Dock.Call) : Prop :=
  (∃ n, E.act n = some (.sys (.join d))) ∧ (∃ f ∈ C d, f.name = name) ∧ (P d name)[k]? = some c

/-- **C157 (partial).**  In every fair execution of a system with callees in which nothing is lost and nothing stops, methods
return, clocks give no reading twice and the first socket of a dock that starts its features is the one to the hub; whose
`OnStart` functions have lists of calls of known features, with arguments that survive the wire if the feature is that of
another dock: the calls in the lists of all features of docks that join and the methods started correspond to each other one
to one.  Each call of each list is made, has its method started exactly once afterwards, with its arguments, and no method is started
otherwise.
Missing: that the first socket is the one to the hub, see `C157_silent_refuted`. -/
theorem C157_scripts_partial (F : World.Fair E) (W : E.WeaklyFair StartTurn) (hb : BodiesReturn E)
    (hd : ∀ d, ReadingsDiffer E d) (hh : HubFirst E) {P : Nat → Str → List Dock.Call} {who : Nat → Str × Nat}
    (hs : Scripts E P who) (known : ∀ d name c, c ∈ P d name → Known E d c.slot)
    (wire : ∀ d name c, c ∈ P d name → (∀ f ∈ C d, f.name ≠ c.slot) → wireOKList c.args = true) :
    ∃ g : Nat → Str → Nat → Nat,
      (∀ d name k c, Scripted E P d name k c →
        (∃ n, Calls E n d c ∧ who n = (name, k) ∧ n < g d name k) ∧
        ∃ d' k' meth args, MeansMethod C d c d' k' meth args ∧ StartsMethod E (g d name k) d' k' meth args) ∧
      (∀ d name k c d' name' k' c', Scripted E P d name k c → Scripted E P d' name' k' c' → g d name k = g d' name' k' →
        d = d' ∧ name = name' ∧ k = k') ∧
      ∀ m d k, E.act m = some (.dock d (.chan (.start k))) →
        ∃ d' name k' c, Scripted E P d' name k' c ∧ g d' name k' = m := by
  classical
  have hw : StartsWait E := by
    intro n d l name hall
    obtain ⟨k, c, h1, h2, h3⟩ := hs.waits n d l name hall
    exact ⟨k, c, h1, h3, known d name c h2⟩
  have mem : ∀ n d c, Calls E n d c → c ∈ P d (who n).1 := fun n d c hc => List.mem_of_getElem? (hs.made n d c hc).1
  have offered : ∀ n d c, Calls E n d c → (∀ f ∈ C d, f.name ≠ c.slot) → Offered E n d c.slot := by
    intro n d c hc remote
    obtain ⟨todo, hn⟩ := (hs.made n d c hc).2.2
    refine ⟨hh n d ?_, (known d _ c (mem n d c hc)).resolve_left fun ⟨f, hf, e⟩ => remote f hf e⟩
    rw [← startsIn_pos]
    have := loops_le F n d
    have hl : 0 < ((E.st n).rest d).starts.length := by
      rcases Nat.lt_or_ge 0 ((E.st n).rest d).starts.length with h' | h'
      · exact h'
      · rw [List.getElem?_eq_none h'] at hn; cases hn
    omega
  obtain ⟨f, f1, f2, f3⟩ := C147_exactly_once F hb hd fun n d c hc hr => ⟨offered n d c hc hr, wire d _ c (mem n d c hc) hr⟩
  -- the step in which a call of a list is made
  have step : ∀ d name k c, Scripted E P d name k c → ∃ n, Calls E n d c ∧ who n = (name, k) := by
    rintro d name k c ⟨⟨n0, hj⟩, ⟨x, hx, rfl⟩, hc⟩
    obtain ⟨i, j, hij, hi, hj, -, -⟩ := (C134_started_partial F W hb hd hw hh n0 d hj).2 x hx
    obtain ⟨n, c', -, h1, h2⟩ := hs.whole i j d x.name k hij hi hj (List.getElem?_eq_some_iff.mp hc).1
    have h3 := (hs.made n d c' h1).1
    rw [h2] at h3
    have : c' = c := Option.some.inj (h3.symm.trans hc)
    exact ⟨n, this ▸ h1, h2⟩
  refine ⟨fun d name k => if h : ∃ n c, Calls E n d c ∧ who n = (name, k) then f h.choose else 0, ?_, ?_, ?_⟩
  all_goals
    have val : ∀ n d c, Calls E n d c → (if h : ∃ n' c, Calls E n' d c ∧ who n' = ((who n).1, (who n).2) then f h.choose else 0) = f n := by
      intro n d c hc
      have h : ∃ n' c, Calls E n' d c ∧ who n' = ((who n).1, (who n).2) := ⟨n, c, hc, rfl⟩
      rw [dif_pos h]
      obtain ⟨c', h1, h2⟩ := h.choose_spec
      rw [hs.once _ n d c' c h1 hc h2]
  · intro d name k c hS
    obtain ⟨n, h1, h2⟩ := step d name k c hS
    obtain ⟨hlt, d', k', meth, args, h3, h4⟩ := f1 n d c h1
    have := val n d c h1
    rw [h2] at this
    simp only at this ⊢
    rw [this]
    exact ⟨⟨n, h1, h2, hlt⟩, d', k', meth, args, h3, h4⟩
  · intro d name k c d' name' k' c' hS hS' e
    obtain ⟨n, h1, h2⟩ := step d name k c hS
    obtain ⟨n', h1', h2'⟩ := step d' name' k' c' hS'
    have v := val n d c h1
    have v' := val n' d' c' h1'
    rw [h2] at v
    rw [h2'] at v'
    have e : f n = f n' := by rw [← v, ← v']; exact e
    obtain rfl := f2 n d c n' d' c' h1 h1' e
    obtain ⟨rfl, -⟩ := calls_same h1 h1'
    rw [h2] at h2'
    cases h2'
    exact ⟨rfl, rfl, rfl⟩
  · intro m d k hm
    obtain ⟨n, d', c, h1, rfl⟩ := f3 m d k hm
    obtain ⟨a1, a2, a3⟩ := hs.made n d' c h1
    refine ⟨d', (who n).1, (who n).2, c, ⟨?_, a2, a1⟩, val n d' c h1⟩
    -- a dock that starts its features has joined
    obtain ⟨todo, hn⟩ := a3
    have hl : 0 < ((E.st n).rest d').starts.length := by
      rcases Nat.lt_or_ge 0 ((E.st n).rest d').starts.length with h' | h'
      · exact h'
      · rw [List.getElem?_eq_none h'] at hn; cases hn
    have hst : Dock.Ev.start ∈ ((E.st n).sys.dock d').log := by
      rw [← startsIn_pos]
      have := loops_le F n d'
      omega
    obtain ⟨as, hr⟩ := E.reach n
    obtain ⟨bs, hbs⟩ := World.sys_reach hr
    obtain ⟨ds, hds⟩ := (System.inv_run C H R black hbs).parts.dock d'
    obtain ⟨m', hm'⟩ := hub_joined (E := World.sysCourse E F.chan) n d'
      ((Dock.sockInv_run _ _ _ hds).some (Or.inl (List.mem_of_mem_head? (hh n d' hst))))
    have : (E.act m').bind (fun a => (E.st m').sysAct a) = some (.join d') := hm'
    cases ha : E.act m' with
    | none => rw [ha] at this; cases this
    | some a =>
      rw [ha] at this
      refine ⟨m', ?_⟩
      rw [ha]
      cases a with
      | sys a => cases this; rfl
      | dock d b =>
        simp only [Option.bind] at this
        unfold World.State.sysAct at this
        repeat' split at this
        all_goals first | cases this; done | skip
        rename_i heq
        cases heq

/-! ## The tests of the package -/

/-- `s.Call("ILogger", "Log", "Hello Ferry!")`, /repo/ferry_test.go:55. -/
def testLog : Dock.Call := ⟨bytesOf "ILogger", bytesOf "Log", [.str 0 (bytesOf "Hello Ferry!")], false⟩

/-- What `OnStart` of the features of the tests calls, /repo/ferry_test.go:54-64 and /repo/ferry.go:67-69. -/
def testCalls : Nat → Str → List Dock.Call := fun _ name => if name = bytesOf "ILogic" then [testLog, testCall] else []

/-- The features of the tests are distributed among docks: dock `dl` carries `ILogger`, as its feature `kl`, dock `da` carries `IAdd`,
as its feature `ka`, and `dg` is the dock with `ILogic`; in `TestOneDock` all are the same, /repo/ferry_test.go:74-77, and in
`TestMultiDocks` they are different, /repo/ferry_test.go:92-99. -/
structure Placed (C : Nat → List Carried) (dl kl da ka dg : Nat) : Prop where
  logger : ∀ d k, LastAt (C d) (bytesOf "ILogger") k ↔ d = dl ∧ k = kl
  add : ∀ d k, LastAt (C d) (bytesOf "IAdd") k ↔ d = da ∧ k = ka
  logic : ∀ d, (∃ f ∈ C d, f.name = bytesOf "ILogic") ↔ d = dg
  offered : ∀ d, ∀ f ∈ C d, f.discoverable = true

private theorem known_at {d' k d n : Nat} {slot : Str} (h : LastAt (C d') slot k) (hp : ∀ f ∈ C d', f.discoverable = true)
    (hj : E.act n = some (.sys (.join d'))) : Known E d slot := by
  obtain ⟨pre, f, post, h1, h2, h3, -⟩ := h
  exact Or.inr ⟨n, d', f, hj, ⟨pre, post, h1, h2, h3⟩, hp f (by rw [h1]; simp)⟩

/-- **C157, the tests of the package (partial).**  The hub is served and the features of the tests are carried by docks that join,
by one, by three, or however else: in every fair execution as in `C157_scripts_partial`, `OnStart` of `logic` is called and returns,
`Log` is started once, with "Hello Ferry!", `Add` is started once, with 1 and 2, as int if it is a feature of the same dock and else
as int8, and no other method is ever started: `wg.Done` is called three times.
Missing: that the first socket is the one to the hub, see `C157_silent_refuted`. -/
theorem C157_tests_partial (F : World.Fair E) (W : E.WeaklyFair StartTurn) (hb : BodiesReturn E) (hd : ∀ d, ReadingsDiffer E d)
    (hh : HubFirst E) {who : Nat → Str × Nat} (hs : Scripts E testCalls who) {dl kl da ka dg : Nat} (hp : Placed C dl kl da ka dg)
    (hj : ∀ d ∈ [dl, da, dg], ∃ n, E.act n = some (.sys (.join d))) :
    ∃ i j m m', i < j ∧ i < m ∧ i < m' ∧ m ≠ m' ∧
      E.act i = some (.dock dg (.onStart 0 (bytesOf "ILogic"))) ∧ E.act j = some (.dock dg (.onStarted 0)) ∧
      StartsMethod E m dl kl (bytesOf "Log") [.str 0 (bytesOf "Hello Ferry!")] ∧
      StartsMethod E m' da ka (bytesOf "Add") (if da = dg then [.int .int 0 1, .int .int 0 2] else [.int .i8 0 1, .int .i8 0 2]) ∧
      ∀ x d k, E.act x = some (.dock d (.chan (.start k))) → x = m ∨ x = m' := by
  obtain ⟨nl, hl⟩ := hj dl (by simp)
  obtain ⟨na, ha⟩ := hj da (by simp)
  obtain ⟨ng, hg⟩ := hj dg (by simp)
  have kl' := (hp.logger dl kl).mpr ⟨rfl, rfl⟩
  have ka' := (hp.add da ka).mpr ⟨rfl, rfl⟩
  have isCall : ∀ {d name c}, c ∈ testCalls d name → c = testLog ∨ c = testCall := by
    intro d name c hc
    unfold testCalls at hc
    split at hc
    · simpa using hc
    · cases hc
  have known : ∀ d name c, c ∈ testCalls d name → Known E d c.slot := by
    intro d name c hc
    rcases isCall hc with rfl | rfl
    · exact known_at kl' (hp.offered dl) hl
    · exact known_at ka' (hp.offered da) ha
  have wire : ∀ d name c, c ∈ testCalls d name → (∀ f ∈ C d, f.name ≠ c.slot) → wireOKList c.args = true := by
    intro d name c hc _
    rcases isCall hc with rfl | rfl <;> decide +kernel
  obtain ⟨g, g1, g2, g3⟩ := C157_scripts_partial F W hb hd hh hs known wire
  have hw : StartsWait E := by
    intro n d l name hall
    obtain ⟨k, c, h1, h2, h3⟩ := hs.waits n d l name hall
    exact ⟨k, c, h1, h3, known d name c h2⟩
  have lg := (hp.logic dg).mpr rfl
  obtain ⟨x, hx, hn⟩ := lg
  obtain ⟨i, j, hij, hi, hj', -, -⟩ := (C134_started_partial F W hb hd hw hh ng dg hg).2 x hx
  rw [hn] at hi
  have s0 : Scripted E testCalls dg (bytesOf "ILogic") 0 testLog := ⟨⟨ng, hg⟩, ⟨x, hx, hn⟩, rfl⟩
  have s1 : Scripted E testCalls dg (bytesOf "ILogic") 1 testCall := ⟨⟨ng, hg⟩, ⟨x, hx, hn⟩, rfl⟩
  have after : ∀ k c, Scripted E testCalls dg (bytesOf "ILogic") k c → k < 2 → i < g dg (bytesOf "ILogic") k := by
    intro k c hS hk
    obtain ⟨⟨n, h1, h2, h3⟩, -⟩ := g1 _ _ _ _ hS
    obtain ⟨n', c', h4, h5, h6⟩ := hs.whole i j dg _ k hij hi hj' (by show k < 2; exact hk)
    have := hs.once n n' dg c c' h1 h5 (h2.trans h6.symm)
    omega
  refine ⟨i, j, g dg (bytesOf "ILogic") 0, g dg (bytesOf "ILogic") 1, hij, after 0 _ s0 (by omega), after 1 _ s1 (by omega), ?_, hi, hj', ?_, ?_, ?_⟩
  · intro e
    exact absurd (g2 _ _ _ _ _ _ _ _ s0 s1 e).2.2 (by decide)
  · obtain ⟨-, d', k, meth, args, ⟨rfl, h1, h2⟩, h3⟩ := g1 _ _ _ _ s0
    obtain ⟨rfl, rfl⟩ := (hp.logger _ _).mp h1
    have : args = [.str 0 (bytesOf "Hello Ferry!")] := by
      rcases h2 with ⟨_, rfl⟩ | ⟨_, _, rfl⟩
      · rfl
      · decide +kernel
    rw [← this]
    exact h3
  · obtain ⟨-, d', k, meth, args, ⟨rfl, h1, h2⟩, h3⟩ := g1 _ _ _ _ s1
    obtain ⟨rfl, rfl⟩ := (hp.add _ _).mp h1
    have : args = if d' = dg then [.int .int 0 1, .int .int 0 2] else [.int .i8 0 1, .int .i8 0 2] := by
      rcases h2 with ⟨e, rfl⟩ | ⟨h4, _, rfl⟩
      · rw [if_pos e]; rfl
      · rw [if_neg]
        · decide +kernel
        · rintro rfl
          obtain ⟨pre, f, post, e1, e2, -⟩ := h1
          exact h4 f (by rw [e1]; simp) e2
    rw [← this]
    exact h3
  · intro y d k hy
    obtain ⟨d', name, k', c, hS, rfl⟩ := g3 y d k hy
    obtain ⟨-, hcar, hc⟩ := hS
    have hname : name = bytesOf "ILogic" := by
      unfold testCalls at hc
      split at hc
      · assumption
      · simp at hc
    subst hname
    obtain rfl := (hp.logic d').mp hcar
    have : k' < 2 := (List.getElem?_eq_some_iff.mp hc).1
    rcases (show k' = 0 ∨ k' = 1 by omega) with rfl | rfl
    · exact Or.inl rfl
    · exact Or.inr rfl

/-! ## Executions -/

/-- The dock of `TestOneDock`, /repo/ferry_test.go:74-77. -/
def oneC : Nat → List Carried := fun d =>
  if d = 0 then [⟨bytesOf "ILogger", 1, true⟩, ⟨bytesOf "IAdd", 2, true⟩, ⟨bytesOf "ILogic", 3, true⟩] else []

/-- Its methods, /repo/ferry_test.go:26-29 and 40-43; simplified as `exampleA`. -/
def oneA : Application := fun d k m =>
  if d = 0 ∧ k = 0 ∧ m = bytesOf "Log" then some ⟨[.iface], fun _ res => res = []⟩
  else if d = 0 ∧ k = 1 ∧ m = bytesOf "Add" then
    some ⟨[.int .int 0, .int .int 0], fun args res => ∃ x y, args = [.int .int 0 x, .int .int 0 y] ∧ res = [.int .int 0 (x + y)]⟩
  else none

/-- The methods as targets of callees, /repo/ferry_test.go:26-29 and 40-43. -/
abbrev oneT : Nat → Nat → Chan.Target := fun d => (oneA d).targets noConv

/-- The names of the features, in one order, /repo/ferry_test.go:75-77. -/
def oneNames : List Str := [bytesOf "ILogger", bytesOf "IAdd", bytesOf "ILogic"]

/-- A local call is executed and returns, /repo/chancall/callee.go:26-61 and 63-79. -/
def oneServe (q k : Nat) (res : List Val) : List World.Act :=
  [.dock 0 (.chan (.push q)), .dock 0 (.chan (.start k)), .dock 0 (.chan (.ret k res)), .dock 0 (.chan (.settleH k)),
   .dock 0 (.chan (.deliverH k)), .dock 0 (.chan (.receive q)), .dock 0 (.chan (.wake q)), .dock 0 (.chan (.settleT q))]

/-- An execution of `TestOneDock`, /repo/ferry_test.go:66-82. -/
def oneRest : List World.Act :=
  [.dock 0 (.chan (.setTimeout 0 (bytesOf "Log") 0)), .dock 0 (.chan (.setTimeout 1 (bytesOf "Add") 0))] ++
  List.map lift
  [.join 0, .dock 0 .storeHub, .dock 0 (.greet 0 oneNames), .deliver 1, .hub (.work 1), .hub (.work 1), .hub (.work 1), .hub (.work 1),
   .deliver 0, .dock 0 (.work 0 []), .dock 0 (.work 0 oneNames), .deliver 1, .hub (.work 1), .hub (.work 1), .hub (.work 1),
   .hub (.work 1)] ++
  [.dock 0 .start, .dock 0 (.onStart 0 (bytesOf "ILogger")), .dock 0 (.onStarted 0), .dock 0 (.onStart 0 (bytesOf "IAdd")),
   .dock 0 (.onStarted 0), .dock 0 (.onStart 0 (bytesOf "ILogic")), .dock 0 (.call testLog 77 none)] ++ oneServe 0 0 [] ++
  [.dock 0 (.call testCall 78 none)] ++ oneServe 1 1 [.int .int 0 3] ++ [.dock 0 (.onStarted 0)]

private theorem one_last {d k : Nat} {slot : Str} (h : LastAt (oneC d) slot k) : d = 0 ∧ ∃ f, (oneC 0)[k]? = some f ∧ f.name = slot := by
  obtain ⟨pre, f, post, h1, h2, -, rfl⟩ := h
  rcases Nat.eq_zero_or_pos d with rfl | hd
  · exact ⟨rfl, f, by rw [h1]; simp, h2⟩
  · rw [show oneC d = [] from if_neg (by omega)] at h1
    simp at h1

theorem one_placed : Placed oneC 0 0 0 1 0 := by
  refine ⟨fun d k => ⟨fun h => ?_, ?_⟩, fun d k => ⟨fun h => ?_, ?_⟩, fun d => ⟨?_, ?_⟩, fun d f hf => ?_⟩
  · obtain ⟨rfl, f, h1, h2⟩ := one_last h
    match k, h1 with
    | 0, _ => exact ⟨rfl, rfl⟩
    | 1, h1 => cases h1; exact absurd h2 (by decide +kernel)
    | 2, h1 => cases h1; exact absurd h2 (by decide +kernel)
  · rintro ⟨rfl, rfl⟩
    exact ⟨[], _, _, rfl, rfl, by decide +kernel, rfl⟩
  · obtain ⟨rfl, f, h1, h2⟩ := one_last h
    match k, h1 with
    | 0, h1 => cases h1; exact absurd h2 (by decide +kernel)
    | 1, _ => exact ⟨rfl, rfl⟩
    | 2, h1 => cases h1; exact absurd h2 (by decide +kernel)
  · rintro ⟨rfl, rfl⟩
    exact ⟨[_], _, _, rfl, rfl, by decide +kernel, rfl⟩
  · rintro ⟨f, hf, -⟩
    rcases Nat.eq_zero_or_pos d with rfl | hd
    · rfl
    · rw [show oneC d = [] from if_neg (by omega)] at hf
      cases hf
  · rintro rfl
    exact ⟨⟨bytesOf "ILogic", 3, true⟩, by simp [oneC], rfl⟩
  · unfold oneC at hf
    split at hf
    · simp only [List.mem_cons, List.not_mem_nil, or_false] at hf
      rcases hf with rfl | rfl | rfl <;> rfl
    · cases hf

set_option synthInstance.maxSize 100000 in
set_option synthInstance.maxHeartbeats 2000000 in
/-- A fair execution of `TestOneDock`, and what C157 says of it. -/
example : ∃ (E : World.Course oneC oneT sysH sysR []) (who : Nat → Str × Nat), World.Fair E ∧ E.WeaklyFair StartTurn ∧ BodiesReturn E ∧
    (∀ d, ReadingsDiffer E d) ∧ HubFirst E ∧ Scripts E testCalls who ∧ E.act 2 = some (.sys (.join 0)) ∧
    ∃ m m', m ≠ m' ∧ StartsMethod E m 0 0 (bytesOf "Log") [.str 0 (bytesOf "Hello Ferry!")] ∧
      StartsMethod E m' 0 1 (bytesOf "Add") [.int .int 0 1, .int .int 0 2] := by
  obtain ⟨S, h, hv⟩ := worldWitness (C := oneC) (T := oneT) (H := sysH) (R := sysR) (as := oneRest)
    (f := fun S => (World.quietOn false 1 S, startsRest 1 S, (S.sys.dock 0).n, (S.rest 0).starts.map fun L => L.current))
    (b := (true, true, 0, [none])) (by decide +kernel)
  simp only [Prod.mk.injEq] at hv
  obtain ⟨hq, hr, n0, hl⟩ := hv
  have ht : (oneRest.all fun a => a.tame 1) = true := by decide +kernel
  have hlen : oneRest.length = 43 := by decide
  obtain ⟨E, F, hd, hD, hact, hst, htail'⟩ := course_of (w := false) h ht hq (by
    intro d hd
    match d, hd with
    | 0, _ => omega)
  have htail : ∀ n, oneRest.length ≤ n → S.later (E.st n) := fun n hn => (htail' n hn).1
  have htick : ∀ n, oneRest.length ≤ n → ∃ d, E.act n = some (.dock d (.chan .tick)) := fun n hn => (htail' n hn).2
  have Q := World.quiet_of h ht hq
  have hb := bodies_of h ht (Q.2.2.2 rfl) htail
  obtain ⟨W, hh⟩ := begin_of h ht hr (fun d => (Q.1.chan d).alive) F hst htail
  have hh := hh (by decide +kernel)
  have ended := ended_of htail (by
    intro d L hL
    rcases Nat.eq_zero_or_pos d with rfl | h2
    · exact List.mem_singleton.mp (hl ▸ List.mem_map.mpr ⟨L, hL, rfl⟩)
    · rw [World.tame_rest h (List.all_eq_true.mp ht) d h2] at hL
      cases hL)
  have hcalls : callsIn oneRest = [(24, 0, testLog), (33, 0, testCall)] := by decide +kernel
  have only : ∀ n d c, Calls E n d c → (n = 24 ∧ d = 0 ∧ c = testLog) ∨ (n = 33 ∧ d = 0 ∧ c = testCall) := by
    intro n d c hc
    have := calls_in hact htick hc
    rw [hcalls] at this
    simpa using this
  have c24 : Calls E 24 0 testLog := ⟨77, none, hact 24 (by omega)⟩
  have c33 : Calls E 33 0 testCall := ⟨78, none, hact 33 (by omega)⟩
  have starting : ∀ n, n ≤ 43 → (∃ S, run (World.State.step oneC oneT sysH sysR []) (World.State.init oneT) (oneRest.take n) = some S ∧
      (S.rest 0).starts.map (fun L => (L.todo, L.current)) = [([], some (bytesOf "ILogic"))]) → Starting (E.st n) 0 0 (bytesOf "ILogic") := by
    rintro n hn ⟨S', h1, h2⟩
    rw [hst n (by omega)] at h1
    cases h1
    match hL : ((E.st n).rest 0).starts, h2 with
    | [⟨_, _⟩], h2 =>
      cases h2
      exact ⟨[], by rw [hL]; rfl⟩
  have hs : Scripts E testCalls fun n => (bytesOf "ILogic", if n = 24 then 0 else 1) := by
    refine ⟨fun n d c hc => ?_, fun n n' d c c' hc hc' e => ?_, fun i j d name k hij hi hj hk => ?_, fun n d l name hall => (ended n d l name hall).elim⟩
    · rcases only n d c hc with ⟨rfl, rfl, rfl⟩ | ⟨rfl, rfl, rfl⟩
      · exact ⟨rfl, (one_placed.logic 0).mpr rfl, starting 24 (by omega) (worldWitness (by decide +kernel))⟩
      · exact ⟨rfl, (one_placed.logic 0).mpr rfl, starting 33 (by omega) (worldWitness (by decide +kernel))⟩
    · rcases only n d c hc with ⟨rfl, -⟩ | ⟨rfl, -⟩ <;> rcases only n' d c' hc' with ⟨rfl, -⟩ | ⟨rfl, -⟩ <;> first | rfl | (simp at e)
    · have hname : name = bytesOf "ILogic" := by
        unfold testCalls at hk
        split at hk
        · assumption
        · cases hk
      subst hname
      have e := course_zip hact htick hi (by simp)
      have : (oneRest.zipIdx.all fun x => match x.1 with
        | .dock d (.onStart _ name) => name ≠ bytesOf "ILogic" || (x.2 = 23 && d = 0) | _ => true) = true := by decide +kernel
      have := List.all_eq_true.mp this _ e
      simp only [ne_eq, not_true_eq_false, decide_false, Bool.false_or, Bool.and_eq_true, decide_eq_true_eq] at this
      obtain ⟨rfl, rfl⟩ := this
      have hk : k < 2 := hk
      rcases (show k = 0 ∨ k = 1 by omega) with rfl | rfl
      · exact ⟨24, _, by omega, c24, rfl⟩
      · exact ⟨33, _, by omega, c33, rfl⟩
  have hj : E.act 2 = some (.sys (.join 0)) := hact 2 (by omega)
  obtain ⟨_, _, m, m', _, _, _, hm, _, _, h1, h2, _⟩ := C157_tests_partial F W hb hd hh hs one_placed (by simpa using ⟨2, hj⟩)
  exact ⟨E, _, F, W, hb, hd, hh, hs, hj, m, m', hm, h1, h2⟩

/-- What `OnStart` of the features of the README calls, /repo/README.md:112-115. -/
def helloCalls : Nat → Str → List Dock.Call := fun d name => if d = 1 ∧ name = bytesOf "IGame" then [helloPrint] else []

set_option synthInstance.maxSize 100000 in
set_option synthInstance.maxHeartbeats 2000000 in
/-- A fair execution of the program of the README, with a call of another dock, and what C157 says of it. -/
example : ∃ (E : World.Course helloC helloT sysH sysR []) (who : Nat → Str × Nat), World.Fair E ∧ E.WeaklyFair StartTurn ∧ BodiesReturn E ∧
    (∀ d, ReadingsDiffer E d) ∧ HubFirst E ∧ Scripts E helloCalls who ∧ (∀ d name c, c ∈ helloCalls d name → Known E d c.slot) ∧
    (∀ d name c, c ∈ helloCalls d name → (∀ f ∈ helloC d, f.name ≠ c.slot) → wireOKList c.args = true) ∧
    Scripted E helloCalls 1 (bytesOf "IGame") 0 helloPrint ∧ ∃ m d k meth args, MeansMethod helloC 1 helloPrint d k meth args ∧
      StartsMethod E m d k meth args := by
  obtain ⟨S, h, hv⟩ := worldWitness (C := helloC) (T := helloT) (H := sysH) (R := sysR) (as := helloRest)
    (f := fun S => (World.quietOn false 2 S, startsRest 2 S, (S.sys.dock 0).n, (S.sys.dock 1).n,
      [0, 1].map fun d => (S.rest d).starts.map fun L => L.current)) (b := (true, true, 0, 1, [[none], [none]]))
      (by decide +kernel)
  simp only [Prod.mk.injEq] at hv
  obtain ⟨hq, hr, n0, n1, hl⟩ := hv
  have ht : (helloRest.all fun a => a.tame 2) = true := by decide +kernel
  have hlen : helloRest.length = 81 := by decide
  obtain ⟨E, F, hd, hD, hact, hst, htail'⟩ := course_of (w := false) h ht hq (by
    intro d hd
    match d, hd with
    | 0, _ => omega
    | 1, _ => omega)
  have htail : ∀ n, helloRest.length ≤ n → S.later (E.st n) := fun n hn => (htail' n hn).1
  have htick : ∀ n, helloRest.length ≤ n → ∃ d, E.act n = some (.dock d (.chan .tick)) := fun n hn => (htail' n hn).2
  have Q := World.quiet_of h ht hq
  have hb := bodies_of h ht (Q.2.2.2 rfl) htail
  obtain ⟨W, hh⟩ := begin_of h ht hr (fun d => (Q.1.chan d).alive) F hst htail
  have hh := hh (by decide +kernel)
  have ended := ended_of htail (by
    intro d L hL
    simp only [List.map_cons, List.map_nil, List.cons.injEq, and_true] at hl
    rcases (show d = 0 ∨ d = 1 ∨ 2 ≤ d by omega) with rfl | rfl | h2
    · exact List.mem_singleton.mp (hl.1 ▸ List.mem_map.mpr ⟨L, hL, rfl⟩)
    · exact List.mem_singleton.mp (hl.2 ▸ List.mem_map.mpr ⟨L, hL, rfl⟩)
    · rw [World.tame_rest h (List.all_eq_true.mp ht) d h2] at hL
      cases hL)
  have hcalls : callsIn helloRest = [(30, 1, helloPrint)] := by decide +kernel
  have only : ∀ n d c, Calls E n d c → n = 30 ∧ d = 1 ∧ c = helloPrint := by
    intro n d c hc
    have := calls_in hact htick hc
    rw [hcalls, List.mem_singleton] at this
    cases this
    exact ⟨rfl, rfl, rfl⟩
  have hc : Calls E 30 1 helloPrint := ⟨77, none, hact 30 (by omega)⟩
  have h30 : Starting (E.st 30) 1 0 (bytesOf "IGame") := by
    obtain ⟨S', h1, h2⟩ := worldWitness (C := helloC) (T := helloT) (H := sysH) (R := sysR) (as := helloRest.take 30)
      (f := fun S => (S.rest 1).starts.map fun L => (L.todo, L.current)) (b := [([], some (bytesOf "IGame"))]) (by decide +kernel)
    rw [hst 30 (by omega)] at h1
    cases h1
    match hL : ((E.st 30).rest 1).starts, h2 with
    | [⟨_, _⟩], h2 =>
      cases h2
      exact ⟨[], by rw [hL]; rfl⟩
  have isCall : ∀ {d name c}, c ∈ helloCalls d name → d = 1 ∧ name = bytesOf "IGame" ∧ c = helloPrint := by
    intro d name c hc
    unfold helloCalls at hc
    split at hc
    · rename_i e
      exact ⟨e.1, e.2, List.mem_singleton.mp hc⟩
    · cases hc
  have carried : ∃ f ∈ helloC 1, f.name = bytesOf "IGame" := ⟨⟨bytesOf "IGame", 2, true⟩, List.mem_cons_self, rfl⟩
  have hs : Scripts E helloCalls fun _ => (bytesOf "IGame", 0) := by
    refine ⟨fun n d c hc => ?_, fun n n' d c c' h1 h2 _ => (only _ _ _ h1).1.trans (only _ _ _ h2).1.symm, fun i j d name k hij hi hj hk => ?_,
      fun n d l name hall => (ended n d l name hall).elim⟩
    · obtain ⟨rfl, rfl, rfl⟩ := only n d c hc
      exact ⟨rfl, carried, h30⟩
    · have e : d = 1 ∧ name = bytesOf "IGame" := by
        unfold helloCalls at hk
        split at hk
        · assumption
        · cases hk
      obtain ⟨rfl, rfl⟩ := e
      have e := course_zip hact htick hi (by simp)
      have : (helloRest.zipIdx.all fun x => match x.1 with | .dock 1 (.onStart _ _) => x.2 = 29 | _ => true) = true := by decide +kernel
      have := List.all_eq_true.mp this _ e
      obtain rfl : i = 29 := by simpa using this
      have hk : k < 1 := hk
      obtain rfl : k = 0 := by omega
      exact ⟨30, _, by omega, hc, rfl⟩
  have known : ∀ d name c, c ∈ helloCalls d name → Known E d c.slot := by
    intro d name c hc
    obtain ⟨rfl, rfl, rfl⟩ := isCall hc
    exact Or.inr ⟨1, 0, ⟨bytesOf "ILogger", 1, true⟩, hact 1 (by omega), ⟨[], [], rfl, rfl, by simp⟩, rfl⟩
  have wire : ∀ d name c, c ∈ helloCalls d name → (∀ f ∈ helloC d, f.name ≠ c.slot) → wireOKList c.args = true := by
    intro d name c hc _
    obtain ⟨-, -, rfl⟩ := isCall hc
    decide +kernel
  have hS : Scripted E helloCalls 1 (bytesOf "IGame") 0 helloPrint := ⟨⟨13, hact 13 (by omega)⟩, carried, rfl⟩
  obtain ⟨g, g1, -⟩ := C157_scripts_partial F W hb hd hh hs known wire
  obtain ⟨-, d, k, meth, args, h1, h2⟩ := g1 _ _ _ _ hS
  exact ⟨E, _, F, W, hb, hd, hh, hs, known, wire, hS, _, d, k, meth, args, h1, h2⟩

/-- **C157, violated.**  There is a fair execution that meets all hypotheses of `C157_scripts_partial` but `HubFirst`, in which the
call of an `OnStart` has no method started: the program of the README, in the execution of `C148_silent_refuted`. -/
theorem C157_silent_refuted : ∃ (E : World.Course helloC helloT sysH sysR []) (who : Nat → Str × Nat), World.Fair E ∧
    E.WeaklyFair StartTurn ∧ BodiesReturn E ∧ (∀ d, ReadingsDiffer E d) ∧ Scripts E helloCalls who ∧
    (∀ d name c, c ∈ helloCalls d name → Known E d c.slot) ∧
    (∀ d name c, c ∈ helloCalls d name → (∀ f ∈ helloC d, f.name ≠ c.slot) → wireOKList c.args = true) ∧
    Scripted E helloCalls 1 (bytesOf "IGame") 0 helloPrint ∧ ∀ m d k, E.act m ≠ some (.dock d (.chan (.start k))) := by
  obtain ⟨E, F, W, hb, hd, hs, h0, h1, hi, hall, calls, never, none⟩ := C148_silent_refuted
  have isCall : ∀ {d name c}, c ∈ helloCalls d name → d = 1 ∧ name = bytesOf "IGame" ∧ c = helloPrint := by
    intro d name c hc
    unfold helloCalls at hc
    split at hc
    · rename_i e
      exact ⟨e.1, e.2, List.mem_singleton.mp hc⟩
    · cases hc
  have known : ∀ d name c, c ∈ helloCalls d name → Known E d c.slot := by
    intro d name c hc
    obtain ⟨rfl, rfl, rfl⟩ := isCall hc
    exact Or.inr ⟨0, 0, ⟨bytesOf "ILogger", 1, true⟩, h0, ⟨[], [], rfl, rfl, by simp⟩, rfl⟩
  have carried : ∃ f ∈ helloC 1, f.name = bytesOf "IGame" := ⟨⟨bytesOf "IGame", 2, true⟩, List.mem_cons_self, rfl⟩
  have scripts : Scripts E helloCalls fun _ => (bytesOf "IGame", 0) := by
    refine ⟨fun n d c hc => ?_, fun n n' d c c' hc hc' _ => ?_, fun i j d name k hij hi' hj hk => ?_, fun n d l name h => ?_⟩
    · obtain ⟨rfl, rfl, rfl⟩ := (calls n d c).mp hc
      exact ⟨rfl, carried, hall 29 (by omega)⟩
    · rw [((calls n d c).mp hc).1, ((calls n' d c').mp hc').1]
    · have e : d = 1 ∧ name = bytesOf "IGame" := by
        unfold helloCalls at hk
        split at hk
        · assumption
        · cases hk
      obtain ⟨rfl, rfl⟩ := e
      obtain ⟨n, h2, -, h3⟩ := hs.calls i j hij hi' hj
      have hk : k < 1 := hk
      obtain rfl : k = 0 := by omega
      exact ⟨n, _, h2, h3, rfl⟩
    · obtain ⟨todo, hn⟩ := h n (Nat.le_refl _)
      have hk := (loop_named n d l _ hn).2 name rfl
      rcases (show d = 0 ∨ d = 1 ∨ 2 ≤ d by omega) with rfl | rfl | h2
      · have e : Dock.keysOf (helloC 0) = [bytesOf "ILogger"] := by decide +kernel
        rw [e, List.mem_singleton] at hk
        subst hk
        exact (hs.logger n l h).elim
      · have e : Dock.keysOf (helloC 1) = [bytesOf "IGame"] := by decide +kernel
        rw [e, List.mem_singleton] at hk
        subst hk
        obtain ⟨k, h3, h4⟩ := hs.game n l h
        exact ⟨k, _, h3, List.mem_singleton.mpr rfl, h4⟩
      · have e : helloC d = [] := by
          unfold helloC
          rw [if_neg (by omega), if_neg (by omega)]
        rw [e] at hk
        cases hk
  exact ⟨E, _, F, W, hb, hd, scripts, known, fun d name c hc _ => by obtain ⟨-, -, rfl⟩ := isCall hc; decide +kernel,
    ⟨⟨12, h1⟩, carried, rfl⟩, none⟩

end Verif.Props
