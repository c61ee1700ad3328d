import Verif.Chan.App
import Verif.Props.World1
import Verif.Props.Remote1

/-!
# C123: a remote call applies the method
-/

namespace Verif.Props

open Verif Verif.Codec Verif.Proto Verif.Dock Verif.System Verif.Chan

/-- The objects carried by the docks, by dock and place in the list passed to `Startup`. -/
abbrev Application := Nat → Objects

/-- The bodies of the methods of all docks do what the application says. -/
def Application.Follows (o : Conv) (A : Application) (S : World.State) : World.Act → Prop
  | .dock d (.chan a) => Chan.Follows o (A d) (S.rest d).chan a
  | _ => True

/-- What the generated method of a proxy returns, if `CallWithResult` returns `r`, and the interface declares results of the
types `rs`: /repo/tool/ferry.gen.go:276-281. -/
def zeroOf : PTy → Val
  | .bool t => .bool t false
  | .uint k t => .uint k t 0
  | .int k t => .int k t 0
  | .f32 t => .f32 t 0
  | .f64 t => .f64 t 0
  | .str t => .str t []
  | _ => .nil

@[inherit_doc zeroOf]
def proxyReturns (rs : List PTy) (r : Ret) : Res (List Val) :=
  if r.err = [] then assertResults rs r.result else .ok (rs.map zeroOf)

/-! ## Executions -/

/-- What a step of a dock does to its callees. -/
private theorem chan_moves {cs : List Carried} {T : Nat → Chan.Target} {s t : Whole.State} {a : Whole.Act}
    (h : s.step cs T a = some t) :
    t.chan = s.chan ∨ (∃ b, a = .chan b ∧ s.chan.step T b = some t.chan) ∨
      ∃ k caller meth args parent, s.chan.step T (.call k caller meth args parent) = some t.chan := by
  unfold Whole.State.step at h
  split at h
  · cases h
  cases a with
  | dock a =>
    simp only at h
    split at h
    · cases h
    · obtain ⟨d, hd, rfl⟩ := Option.map_eq_some_iff.mp h
      exact Or.inl rfl
  | chan a =>
    simp only at h
    split at h
    · cases h
    · cases a with
      | ret c res =>
        simp only at h
        split at h
        · cases h
        · obtain ⟨d, hd, rfl⟩ := Option.map_eq_some_iff.mp h
          exact Or.inr (Or.inl ⟨_, rfl, hd⟩)
      | _ =>
        obtain ⟨d, hd, rfl⟩ := Option.map_eq_some_iff.mp h
        exact Or.inr (Or.inl ⟨_, rfl, hd⟩)
  | call c clock parent =>
    cases parent with
    | none =>
      simp only at h
      split at h
      · obtain ⟨d, hd, h⟩ := Option.bind_eq_some_iff.mp h
        obtain ⟨e, he, h⟩ := Option.bind_eq_some_iff.mp h
        cases h
        exact Or.inr (Or.inr ⟨_, _, _, _, _, he⟩)
      · obtain ⟨d, hd, rfl⟩ := Option.map_eq_some_iff.mp h
        exact Or.inl rfl
    | some p =>
      simp only at h
      split at h
      · split at h
        · obtain ⟨d, hd, h⟩ := Option.bind_eq_some_iff.mp h
          obtain ⟨e, he, h⟩ := Option.bind_eq_some_iff.mp h
          cases h
          exact Or.inr (Or.inr ⟨_, _, _, _, _, he⟩)
        · obtain ⟨d, hd, rfl⟩ := Option.map_eq_some_iff.mp h
          exact Or.inl rfl
      · cases h
  | invoke k =>
    simp only at h
    split at h
    · obtain ⟨d, hd, h⟩ := Option.bind_eq_some_iff.mp h
      obtain ⟨e, he, h⟩ := Option.bind_eq_some_iff.mp h
      cases h
      exact Or.inr (Or.inr ⟨_, _, _, _, _, he⟩)
    · cases h
  | finish k =>
    simp only at h
    repeat' split at h
    · obtain ⟨d, hd, rfl⟩ := Option.map_eq_some_iff.mp h
      exact Or.inl rfl
    · cases h
    · cases h
  | returns i =>
    obtain ⟨d, hd, rfl⟩ := Option.map_eq_some_iff.mp h
    exact Or.inl rfl
  | respond k =>
    obtain ⟨d, hd, rfl⟩ := Option.map_eq_some_iff.mp h
    exact Or.inl rfl
  | _ =>
    simp only at h
    repeat' split at h
    all_goals cases h
    all_goals exact Or.inl rfl

section
variable {C : Nat → List Carried} {H R : Nat → Str} {black : List Int} {o : Conv} {A : Application}

private theorem app_inv {as : List World.Act} {S : World.State}
    (h : run (World.State.step C (fun d => (A d).targets o) H R black) (World.State.init fun d => (A d).targets o) as = some S)
    (hf : AllSteps (World.State.step C (fun d => (A d).targets o) H R black) (World.State.init fun d => (A d).targets o) as
      (A.Follows o)) (d : Nat) : AppInv o (A d) (S.rest d).chan := by
  have := run_inv_steps (I := fun S : World.State => World.Inv C (fun d => (A d).targets o) S ∧
      ∀ d, AnsInv (S.rest d).chan ∧ AppInv o (A d) (S.rest d).chan) ?_ as _ _ hf
      ⟨World.inv_init, fun d => ⟨ansInv_init _, appInv_init o (A d)⟩⟩ h
  · exact (this.2 d).2
  rintro s a t hok ⟨I, hI⟩ hs
  refine ⟨World.inv_step s a t I hs, fun d => ?_⟩
  obtain ⟨B, J⟩ := hI d
  rcases World.at_step hs I.down d with e | ⟨-, b, e, hb⟩
  · have e' : (t.at d).chan = (s.at d).chan := congrArg Whole.State.chan e
    have e' : (t.rest d).chan = (s.rest d).chan := e'
    rw [e']
    exact ⟨B, J⟩
  · rcases chan_moves e with e | ⟨b', rfl, e1⟩ | ⟨k, caller, meth, args, parent, e⟩
    · have e' : (t.rest d).chan = (s.rest d).chan := e
      rw [e']
      exact ⟨B, J⟩
    · have e' : (s.rest d).chan.step ((A d).targets o) b' = some (t.rest d).chan := e1
      refine ⟨ansInv_step _ _ _ _ B e', appInv_step o (A d) _ b' _ B J ?_ e'⟩
      rcases hb with rfl | ⟨⟨b'', hb, -⟩, -⟩
      · exact hok
      · cases hb
    · have e' : (s.rest d).chan.step ((A d).targets o) (.call k caller meth args parent) = some (t.rest d).chan := e
      exact ⟨ansInv_step _ _ _ _ B e', appInv_step o (A d) _ (.call k caller meth args parent) _ B J trivial e'⟩

end

/-- The result `r` of call `c` is that of a method of the application: of the object carried under the name of the
feature by a dock, as the last of that name and discoverable. -/
def Applied (C : Nat → List Carried) (o : Conv) (A : Application) (c : Call) (r : Ret) : Prop :=
  ∃ d' k, LastAt (C d') c.slot k ∧ (∃ f, (C d')[k]? = some f ∧ f.discoverable = true) ∧
    match A d' k c.meth with
    | some M => ∃ ps, convertArgs o M.params (canonList c.args) = .ok ps ∧ ∃ res, M.yields ps res ∧
        r.result = if c.withResult then canonList res else []
    | none => r.result = []

/-- The error of a call whose method did not return in time. -/
def TimedOut (c : Call) (r : Ret) : Prop := r.err = 91#8 :: (c.meth ++ Whole.cTimedOut) ∧ r.result = []

/-- **C123.**  Objects whose methods behave as `A` says are carried by docks.  In every reachable state, a remote call that
has a result and whose arguments and possible results survive the wire has applied the method, once, to its arguments as they
arrive over the wire and converted to the types of the parameters, and returns what the method returned; or it reports that
the method did not return in time. -/
theorem C123_results (C : Nat → List Carried) (o : Conv) (A : Application) (H R : Nat → Str) (black : List Int)
    (as : List World.Act) (S : World.State)
    (h : run (World.State.step C (fun d => (A d).targets o) H R black) (World.State.init fun d => (A d).targets o) as = some S)
    (hf : AllSteps (World.State.step C (fun d => (A d).targets o) H R black) (World.State.init fun d => (A d).targets o) as
      (A.Follows o)) (d i : Nat) (r : Ret) (hi : i < (S.sys.dock d).n)
    (hr : (S.sys.dock d).phase i = .received r ∨ (S.sys.dock d).phase i = .returned r)
    (hd : ∀ j, j < (S.sys.dock d).n → (S.sys.dock d).index j = (S.sys.dock d).index i → j = i)
    (hw : wireOKList ((S.sys.dock d).call i).args = true)
    (hw' : ((S.sys.dock d).call i).withResult = true → ∀ d' k M ps res, LastAt (C d') ((S.sys.dock d).call i).slot k →
      A d' k ((S.sys.dock d).call i).meth = some M → convertArgs o M.params (canonList ((S.sys.dock d).call i).args) = .ok ps →
      M.yields ps res → wireOKList res = true) :
    (r.err = [] ∧ Applied C o A ((S.sys.dock d).call i) r) ∨ TimedOut ((S.sys.dock d).call i) r := by
  obtain ⟨d', q, k, -, -, -, hq, hl, hdisc, hm, ha, hres⟩ := call_obtained h hi hr hd hw fun d' q v hv hm ha hl hwr => by
    obtain ⟨-, M, ps, e1, e2, e3⟩ := (app_inv h hf d').known q v hv
    rw [hm] at e1
    rw [ha] at e2
    exact hw' hwr d' _ M ps v hl e1 e2 e3
  rcases hres with ⟨he, v, hv, hr⟩ | ⟨he, hr, -⟩
  · refine Or.inl ⟨he, d', _, hl, hdisc, ?_⟩
    cases v with
    | none =>
      have e := ((app_inv h hf d').unknown q hv).2
      rw [hm] at e
      rw [e]
      simp only [hr, Option.getD_none, canonList, ite_self]
    | some v =>
      obtain ⟨-, M, ps, e1, e2, e3⟩ := (app_inv h hf d').known q v hv
      rw [hm] at e1
      rw [ha] at e2
      rw [e1]
      exact ⟨ps, e2, v, e3, hr⟩
  · exact Or.inr ⟨he, hr⟩

/-- An interface method, declared with parameters of types `ps` and results of types `rs`, as carried by every dock that
carries the feature: objects have it with these parameter types and return results of these types. -/
def Declares (C : Nat → List Carried) (A : Application) (slot meth : Str) (ps rs : List PTy) : Prop :=
  ∀ d k, LastAt (C d) slot k → ∃ M, A d k meth = some M ∧ M.params = ps ∧
    ∀ args res, M.yields args res → res.length = rs.length ∧
      ∀ (n : Nat) p v, rs[n]? = some p → res[n]? = some v → hasType p v = true

private theorem canon_fixed {rs : List PTy} (hp : ∀ p ∈ rs, p = .bool 0 ∨ p = .str 0 ∨ p = .f64 0) {vs : List Val}
    (h : rs.length = vs.length) (ht : ∀ (k : Nat) p v, rs[k]? = some p → vs[k]? = some v → hasType p v = true) :
    canonList vs = vs := by
  rw [canonList_eq]
  refine (List.map_congr_left (g := id) fun v hv => ?_).trans (List.map_id vs)
  obtain ⟨k, hlt, rfl⟩ := List.mem_iff_getElem.mp hv
  have hlt' : k < rs.length := by omega
  have := ht k rs[k] vs[k] (List.getElem?_eq_getElem hlt') (List.getElem?_eq_getElem hlt)
  rcases hp rs[k] (List.getElem_mem hlt') with e | e | e <;> rw [e] at this <;>
    cases hv : vs[k] <;> rw [hv] at this <;> simp [hasType] at this <;> subst this <;> rfl

/-- **C123, through a proxy (partial).**  The interface of a remote feature declares a method with parameters of basic types
and results of the types `bool`, `string` or `float64`.  A generated proxy calls it: with arguments of scalar types that
survive the wire, as do the results the method may have for them.  Then what the proxy returns is what the method returned
for the very parameters a local call would have given it, or, if the method did not return in time, zeroes.  Missing: results
of other types, see `C66_panics_refuted`; values that do not survive, see `C65_zero_refuted`. -/
theorem C123_proxy_partial (C : Nat → List Carried) (o : Conv) (A : Application) (H R : Nat → Str)
    (black : List Int) (as : List World.Act) (S : World.State)
    (h : run (World.State.step C (fun d => (A d).targets o) H R black) (World.State.init fun d => (A d).targets o) as = some S)
    (hf : AllSteps (World.State.step C (fun d => (A d).targets o) H R black) (World.State.init fun d => (A d).targets o) as
      (A.Follows o)) (d i : Nat) (slot meth : Str) (args : List Val) (ps rs : List PTy)
    (hc : (S.sys.dock d).call i = ⟨slot, meth, args, true⟩) (r : Ret) (hi : i < (S.sys.dock d).n)
    (hr : (S.sys.dock d).phase i = .returned r)
    (hd : ∀ j, j < (S.sys.dock d).n → (S.sys.dock d).index j = (S.sys.dock d).index i → j = i)
    (hps : ∀ p ∈ ps, PTy.basic p = true) (hrs : ∀ p ∈ rs, p = .bool 0 ∨ p = .str 0 ∨ p = .f64 0)
    (hs : ∀ v ∈ args, isScalar v = true) (hdecl : Declares C A slot meth ps rs)
    (hw : wireOKList args = true)
    (hw' : ∀ d' k M xs res, LastAt (C d') slot k → A d' k meth = some M → convertArgs o ps args = .ok xs → M.yields xs res →
      wireOKList res = true) :
    (∃ d' k M xs res, LastAt (C d') slot k ∧ A d' k meth = some M ∧ convertArgs o ps args = .ok xs ∧ M.yields xs res ∧
        proxyReturns rs r = .ok res) ∨
      (TimedOut ⟨slot, meth, args, true⟩ r ∧ proxyReturns rs r = .ok (rs.map zeroOf)) := by
  have hcv := convertArgs_canon o ps hps args hs
  have := C123_results C o A H R black as S h hf d i r hi (Or.inr hr) hd (by rw [hc]; exact hw) (by
    intro _ d' k M xs res hl hM hx hy
    rw [hc] at hl hM hx
    obtain ⟨M', e1, e2, -⟩ := hdecl d' k hl
    rw [hM] at e1
    cases e1
    rw [e2, hcv] at hx
    exact hw' d' k M xs res hl hM hx hy)
  rw [hc] at this
  rcases this with ⟨he, d', k, hl, -, hA⟩ | ht
  · obtain ⟨M, e1, e2, e3⟩ := hdecl d' k hl
    rw [e1] at hA
    obtain ⟨xs, hx, res, hy, hres⟩ := hA
    rw [e2, hcv] at hx
    obtain ⟨hl1, hl2⟩ := e3 xs res hy
    refine Or.inl ⟨d', k, M, xs, res, hl, e1, hx, hy, ?_⟩
    rw [proxyReturns, if_pos he, hres, if_pos rfl, canon_fixed hrs hl1.symm hl2]
    exact C66_local rs res hl1.symm hl2
  · refine Or.inr ⟨ht, ?_⟩
    rw [proxyReturns, if_neg (by rw [ht.1]; exact List.cons_ne_nil _ _)]

/-! ## The example application, /repo/test -/

/-- The bytes of a name. -/
def bytesOf (s : String) : Str := s.toList.map fun c => BitVec.ofNat 8 c.toNat

/-- The docks `util` and `logic`, /repo/test/main.go:20-25. -/
def exampleC : Nat → List Carried := fun d =>
  if d = 0 then [⟨bytesOf "IMath", 1, true⟩]
  else if d = 1 then [⟨bytesOf "IGame", 2, true⟩, ⟨bytesOf "ILobby", 3, true⟩]
  else []

/-- The methods of the features, /repo/test/math.go:26-36 and /repo/test/game.go:39-42.  `add` is the addition of float64
numbers.  Simplified: the method `OnStart` and those of the embedded `ferry.Feature` are left out. -/
def exampleA (add : BitVec 64 → BitVec 64 → BitVec 64) : Application := fun d k m =>
  if d = 0 ∧ k = 0 ∧ m = bytesOf "Print" then some ⟨[.str 0], fun _ res => res = []⟩
  else if d = 0 ∧ k = 0 ∧ m = bytesOf "Add" then
    some ⟨[.f64 0, .f64 0], fun args res => ∃ x y, args = [.f64 0 x, .f64 0 y] ∧ res = [.f64 0 (add x y)]⟩
  else if d = 1 ∧ k = 0 ∧ m = bytesOf "Start" then some ⟨[.str 0], fun _ res => res = []⟩
  else none

private theorem lastAt_get {cs : List Carried} {n : Str} {k : Nat} (h : LastAt cs n k) :
    ∃ f, cs[k]? = some f ∧ f.name = n := by
  obtain ⟨pre, f, post, rfl, hn, -, rfl⟩ := h
  exact ⟨f, by simp, hn⟩

private theorem math_at {d k : Nat} (h : LastAt (exampleC d) (bytesOf "IMath") k) : d = 0 ∧ k = 0 := by
  obtain ⟨f, hf, hn⟩ := lastAt_get h
  unfold exampleC at hf
  split at hf
  · match k, hf with
    | 0, _ => exact ⟨by assumption, rfl⟩
  · split at hf
    · match k, hf with
      | 0, hf => cases hf; exact absurd hn (by decide)
      | 1, hf => cases hf; exact absurd hn (by decide)
    · cases hf

/-- **C123, the example application.**  In every execution of the two docks of /repo/test, with their hub, a call
`Add(x, y)` on the proxy of `IMath` that returns has the sum as its result, or 0 if the method did not return in time, if
`x`, `y` and the sum are numbers that survive the wire. -/
theorem C123_example (add : BitVec 64 → BitVec 64 → BitVec 64) (o : Conv) (H R : Nat → Str)
    (black : List Int) (as : List World.Act) (S : World.State)
    (h : run (World.State.step exampleC (fun d => (exampleA add d).targets o) H R black)
      (World.State.init fun d => (exampleA add d).targets o) as = some S)
    (hf : AllSteps (World.State.step exampleC (fun d => (exampleA add d).targets o) H R black)
      (World.State.init fun d => (exampleA add d).targets o) as (Application.Follows o (exampleA add)))
    (d i : Nat) (x y : BitVec 64) (hi : i < (S.sys.dock d).n)
    (hc : (S.sys.dock d).call i = ⟨bytesOf "IMath", bytesOf "Add", [.f64 0 x, .f64 0 y], true⟩) (r : Ret)
    (hr : (S.sys.dock d).phase i = .returned r)
    (hd : ∀ j, j < (S.sys.dock d).n → (S.sys.dock d).index j = (S.sys.dock d).index i → j = i)
    (hx : 2^32 ≤ x.toNat) (hy : 2^32 ≤ y.toNat) (hxy : 2^32 ≤ (add x y).toNat) :
    proxyReturns [.f64 0] r = .ok [.f64 0 (add x y)] ∨
      (TimedOut ⟨bytesOf "IMath", bytesOf "Add", [.f64 0 x, .f64 0 y], true⟩ r ∧ proxyReturns [.f64 0] r = .ok [.f64 0 0]) := by
  have hA : exampleA add 0 0 (bytesOf "Add") =
      some ⟨[.f64 0, .f64 0], fun args res => ∃ x y, args = [.f64 0 x, .f64 0 y] ∧ res = [.f64 0 (add x y)]⟩ := by
    unfold exampleA
    rw [if_neg (by decide), if_pos (by decide)]
  have hcv : ∀ xs, convertArgs o [.f64 0, .f64 0] [.f64 0 x, .f64 0 y] = .ok xs → xs = [.f64 0 x, .f64 0 y] := by
    intro xs e; cases e; rfl
  have := C123_proxy_partial exampleC o (exampleA add) H R black as S h hf d i (bytesOf "IMath") (bytesOf "Add")
    [.f64 0 x, .f64 0 y] [.f64 0, .f64 0] [.f64 0] hc r hi hr hd (by simp [PTy.basic]) (by simp) (by simp [isScalar])
    (by
      intro d k hl
      obtain ⟨rfl, rfl⟩ := math_at hl
      refine ⟨_, hA, rfl, ?_⟩
      rintro args res ⟨a, b, -, rfl⟩
      refine ⟨rfl, fun n p v hp hv => ?_⟩
      match n, hp, hv with
      | 0, hp, hv => cases hp; cases hv; rfl)
    (by simp [wireOKList, wireOK, hx, hy])
    (by
      intro d' k M xs res hl hM hxs hres
      obtain ⟨rfl, rfl⟩ := math_at hl
      rw [hA] at hM
      cases hM
      rw [hcv xs hxs] at hres
      obtain ⟨a, b, e, rfl⟩ := hres
      cases e
      simp [wireOKList, wireOK, hxy])
  rcases this with ⟨d', k, M, xs, res, hl, hM, hxs, hres, hp⟩ | h
  · obtain ⟨rfl, rfl⟩ := math_at hl
    rw [hA] at hM
    cases hM
    rw [hcv xs hxs] at hres
    obtain ⟨a, b, e, rfl⟩ := hres
    cases e
    exact Or.inl hp
  · exact Or.inr h

/-! ## The test with three docks, /repo/ferry_test.go -/

/-- The docks `logger`, `add` and `logic`, /repo/ferry_test.go:90-97. -/
def testC : Nat → List Carried := fun d =>
  if d = 0 then [⟨bytesOf "ILogger", 1, true⟩]
  else if d = 1 then [⟨bytesOf "IAdd", 2, true⟩]
  else if d = 2 then [⟨bytesOf "ILogic", 3, true⟩]
  else []

/-- Their methods, /repo/ferry_test.go:26-29 and 40-43; simplified as `exampleA`. -/
def testA : Application := fun d k m =>
  if d = 0 ∧ k = 0 ∧ m = bytesOf "Log" then some ⟨[.iface], fun _ res => res = []⟩
  else if d = 1 ∧ k = 0 ∧ m = bytesOf "Add" then
    some ⟨[.int .int 0, .int .int 0], fun args res => ∃ x y, args = [.int .int 0 x, .int .int 0 y] ∧ res = [.int .int 0 (x + y)]⟩
  else none

private theorem add_at {d k : Nat} (h : LastAt (testC d) (bytesOf "IAdd") k) : d = 1 ∧ k = 0 := by
  obtain ⟨f, hf, hn⟩ := lastAt_get h
  unfold testC at hf
  repeat' split at hf
  · match k, hf with
    | 0, hf => cases hf; exact absurd hn (by decide)
  · match k, hf with
    | 0, _ => exact ⟨by assumption, rfl⟩
  · match k, hf with
    | 0, hf => cases hf; exact absurd hn (by decide)
  · cases hf

/-- **C123, the test with three docks.**  In every execution, a call `CallWithResult("IAdd", "Add", x, y)` that returns has
one result, the sum, in an integer type as small as possible; or the error of a timeout. -/
theorem C123_test (o : Conv) (H R : Nat → Str) (black : List Int) (as : List World.Act) (S : World.State)
    (h : run (World.State.step testC (fun d => (testA d).targets o) H R black)
      (World.State.init fun d => (testA d).targets o) as = some S)
    (hf : AllSteps (World.State.step testC (fun d => (testA d).targets o) H R black)
      (World.State.init fun d => (testA d).targets o) as (Application.Follows o testA))
    (d i : Nat) (x y : BitVec 64) (hi : i < (S.sys.dock d).n)
    (hc : (S.sys.dock d).call i = ⟨bytesOf "IAdd", bytesOf "Add", [.int .int 0 x, .int .int 0 y], true⟩) (r : Ret)
    (hr : (S.sys.dock d).phase i = .returned r)
    (hd : ∀ j, j < (S.sys.dock d).n → (S.sys.dock d).index j = (S.sys.dock d).index i → j = i) :
    (r.err = [] ∧ ∃ k, ∃ v : BitVec (IKind.width k), r.result = [.int k 0 v] ∧ v.toInt = (x + y).toInt) ∨
      TimedOut ⟨bytesOf "IAdd", bytesOf "Add", [.int .int 0 x, .int .int 0 y], true⟩ r := by
  have hA : testA 1 0 (bytesOf "Add") = some ⟨[.int .int 0, .int .int 0],
      fun args res => ∃ x y, args = [.int .int 0 x, .int .int 0 y] ∧ res = [.int .int 0 (x + y)]⟩ := by
    unfold testA
    rw [if_neg (by decide), if_pos (by decide)]
  have hcv : convertArgs o [.int .int 0, .int .int 0] (canonList [.int .int 0 x, .int .int 0 y]) =
      .ok [.int .int 0 x, .int .int 0 y] := by
    rw [convertArgs_canon o _ (by simp [PTy.basic]) _ (by simp [isScalar])]
    simp [convertArgs, convert, IKind.width]
  have := C123_results testC o testA H R black as S h hf d i r hi (Or.inr hr) hd (by rw [hc]; simp [wireOKList, wireOK]) (by
    intro _ d' k M ps res hl hM hx hy
    rw [hc] at hl hM
    obtain ⟨rfl, rfl⟩ := add_at hl
    rw [hA] at hM
    cases hM
    obtain ⟨a, b, -, rfl⟩ := hy
    rfl)
  rw [hc] at this
  rcases this with ⟨he, d', k, hl, -, hap⟩ | ht
  · obtain ⟨rfl, rfl⟩ := add_at hl
    simp only at hap
    rw [hA] at hap
    obtain ⟨ps, hps, res, ⟨a, b, e, rfl⟩, hres⟩ := hap
    simp only at hps
    rw [hcv] at hps
    cases hps
    cases e
    refine Or.inl ⟨he, ?_⟩
    rw [hres, if_pos trivial]
    obtain ⟨k, v, e1, e2⟩ := canonInt_int (x + y).toInt (int_toInt_bounds (k := .int) (x + y)).1 (int_toInt_bounds (k := .int) (x + y)).2
    exact ⟨k, v, congrArg (fun w => [w]) e1, e2⟩
  · exact Or.inr ht

/-! ## Examples -/

/-- Whether a method returns in this step. -/
def isRet : World.Act → Bool
  | .dock _ (.chan (.ret _ _)) => true
  | _ => false

/-- An execution in which methods return in one step follows the application if that step does. -/
theorem follows_one {C : Nat → List Carried} {H R : Nat → Str} {black : List Int} {o : Conv} {A : Application}
    {as bs : List World.Act} {a : World.Act} {S : World.State} (h1 : as.any isRet = false) (h2 : bs.any isRet = false)
    (hr : run (World.State.step C (fun d => (A d).targets o) H R black) (World.State.init fun d => (A d).targets o) as = some S)
    (hf : A.Follows o S a) :
    AllSteps (World.State.step C (fun d => (A d).targets o) H R black) (World.State.init fun d => (A d).targets o)
      (as ++ a :: bs) (A.Follows o) := by
  have no : ∀ (b : World.Act) S, isRet b = false → A.Follows o S b := by
    intro b S hb
    unfold Application.Follows
    split
    · unfold Chan.Follows
      split
      · cases hb
      · trivial
    · trivial
  intro pre b post t he hp
  rcases List.append_eq_append_iff.mp he with ⟨l, h3, h4⟩ | ⟨l, h3, h4⟩
  · cases l with
    | nil =>
      cases h4
      rw [List.append_nil] at h3
      rw [h3] at hp
      rw [hr] at hp
      cases hp
      exact hf
    | cons x l =>
      cases h4
      refine no b t ?_
      simpa using (List.any_eq_false.mp h2) b (by simp)
  · cases l with
    | nil =>
      cases h4
      rw [List.append_nil] at h3
      rw [← h3] at hp
      rw [hr] at hp
      cases hp
      exact hf
    | cons x l =>
      cases h4
      refine no _ t ?_
      simpa using (List.any_eq_false.mp h1) b (by rw [h3]; simp)

/-- Docks `a` and `b` register with the hub.  A goroutine of dock `b` calls a feature of dock `a`; dock `b` asks the hub for
it, dials dock `a`, and sends the request. -/
def bootAsk (a b : Nat) (mine theirs : List Str) (c : Call) : List World.Act :=
  List.map lift
  ([.join a, .dock a .storeHub, .dock a (.greet 0 mine), .deliver 1] ++ List.replicate (mine.length + 1) (.hub (.work 1)) ++
   [.deliver 0, .dock a (.work 0 []), .dock a (.work 0 mine), .deliver 1] ++
   List.replicate (mine.length + 1) (.hub (.work 1)) ++
   [.join b, .dock b .storeHub, .dock b (.greet 2 theirs), .deliver 3] ++
   List.replicate (theirs.length + 1) (.hub (.work 3)) ++
   [.deliver 2, .dock b (.work 2 []), .dock b (.work 2 theirs), .deliver 3] ++
   List.replicate (theirs.length + 1) (.hub (.work 3))) ++
  [.dock b .start, .dock b (.call c 77 none)] ++
  List.map lift
  ([.dock b (.store 0), .dock b (.setReq 0), .dock b (.commit 0), .deliver 3, .hub (.look 0), .hub (.examine 0),
   .hub (.respond 0), .deliver 2, .dial b 2 a 20001, .dock b (.work 2 []), .accept 5, .dock a (.greet 5 mine), .deliver 4,
   .dock b (.work 4 theirs), .dock b (.work 4 []), .dock b (.work 4 []), .dock b (.greet 4 theirs), .deliver 5] ++
   List.replicate (2 * theirs.length + 1) (.dock a (.work 5 [])) ++ [.deliver 5, .dock a (.work 5 mine)] ++
   List.replicate (theirs.length + 1) (.dock a (.work 5 [])) ++ [.deliver 4, .dock b (.work 4 []), .dock b (.visit 4 0),
   .dock b (.work 4 []), .dock b (.work 4 []), .dock b (.work 4 []), .dock b (.work 4 []), .deliver 5])

/-- Dock `a` hands the request to its callee, which starts the method. -/
def bootServe (a : Nat) : List World.Act := [.dock a (.invoke 0), .dock a (.chan (.push 0)), .dock a (.chan (.start 0))]

/-- The method has returned.  The result travels back to dock `b`. -/
def bootAnswer (a b : Nat) : List World.Act :=
  [.dock a (.chan (.settleH 0)), .dock a (.chan (.deliverH 0)), .dock a (.chan (.receive 0)), .dock a (.finish 0),
   .dock a (.respond 0), .sys (.deliver 4), .dock b (.dock (.callback 0)), .dock b (.dock (.receive 0)), .dock b (.returns 0)]

/-- Conversions that nobody uses here. -/
def noConv : Conv := ⟨id, id, fun _ _ => none⟩

/-- The request that the handler of a callee runs. -/
def runsNow (s : Chan.State) (c : Nat) : Option (Nat × Str × List Val) :=
  match s.handler c with
  | .running q => some (q, (s.req q).meth, (s.req q).args)
  | _ => none

/-- `math.Add(1, 2)` of /repo/test/game.go:34. -/
def exampleCall : Call := ⟨bytesOf "IMath", bytesOf "Add", [.f64 0 0x3ff0000000000000, .f64 0 0x4000000000000000], true⟩

/-- An addition that adds 1 and 2. -/
def someAdd : BitVec 64 → BitVec 64 → BitVec 64 := fun x y =>
  if x = 0x3ff0000000000000 ∧ y = 0x4000000000000000 then 0x4008000000000000 else 0

/-- The actions of the example. -/
def exampleAsk : List World.Act :=
  bootAsk 0 1 [bytesOf "IMath"] [bytesOf "IGame", bytesOf "ILobby"] exampleCall ++ bootServe 0

/-- What a call has returned. -/
def returnedBy (s : Dock.State) (i : Nat) : Option (List Val × Str) :=
  match s.phase i with
  | .returned r => some (r.result, r.err)
  | _ => none

theorem returnedBy_some {s : Dock.State} {i : Nat} {v : List Val} {e : Str} (h : returnedBy s i = some (v, e)) :
    s.phase i = .returned ⟨v, e⟩ := by
  unfold returnedBy at h
  split at h
  · rename_i r hr
    cases h
    exact hr
  · cases h

private theorem runsNow_some {s : Chan.State} {c q : Nat} {m : Str} {args : List Val} (h : runsNow s c = some (q, m, args)) :
    ∀ q', s.handler c = .running q' → (s.req q').meth = m ∧ (s.req q').args = args := by
  intro q' hq
  unfold runsNow at h
  rw [hq] at h
  cases h
  exact ⟨rfl, rfl⟩

set_option synthInstance.maxSize 100000 in
set_option synthInstance.maxHeartbeats 2000000 in
/-- The example application: `math.Add(1, 2)` returns 3. -/
example : ∃ as S, run (World.State.step exampleC (fun d => (exampleA someAdd d).targets noConv) sysH sysR [])
      (World.State.init fun d => (exampleA someAdd d).targets noConv) as = some S ∧
    AllSteps (World.State.step exampleC (fun d => (exampleA someAdd d).targets noConv) sysH sysR [])
      (World.State.init fun d => (exampleA someAdd d).targets noConv) as (Application.Follows noConv (exampleA someAdd)) ∧
    (S.sys.dock 1).n = 1 ∧ (S.sys.dock 1).call 0 = exampleCall ∧
    ∃ r, (S.sys.dock 1).phase 0 = .returned r ∧ proxyReturns [.f64 0] r = .ok [.f64 0 0x4008000000000000] := by
  obtain ⟨S, h1, h2⟩ := worldWitness (C := exampleC) (T := fun d => (exampleA someAdd d).targets noConv) (H := sysH)
    (R := sysR) (as := exampleAsk) (f := fun S => runsNow (S.rest 0).chan 0)
    (b := some (0, bytesOf "Add", exampleCall.args)) (by decide +kernel)
  obtain ⟨S', h3, h4⟩ := worldWitness (C := exampleC) (T := fun d => (exampleA someAdd d).targets noConv) (H := sysH)
    (R := sysR) (as := exampleAsk ++ World.Act.dock 0 (.chan (.ret 0 [.f64 0 0x4008000000000000])) :: bootAnswer 0 1)
    (f := fun S => ((S.sys.dock 1).n, (S.sys.dock 1).call 0, returnedBy (S.sys.dock 1) 0))
    (b := (1, exampleCall, some ([.f64 0 0x4008000000000000], []))) (by decide +kernel)
  simp only [Prod.mk.injEq] at h4
  refine ⟨_, S', h3, follows_one (by decide +kernel) (by decide +kernel) h1 ?_, h4.1, h4.2.1, _, returnedBy_some h4.2.2, rfl⟩
  intro q hq M ps hM hps
  obtain ⟨e1, e2⟩ := runsNow_some h2 q hq
  rw [e1] at hM
  rw [e2] at hps
  unfold exampleA at hM
  rw [if_neg (by decide), if_pos (by decide)] at hM
  cases hM
  cases hps
  exact ⟨_, _, rfl, rfl⟩

/-- A dock of the test has another host. -/
def testH : Nat → Str := fun d => if d = 1 then [97] else [98]

/-- The call of the test. -/
def testCall : Call := ⟨bytesOf "IAdd", bytesOf "Add", [.int .int 0 1, .int .int 0 2], true⟩

/-- The actions of the test. -/
def testAsk : List World.Act := bootAsk 1 2 [bytesOf "IAdd"] [bytesOf "ILogic"] testCall ++ bootServe 1

set_option synthInstance.maxSize 100000 in
set_option synthInstance.maxHeartbeats 2000000 in
/-- The test: `CallWithResult("IAdd", "Add", 1, 2)` returns the int8 3. -/
example : ∃ as S, run (World.State.step testC (fun d => (testA d).targets noConv) testH sysR [])
      (World.State.init fun d => (testA d).targets noConv) as = some S ∧
    AllSteps (World.State.step testC (fun d => (testA d).targets noConv) testH sysR [])
      (World.State.init fun d => (testA d).targets noConv) as (Application.Follows noConv testA) ∧
    (S.sys.dock 2).n = 1 ∧ (S.sys.dock 2).call 0 = testCall ∧ (S.sys.dock 2).phase 0 = .returned ⟨[.int .i8 0 3], []⟩ := by
  obtain ⟨S, h1, h2⟩ := worldWitness (C := testC) (T := fun d => (testA d).targets noConv) (H := testH)
    (R := sysR) (as := testAsk) (f := fun S => runsNow (S.rest 1).chan 0)
    (b := some (0, bytesOf "Add", [.int .i8 0 1, .int .i8 0 2])) (by decide +kernel)
  obtain ⟨S', h3, h4⟩ := worldWitness (C := testC) (T := fun d => (testA d).targets noConv) (H := testH)
    (R := sysR) (as := testAsk ++ World.Act.dock 1 (.chan (.ret 0 [.int .int 0 3])) :: bootAnswer 1 2)
    (f := fun S => ((S.sys.dock 2).n, (S.sys.dock 2).call 0, returnedBy (S.sys.dock 2) 0))
    (b := (1, testCall, some ([.int .i8 0 3], []))) (by decide +kernel)
  simp only [Prod.mk.injEq] at h4
  refine ⟨_, S', h3, follows_one (by decide +kernel) (by decide +kernel) h1 ?_, h4.1, h4.2.1, returnedBy_some h4.2.2⟩
  intro q hq M ps hM hps
  obtain ⟨e1, e2⟩ := runsNow_some h2 q hq
  rw [e1] at hM
  rw [e2] at hps
  unfold testA at hM
  rw [if_neg (by decide), if_pos (by decide)] at hM
  cases hM
  cases hps
  exact ⟨_, _, rfl, rfl⟩

set_option synthInstance.maxSize 100000 in
set_option synthInstance.maxHeartbeats 2000000 in
/-- C123 (refuted): the proxy need not return the sum: with a timeout of 0 seconds for `Add`, the call may time out, and the
program goes on with 0 as the sum of 1 and 2. -/
theorem C123_sum_refuted : ∃ as S, run (World.State.step exampleC (fun d => (exampleA someAdd d).targets noConv) sysH sysR [])
      (World.State.init fun d => (exampleA someAdd d).targets noConv) as = some S ∧
    (S.sys.dock 1).n = 1 ∧ (S.sys.dock 1).call 0 = exampleCall ∧
    ∃ r, (S.sys.dock 1).phase 0 = .returned r ∧ proxyReturns [.f64 0] r = .ok [.f64 0 0] := by
  obtain ⟨S, h1, h2⟩ := worldWitness (C := exampleC) (T := fun d => (exampleA someAdd d).targets noConv) (H := sysH)
    (R := sysR) (as := [.dock 0 (.chan (.setTimeout 0 (bytesOf "Add") 0))] ++ exampleAsk ++ [.dock 0 (.chan (.wake 0)),
      .dock 0 (.chan (.settleT 0)), .dock 0 (.chan (.deliverT 0))] ++ (bootAnswer 0 1).drop 2)
    (f := fun S => ((S.sys.dock 1).n, (S.sys.dock 1).call 0, returnedBy (S.sys.dock 1) 0))
    (b := (1, exampleCall, some ([], 91#8 :: (bytesOf "Add" ++ Whole.cTimedOut)))) (by decide +kernel)
  simp only [Prod.mk.injEq] at h2
  exact ⟨_, S, h1, h2.1, h2.2.1, _, returnedBy_some h2.2.2, rfl⟩

end Verif.Props
