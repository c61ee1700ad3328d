import Verif.Props.Once4

/-!
# C152: what docks read from features that store values
-/

namespace Verif.Props

open Verif Verif.Codec Verif.Proto Verif.System
open Verif.Dock (Carried LastNamed)

variable {C : Nat → List Carried} {T : Nat → Nat → Chan.Target} {H R : Nat → Str} {black : List Int}
  {E : World.Course C T H R black}

/-- The call made in step `n` asks feature `k` of dock `d` for its value and has by step `m` got the answer `out`. -/
def ReadsIt (E : World.Course C T H R black) (slot : Str) (d k : Nat) (get : Str) (n m : Nat) (out : List Val) : Prop :=
  ∃ c args, Used E slot d k n m c args out ∧ c.meth = get ∧ c.withResult = true

/-- In step `w` a call is made that stores `v`, whatever becomes of it. -/
def Stores (E : World.Course C T H R black) (slot set : Str) (w : Nat) (v : List Val) : Prop :=
  ∃ d0 c, Calls E w d0 c ∧ c.slot = slot ∧ c.meth = set ∧ c.args = v

/-- The call made in step `w`, which stores a value, has returned without an error by step `m`. -/
def Stored (E : World.Course C T H R black) (slot : Str) (d k : Nat) (set : Str) (w m : Nat) : Prop :=
  ∃ c args out, Used E slot d k w m c args out ∧ c.meth = set

/-! ## The store that a state is from -/

/-- The state of a register before step `t` is from the call made in step `w`, or the initial one. -/
def SourceAt (E : World.Course C T H R black) (O : Obj (List Val)) (slot : Str) (d k : Nat) (set : Str) (t : Nat) : Option Nat → Prop
  | none => O.after (returnsOf E d k t) = O.init ∧ ∀ v s args res, v < t → ¬Executes E d k set args s v res
  | some w => ∃ s v args res, StartedFor E w s ∧ w < s ∧ Executes E d k set args s v res ∧ v < t ∧
      O.after (returnsOf E d k t) = args ∧ (∃ c, Stores E slot set w c ∧ canonList args = canonList c) ∧
      ∀ v' s' args' res', v < v' → v' < t → ¬Executes E d k set args' s' v' res'

theorem source_at (hw : ∀ n d c, Calls E n d c → (∀ f ∈ C d, f.name ≠ c.slot) → wireOKList c.args = true)
    {O : Obj (List Val)} {set get : Str} (hO : IsRegister O set get) {slot : Str} {d k : Nat} (ho : OnlyAt C slot d k) (t : Nat) :
    ∃ o, SourceAt E O slot d k set t o := by
  induction t with
  | zero => exact ⟨none, rfl, fun v s args res hv => absurd hv (Nat.not_lt_zero v)⟩
  | succ t ih =>
    obtain ⟨o, ih⟩ := ih
    -- a step in which no store returns changes nothing
    have same : O.after (returnsOf E d k (t + 1)) = O.after (returnsOf E d k t) →
        (∀ s args res, ¬Executes E d k set args s t res) → ∃ o, SourceAt E O slot d k set (t + 1) o := by
      intro e hn
      refine ⟨o, ?_⟩
      cases o with
      | none =>
        refine ⟨e.trans ih.1, fun v s args res hv hx => ?_⟩
        by_cases hvt : v = t
        · subst hvt; exact hn s args res hx
        · exact ih.2 v s args res (by omega) hx
      | some w =>
        obtain ⟨s, v, args, res, h1, h2, h3, h4, h5, h6, h7⟩ := ih
        refine ⟨s, v, args, res, h1, h2, h3, by omega, e.trans h5, h6, fun v' s' args' res' g1 g2 hx => ?_⟩
        by_cases hvt : v' = t
        · subst hvt; exact hn s' args' res' hx
        · exact h7 v' s' args' res' g1 (by omega) hx
    by_cases hr : ∃ res, E.act t = some (.dock d (.chan (.ret k res)))
    · obtain ⟨res, hr⟩ := hr
      obtain ⟨q, hq⟩ := ret_running hr
      obtain ⟨s, -, hx⟩ := executes_of hr hq
      have e := returns_succ hx
      by_cases hm : (((E.st t).rest d).chan.req q).meth = set
      · rw [hm] at hx e
        obtain ⟨n, d0, c, g1, g2, g3, g4⟩ := exec_for hw hx
        refine ⟨some n, s, t, _, res, g3, g1, hx, Nat.lt_succ_self t, ?_,
          ⟨c.args, ⟨d0, c, g2, name_at g4.2.1 ho.1, g4.1.symm, rfl⟩, ?_⟩, fun v' _ _ _ h1 h2 => by omega⟩
        · rw [e, Obj.after, List.foldl_append]
          simp only [List.foldl_cons, List.foldl_nil, hO.stores]
        · rcases g4.2.2 with ⟨-, e⟩ | ⟨-, -, e⟩
          · rw [e]
          · rw [e, canonList_again]
      · refine same ?_ fun s' args' res' hx' => ?_
        · rw [e, Obj.after, List.foldl_append]
          simp only [List.foldl_cons, List.foldl_nil]
          exact hO.keeps _ _ _ hm
        · have := returns_succ hx'
          rw [e] at this
          have := List.append_cancel_left this
          simp only [List.cons.injEq, Prod.mk.injEq, and_true] at this
          exact hm this.1
    · refine same ?_ fun s' args' res' hx' => hr ⟨_, hx'.2.2.1⟩
      rw [returnsOf]
      split
      · rename_i hact _
        rw [if_neg]
        rintro ⟨rfl, rfl⟩
        exact hr ⟨_, hact⟩
      · rfl

/-- What a read has got. -/
theorem reads_exec (hd : ∀ d, ReadingsDiffer E d)
    (hw : ∀ n d c, Calls E n d c → (∀ f ∈ C d, f.name ≠ c.slot) → wireOKList c.args = true)
    (hw' : ∀ t d k res, E.act t = some (.dock d (.chan (.ret k res))) → wireOKList res = true)
    {O : Obj (List Val)} {set get : Str} (hO : IsRegister O set get) {slot : Str} {d k : Nat} (ho : OnlyAt C slot d k)
    (hi : Behaves E d k O) {n m : Nat} {out : List Val} (h : ReadsIt E slot d k get n m out) :
    ∃ s t args res, StartedFor E n s ∧ n < s ∧ Executes E d k get args s t res ∧ t < m ∧
      canonList out = canonList (O.after (returnsOf E d k t)) := by
  obtain ⟨c, args, h, hg, hr⟩ := h
  obtain ⟨s, t, res, a1, a2, a3, a4, a5⟩ := used_exec hd hw hw' ho h
  have e := hi _ _ _ _ _ a3
  rw [hg, hO.reads] at e
  refine ⟨s, t, args, res, a1, a2, by rw [← hg]; exact a3, a4, ?_⟩
  rcases a5 with ⟨-, a5⟩ | ⟨-, a5⟩
  · rw [a5, hr, if_pos rfl, canonList_again, e]
  · rw [a5, e]

/-- **C152.**  A feature that stores a value, as in C150, with calls by any docks, at the same time or not, some of which may fail: to
every read can be assigned its source, a call that stored the value or the initial value, such that the read got the value of its
source; the source was made before the read got its result; the source is not overwritten, that is, it did not return before
another store was made that returned before the read was made; and of two reads one after the other the second one's source is not
older than the first one's. -/
theorem C152_source {O : Obj (List Val)} {set get : Str} (hO : IsRegister O set get) {slot : Str} {d k : Nat}
    (ho : OnlyAt C slot d k) (hi : Behaves E d k O) (hd : ∀ d, ReadingsDiffer E d)
    (hw : ∀ n d c, Calls E n d c → (∀ f ∈ C d, f.name ≠ c.slot) → wireOKList c.args = true)
    (hw' : ∀ t d k res, E.act t = some (.dock d (.chan (.ret k res))) → wireOKList res = true) :
    ∃ src : Nat → Option Nat,
      (∀ n m out, ReadsIt E slot d k get n m out → src n = none → canonList out = canonList O.init) ∧
      (∀ n m out w, ReadsIt E slot d k get n m out → src n = some w →
        w < m ∧ ∃ v, Stores E slot set w v ∧ canonList out = canonList v) ∧
      (∀ n m out w m', ReadsIt E slot d k get n m out → Stored E slot d k set w m' → m' ≤ n →
        ∃ w', src n = some w' ∧ (w' = w ∨ ∀ m'', Stored E slot d k set w' m'' → w < m'')) ∧
      ∀ n m out n' m' out' w, ReadsIt E slot d k get n m out → ReadsIt E slot d k get n' m' out' → m ≤ n' → src n = some w →
        ∃ w', src n' = some w' ∧ (w' = w ∨ ∀ m'', Stored E slot d k set w' m'' → w < m'') := by
  classical
  have key : ∀ n, ∃ o, ∀ s t args res, StartedFor E n s → Executes E d k get args s t res → SourceAt E O slot d k set t o := by
    intro n
    by_cases h : ∃ s t args res, StartedFor E n s ∧ Executes E d k get args s t res
    · obtain ⟨s, t, args, res, h1, h2⟩ := h
      obtain ⟨o, h⟩ := source_at (E := E) hw hO ho t
      refine ⟨o, fun s' t' args' res' g1 g2 => ?_⟩
      obtain rfl := for_one hd h1 g1
      obtain ⟨rfl, -⟩ := executes_once h2 g2
      exact h
    · exact ⟨none, fun s t args res h1 h2 => absurd ⟨s, t, args, res, h1, h2⟩ h⟩
  have spec := fun n => (key n).choose_spec
  -- a store that is not later than the source
  have order : ∀ n t w v s args res, SourceAt E O slot d k set t (key n).choose → StartedFor E w s → w < s →
      Executes E d k set args s v res → v < t →
      ∃ w', (key n).choose = some w' ∧ (w' = w ∨ ∀ m'', Stored E slot d k set w' m'' → w < m'') := by
    intro n t w v s args res hs h1 h2 h3 h4
    generalize (key n).choose = o at hs
    cases o with
    | none => exact absurd h3 (hs.2 v s args res h4)
    | some w' =>
      obtain ⟨s', v', args', res', g1, g2, g3, g4, -, -, g7⟩ := hs
      refine ⟨w', rfl, ?_⟩
      rcases Nat.lt_trichotomy v' v with hl | hl | hl
      · exact absurd h3 (g7 v s args res hl h4)
      · subst hl
        obtain rfl := executes_start g3 h3
        exact Or.inl (one_for hd g1 h1)
      · right
        rintro m'' ⟨c, args2, out2, hu, rfl⟩
        obtain ⟨s2, t2, res2, b1, b2, b3, b4, -⟩ := used_exec hd hw hw' ho hu
        obtain rfl := for_one hd b1 g1
        obtain ⟨rfl, -⟩ := executes_once b3 g3
        have := h3.2.1
        omega
  refine ⟨fun n => (key n).choose, fun n m out h hn => ?_, fun n m out w h hn => ?_, fun n m out w m' h h' hl => ?_,
    fun n m out n' m' out' w h h' hl hn => ?_⟩
  · obtain ⟨s, t, args, res, h1, h2, h3, h4, h5⟩ := reads_exec hd hw hw' hO ho hi h
    have := spec n s t args res h1 h3
    simp only at hn
    rw [hn] at this
    rw [h5, this.1]
  · obtain ⟨s, t, args, res, h1, h2, h3, h4, h5⟩ := reads_exec hd hw hw' hO ho hi h
    have := spec n s t args res h1 h3
    simp only at hn
    rw [hn] at this
    obtain ⟨s', v, args', res', g1, g2, g3, g4, g5, ⟨c, g6, g7⟩, -⟩ := this
    have := g3.2.1
    exact ⟨by omega, c, g6, by rw [h5, g5, g7]⟩
  · obtain ⟨s, t, args, res, h1, h2, h3, h4, h5⟩ := reads_exec hd hw hw' hO ho hi h
    obtain ⟨c, args2, out2, hu, rfl⟩ := h'
    obtain ⟨s2, t2, res2, b1, b2, b3, b4, -⟩ := used_exec hd hw hw' ho hu
    have := h3.2.1
    exact order n t w t2 s2 _ _ (spec n s t args res h1 h3) b1 b2 b3 (by omega)
  · obtain ⟨s, t, args, res, h1, h2, h3, h4, h5⟩ := reads_exec hd hw hw' hO ho hi h
    obtain ⟨s', t', args', res', h1', h2', h3', h4', h5'⟩ := reads_exec hd hw hw' hO ho hi h'
    have hs := spec n s t args res h1 h3
    simp only at hn
    rw [hn] at hs
    obtain ⟨s2, v, args2, res2, g1, g2, g3, g4, -⟩ := hs
    have := h3'.2.1
    exact order n' t' w v s2 _ _ (spec n' s' t' args' res' h1' h3') g1 g2 g3 (by omega)

/-- **C152**, for two such features: what a dock learns from one about the other is true.  A dock stores a value in the first one,
gets the result, and then, in step `w`, stores `v` in the second one, which is stored there in no other step.  A dock that has read `v` in the second one
and then reads the first one gets the value stored there, if the other stores of the first one are as in C150. -/
theorem C152_learns {O O' : Obj (List Val)} {set get set' get' : Str} (hO : IsRegister O set get) (hO' : IsRegister O' set' get')
    {slot slot' : Str} {d k d' k' : Nat} (ho : OnlyAt C slot d k) (ho' : OnlyAt C slot' d' k') (hi : Behaves E d k O)
    (hi' : Behaves E d' k' O') (hd : ∀ d, ReadingsDiffer E d)
    (hw : ∀ n d c, Calls E n d c → (∀ f ∈ C d, f.name ≠ c.slot) → wireOKList c.args = true)
    (hw' : ∀ t d k res, E.act t = some (.dock d (.chan (.ret k res))) → wireOKList res = true)
    {n1 m1 w n m n2 m2 d2 : Nat} {c1 c2 : Dock.Call} {args1 out1 v out out2 : List Val}
    (h1 : Used E slot d k n1 m1 c1 args1 out1) (hs : c1.meth = set)
    (h1v : m1 ≤ w)
    (hu : ∀ w' v', Stores E slot' set' w' v' → canonList v' = canonList v → w' = w) (hn : canonList O'.init ≠ canonList v)
    (hr : ReadsIt E slot' d' k' get' n m out) (he : canonList out = canonList v) (hm : m ≤ n2)
    (h2 : GotRemote E n2 m2 d2 c2 ⟨out2, []⟩) (hk : c2.slot = slot ∧ (T d k).invoke c2.meth (canonList c2.args) ≠ .unknown)
    (hg : c2.meth = get) (hr2 : c2.withResult = true)
    (h3 : ∀ n d0 c, n ≠ n1 → Calls E n d0 c → c.slot = slot → c.meth = set →
      m2 ≤ n ∨ ∃ m args out, m ≤ n1 ∧ Used E slot d k n m c args out) :
    out2 = canonList c1.args := by
  obtain ⟨src, a1, a2, -⟩ := C152_source hO' ho' hi' hd hw hw'
  refine C150_register hO ho hi hd hw hw' h1 hs h2 hk hg hr2 ?_ h3
  cases e : src n with
  | none => exact absurd ((a1 n m out hr e).symm.trans he) hn
  | some w' =>
    obtain ⟨b1, v', b2, b3⟩ := a2 n m out w' hr e
    obtain rfl := hu w' v' b2 (b3.symm.trans he)
    omega

/-! ## An execution -/

/-- As in the README, with a second feature of dock 0. -/
def noteC : Nat → List Carried := fun d =>
  if d = 0 then [⟨bytesOf "ILogger", 1, true⟩, ⟨bytesOf "INote", 3, true⟩]
  else if d = 1 then [⟨bytesOf "IGame", 2, true⟩]
  else []

/-- Both features of dock 0 store what was printed last. -/
def noteA : Application := fun d k m =>
  if d = 0 ∧ k < 2 ∧ m = bytesOf "Print" then some ⟨[.str 0], fun _ res => res = []⟩
  else if d = 0 ∧ k < 2 ∧ m = bytesOf "Last" then some ⟨[], fun _ _ => True⟩
  else none

/-- Their methods as targets of callees, /repo/chancall/meta.go:22-42. -/
abbrev noteT : Nat → Nat → Chan.Target := fun d => (noteA d).targets noConv

/-- A call that stores a value in the second feature, /repo/slot.go:53-55. -/
def notePrint : Dock.Call := ⟨bytesOf "INote", bytesOf "Print", [.str 0 (bytesOf "done")], false⟩
/-- A call that reads it, /repo/slot.go:57-59. -/
def noteLast : Dock.Call := ⟨bytesOf "INote", bytesOf "Last", [], true⟩

/-- Feature `k` of dock 0 runs a method and the result is sent to dock 1. -/
def noteServe (k i : Nat) (res : List Val) : List World.Act :=
  [.sys (.deliver 5), .dock 0 (.invoke i), .dock 0 (.chan (.push i)), .dock 0 (.chan (.start k)), .dock 0 (.chan (.ret k res)),
   .dock 0 (.chan (.settleH k)), .dock 0 (.chan (.deliverH k)), .dock 0 (.chan (.receive i)), .dock 0 (.finish i),
   .dock 0 (.respond i), .sys (.deliver 4), .dock 1 (.dock (.callback i)), .dock 1 (.dock (.receive i)), .dock 1 (.returns i),
   .dock 1 (.dock (.delete i)), .dock 0 (.chan (.wake i)), .dock 0 (.chan (.settleT i))]

/-- Dock 1 makes a call. -/
def noteAsk (i : Nat) (c : Dock.Call) : List World.Act :=
  [.dock 1 (.call c (BitVec.ofNat 64 (77 + i)) none), .dock 1 (.dock (.store i)), .dock 1 (.dock (.setReq i)), .dock 1 (.dock (.commit i))]

/-- Dock 1 stores a value in the first feature and then one in the second, and then reads the second and the first. -/
def noteRest : List World.Act :=
  [.dock 0 (.chan (.setTimeout 0 (bytesOf "Print") 0)), .dock 0 (.chan (.setTimeout 0 (bytesOf "Last") 0)),
   .dock 0 (.chan (.setTimeout 1 (bytesOf "Print") 0)), .dock 0 (.chan (.setTimeout 1 (bytesOf "Last") 0))] ++
  List.map lift
  [.join 0, .dock 0 .storeHub, .dock 0 (.greet 0 [bytesOf "ILogger", bytesOf "INote"]), .deliver 1, .hub (.work 1), .hub (.work 1),
   .hub (.work 1), .deliver 0,
   .dock 0 (.work 0 []), .dock 0 (.work 0 [bytesOf "ILogger", bytesOf "INote"]), .deliver 1, .hub (.work 1), .hub (.work 1), .hub (.work 1),
   .join 1, .dock 1 .storeHub, .dock 1 (.greet 2 [bytesOf "IGame"]), .deliver 3, .hub (.work 3), .hub (.work 3),
   .deliver 2, .dock 1 (.work 2 []), .dock 1 (.work 2 [bytesOf "IGame"]), .deliver 3,
   .hub (.work 3), .hub (.work 3)] ++
  [.dock 0 .start, .dock 0 (.onStart 0 (bytesOf "ILogger")), .dock 0 (.onStarted 0), .dock 0 (.onStart 0 (bytesOf "INote")), .dock 0 (.onStarted 0),
   .dock 1 .start, .dock 1 (.onStart 0 (bytesOf "IGame"))] ++ noteAsk 0 helloPrint ++
  List.map lift
  [.deliver 3, .hub (.look 0), .hub (.examine 0),
   .hub (.respond 0), .deliver 2, .dial 1 2 0 20001, .dock 1 (.work 2 []), .accept 5, .dock 0 (.greet 5 [bytesOf "ILogger", bytesOf "INote"]),
   .deliver 4, .dock 1 (.work 4 [bytesOf "IGame"]), .dock 1 (.work 4 []), .dock 1 (.work 4 []), .dock 1 (.work 4 []),
   .dock 1 (.greet 4 [bytesOf "IGame"]), .deliver 5, .dock 0 (.work 5 []), .dock 0 (.work 5 []),
   .dock 0 (.work 5 []), .deliver 5, .dock 0 (.work 5 [bytesOf "ILogger", bytesOf "INote"]),
   .dock 0 (.work 5 []), .dock 0 (.work 5 []), .deliver 4, .dock 1 (.work 4 []), .dock 1 (.visit 4 0),
   .dock 1 (.work 4 []), .dock 1 (.work 4 []), .dock 1 (.work 4 []), .dock 1 (.work 4 []), .dock 1 (.visit 4 0), .dock 1 (.work 4 []), .dock 1 (.work 4 [])] ++
  noteServe 0 0 [] ++ noteAsk 1 notePrint ++ noteServe 1 1 [] ++ noteAsk 2 noteLast ++ noteServe 1 2 [.str 0 (bytesOf "done")] ++
  noteAsk 3 lastCall ++ noteServe 0 3 [.str 0 (bytesOf "Hello Ferry!")] ++ [.dock 1 (.onStarted 0)]

/-- A feature that has returned from two methods, one that stored a value and one that read it. -/
theorem behaves_two {C : Nat → List Carried} {T : Nat → Nat → Chan.Target} {H R : Nat → Str} {black : List Int}
    {E : World.Course C T H R black} {d k s1 t1 s2 t2 : Nat} {v : List Val} (h : t1 < t2)
    (x1 : Executes E d k (bytesOf "Print") v s1 t1 []) (x2 : Executes E d k (bytesOf "Last") [] s2 t2 v)
    (only : ∀ t res, E.act t = some (.dock d (.chan (.ret k res))) → t = t1 ∨ t = t2) : Behaves E d k lastO := by
  have grow : ∀ t u, t ≤ u → (u ≤ t1 ∨ t1 + 1 ≤ t ∧ u ≤ t2) → returnsOf E d k u = returnsOf E d k t := by
    intro t u htu hu
    obtain ⟨more, e1, e2⟩ := returns_grow (E := E) d k htu
    cases more with
    | nil => rw [e1, List.append_nil]
    | cons x l =>
      obtain ⟨s, v, res, k1, k2, k3⟩ := e2 x List.mem_cons_self
      have := only v res k3.2.2.1
      omega
  have e0 : returnsOf E d k t1 = [] := grow 0 t1 (by omega) (by omega)
  have e1 := returns_succ x1
  rw [e0] at e1
  have e2 : returnsOf E d k t2 = _ := (grow (t1 + 1) t2 (by omega) (by omega)).trans e1
  intro s t meth args res hx
  rcases only t res hx.2.2.1 with rfl | rfl
  · obtain rfl := executes_start hx x1
    obtain ⟨-, rfl⟩ := executes_once hx x1
    obtain ⟨q, b, _, h3, _⟩ := executes_begin hx
    obtain ⟨q', b', _, h3', _⟩ := executes_begin x1
    obtain ⟨-, rfl⟩ := begins_same b b'
    rw [← h3, h3']
    simp only [lastO, if_true]
  · obtain rfl := executes_start hx x2
    obtain ⟨-, rfl⟩ := executes_once hx x2
    obtain ⟨q, b, _, h3, _⟩ := executes_begin hx
    obtain ⟨q', b', _, h3', _⟩ := executes_begin x2
    obtain ⟨-, rfl⟩ := begins_same b b'
    rw [← h3, h3', e2]
    simp only [lastO, Obj.after, List.nil_append, List.foldl_cons, List.foldl_nil, if_true]
    rw [if_neg (by decide +kernel)]

set_option synthInstance.maxSize 100000 in
set_option synthInstance.maxHeartbeats 2000000 in
/-- An execution in which a value is stored in each of two features and then read, and what C152 says of it. -/
example : ∃ E : World.Course noteC noteT sysH sysR [], IsRegister lastO (bytesOf "Print") (bytesOf "Last") ∧
    OnlyAt noteC (bytesOf "ILogger") 0 0 ∧ OnlyAt noteC (bytesOf "INote") 0 1 ∧ Behaves E 0 0 lastO ∧ Behaves E 0 1 lastO ∧
    (∀ d, ReadingsDiffer E d) ∧
    (∀ n d c, Calls E n d c → (∀ f ∈ noteC d, f.name ≠ c.slot) → wireOKList c.args = true) ∧
    (∀ t d k res, E.act t = some (.dock d (.chan (.ret k res))) → wireOKList res = true) ∧
    Used E (bytesOf "ILogger") 0 0 37 91 helloPrint [.str 0 (bytesOf "Hello Ferry!")] [] ∧
    Stores E (bytesOf "INote") (bytesOf "Print") 91 [.str 0 (bytesOf "done")] ∧
    Stored E (bytesOf "INote") 0 1 (bytesOf "Print") 91 112 ∧
    ReadsIt E (bytesOf "INote") 0 1 (bytesOf "Last") 112 133 [.str 0 (bytesOf "done")] ∧
    ∃ out, GotRemote E 133 154 1 lastCall ⟨out, []⟩ ∧ out = [.str 0 (bytesOf "Hello Ferry!")] := by
  obtain ⟨S, h, hv⟩ := worldWitness (C := noteC) (T := noteT) (H := sysH) (R := sysR) (as := noteRest)
    (f := fun S => (World.quietOn false 2 S, (S.sys.dock 0).n, (S.sys.dock 1).n,
      (List.range 4).map (S.sys.dock 1).index)) (b := (true, 0, 4, [77, 78, 79, 80])) (by decide +kernel)
  simp only [Prod.mk.injEq] at hv
  obtain ⟨hq, n0, n1, ix⟩ := hv
  have ht : (noteRest.all fun a => a.tame 2) = true := by decide +kernel
  have hlen : noteRest.length = 155 := by decide +kernel
  obtain ⟨E, F, hd, hD, hact, hst, htail'⟩ := course_from (w := false) h ht hq (by
    intro d hd i j hi hj hij
    match d, hd with
    | 0, _ => omega
    | 1, _ =>
      rw [n1] at hi hj
      have val : ∀ i, i < 4 → (S.sys.dock 1).index i = BitVec.ofNat 64 (77 + i) := by
        intro i hi
        have := congrArg (fun l => l[i]?) ix
        simp only [List.getElem?_map, List.getElem?_range hi, Option.map_some] at this
        match i, hi with
        | 0, _ => exact Option.some.inj this
        | 1, _ => exact Option.some.inj this
        | 2, _ => exact Option.some.inj this
        | 3, _ => exact Option.some.inj this
      rw [val i hi, val j hj] at hij
      have := congrArg BitVec.toNat hij
      simp only [BitVec.toNat_ofNat] at this
      omega)
  have htick : ∀ n, noteRest.length ≤ n → ∃ d, E.act n = some (.dock d (.chan .tick)) := fun n hn => (htail' n hn).2
  have hcalls : callsIn noteRest = [(37, 1, helloPrint), (91, 1, notePrint), (112, 1, noteLast), (133, 1, lastCall)] := by
    decide +kernel
  have hrets : retsIn noteRest = [(78, []), (99, []), (120, [.str 0 (bytesOf "done")]), (141, [.str 0 (bytesOf "Hello Ferry!")])] := by
    decide +kernel
  have calls : ∀ n d c, Calls E n d c → (n = 37 ∧ d = 1 ∧ c = helloPrint) ∨ (n = 91 ∧ d = 1 ∧ c = notePrint) ∨
      (n = 112 ∧ d = 1 ∧ c = noteLast) ∨ (n = 133 ∧ d = 1 ∧ c = lastCall) := by
    intro n d c hc
    have := calls_in hact htick hc
    rw [hcalls] at this
    simpa only [List.mem_cons, Prod.mk.injEq, List.not_mem_nil, or_false] using this
  have hw : ∀ n d c, Calls E n d c → (∀ f ∈ noteC d, f.name ≠ c.slot) → wireOKList c.args = true := by
    intro n d c hc _
    rcases calls n d c hc with ⟨-, -, rfl⟩ | ⟨-, -, rfl⟩ | ⟨-, -, rfl⟩ | ⟨-, -, rfl⟩ <;> decide +kernel
  have hw' : ∀ t d k res, E.act t = some (.dock d (.chan (.ret k res))) → wireOKList res = true := by
    intro t d k res hr
    exact List.all_eq_true.mp (show ((retsIn noteRest).all fun x => wireOKList x.2) = true by decide +kernel) _ (rets_in hact htick hr)
  have look : ∀ (n : Nat) {β : Type} (f : World.State → β) (b : β), n ≤ 155 →
      (∃ S, run (World.State.step noteC noteT sysH sysR []) (World.State.init noteT) (noteRest.take n) = some S ∧ f S = b) →
      f (E.st n) = b := by
    rintro n β f b hn ⟨S', h1, h2⟩
    rw [hst n (by omega)] at h1
    cases h1
    exact h2
  have got : ∀ n m i (c : Dock.Call) out, Calls E n 1 c → (∀ f ∈ noteC 1, f.name ≠ c.slot) → n < m →
      ((E.st n).sys.dock 1).n = i →
      (((E.st m).sys.dock 1).phase i).result.map (fun r => (r.result, r.err)) = some (out, []) → GotRemote E n m 1 c ⟨out, []⟩ := by
    intro n m i c out h1 h2 h3 h4 h5
    exact ⟨h1, h2, h3, by rw [h4]; exact phase_got h5⟩
  have g1 : GotRemote E 37 91 1 helloPrint ⟨[], []⟩ := got 37 91 0 _ _ ⟨77, none, hact 37 (by omega)⟩ (by decide +kernel) (by omega)
    (look 37 (fun S => (S.sys.dock 1).n) 0 (by omega) (worldWitness (by decide +kernel)))
    (look 91 (fun S => ((S.sys.dock 1).phase 0).result.map fun r => (r.result, r.err)) _ (by omega) (worldWitness (by decide +kernel)))
  have g2 : GotRemote E 91 112 1 notePrint ⟨[], []⟩ := got 91 112 1 _ _ ⟨78, none, hact 91 (by omega)⟩ (by decide +kernel) (by omega)
    (look 91 (fun S => (S.sys.dock 1).n) 1 (by omega) (worldWitness (by decide +kernel)))
    (look 112 (fun S => ((S.sys.dock 1).phase 1).result.map fun r => (r.result, r.err)) _ (by omega) (worldWitness (by decide +kernel)))
  have g3 : GotRemote E 112 133 1 noteLast ⟨[.str 0 (bytesOf "done")], []⟩ :=
    got 112 133 2 _ _ ⟨79, none, hact 112 (by omega)⟩ (by decide +kernel) (by omega)
    (look 112 (fun S => (S.sys.dock 1).n) 2 (by omega) (worldWitness (by decide +kernel)))
    (look 133 (fun S => ((S.sys.dock 1).phase 2).result.map fun r => (r.result, r.err)) _ (by omega) (worldWitness (by decide +kernel)))
  have g4 : GotRemote E 133 154 1 lastCall ⟨[.str 0 (bytesOf "Hello Ferry!")], []⟩ :=
    got 133 154 3 _ _ ⟨80, none, hact 133 (by omega)⟩ (by decide +kernel) (by omega)
    (look 133 (fun S => (S.sys.dock 1).n) 3 (by omega) (worldWitness (by decide +kernel)))
    (look 154 (fun S => ((S.sys.dock 1).phase 3).result.map fun r => (r.result, r.err)) _ (by omega) (worldWitness (by decide +kernel)))
  have reg : IsRegister lastO (bytesOf "Print") (bytesOf "Last") := by
    refine ⟨fun args s => ?_, fun args s => ?_, fun meth args s hm => ?_⟩
    · simp only [lastO, if_true]
    · simp only [lastO]; rw [if_neg (by decide +kernel)]
    · simp only [lastO]; rw [if_neg hm]
  have zero : ∀ name, name ≠ bytesOf "IGame" → ∀ d', (∃ f ∈ noteC d', f.name = name) → d' = 0 := by
    rintro name hn d' ⟨f, hf, e⟩
    unfold noteC at hf
    split at hf
    · assumption
    · split at hf
      · rw [List.mem_singleton.mp hf] at e
        exact absurd e.symm hn
      · cases hf
  have only : OnlyAt noteC (bytesOf "ILogger") 0 0 :=
    ⟨⟨[], _, [_], rfl, rfl, by simp; decide +kernel, rfl⟩, zero _ (by decide +kernel)⟩
  have only' : OnlyAt noteC (bytesOf "INote") 0 1 := ⟨⟨[_], _, [], rfl, rfl, by simp, rfl⟩, zero _ (by decide +kernel)⟩
  have running : ∀ {x : Chan.Handler} {q : Nat}, (match x with | .running i => some i | _ => none) = some q → x = .running q := by
    intro x q hx
    cases x <;> simp at hx
    rw [hx]
  have exec : ∀ t k q meth args res, E.act t = some (.dock 0 (.chan (.ret k res))) →
      (match ((E.st t).rest 0).chan.handler k with | .running i => some i | _ => none, (((E.st t).rest 0).chan.req q).meth,
        (((E.st t).rest 0).chan.req q).args) = (some q, meth, args) → ∃ s, Executes E 0 k meth args s t res := by
    intro t k q meth args res hr hw
    simp only [Prod.mk.injEq] at hw
    obtain ⟨s, -, x⟩ := executes_of hr (running hw.1)
    rw [hw.2.1, hw.2.2] at x
    exact ⟨s, x⟩
  obtain ⟨s1, x1⟩ := exec 78 0 0 (bytesOf "Print") [.str 0 (bytesOf "Hello Ferry!")] _ (hact 78 (by omega))
    (look 78 (fun S => (match (S.rest 0).chan.handler 0 with | .running i => some i | _ => none, ((S.rest 0).chan.req 0).meth,
      ((S.rest 0).chan.req 0).args)) _ (by omega) (worldWitness (by decide +kernel)))
  obtain ⟨s2, x2⟩ := exec 99 1 1 (bytesOf "Print") [.str 0 (bytesOf "done")] _ (hact 99 (by omega))
    (look 99 (fun S => (match (S.rest 0).chan.handler 1 with | .running i => some i | _ => none, ((S.rest 0).chan.req 1).meth,
      ((S.rest 0).chan.req 1).args)) _ (by omega) (worldWitness (by decide +kernel)))
  obtain ⟨s3, x3⟩ := exec 120 1 2 (bytesOf "Last") [] _ (hact 120 (by omega))
    (look 120 (fun S => (match (S.rest 0).chan.handler 1 with | .running i => some i | _ => none, ((S.rest 0).chan.req 2).meth,
      ((S.rest 0).chan.req 2).args)) _ (by omega) (worldWitness (by decide +kernel)))
  obtain ⟨s4, x4⟩ := exec 141 0 3 (bytesOf "Last") [] _ (hact 141 (by omega))
    (look 141 (fun S => (match (S.rest 0).chan.handler 0 with | .running i => some i | _ => none, ((S.rest 0).chan.req 3).meth,
      ((S.rest 0).chan.req 3).args)) _ (by omega) (worldWitness (by decide +kernel)))
  have at' : ∀ t k res, E.act t = some (.dock 0 (.chan (.ret k res))) → (k = 0 ∧ (t = 78 ∨ t = 141)) ∨ (k = 1 ∧ (t = 99 ∨ t = 120)) := by
    intro t k res hr
    have := rets_in hact htick hr
    rw [hrets] at this
    simp only [List.mem_cons, Prod.mk.injEq, List.not_mem_nil, or_false] at this
    rcases this with ⟨rfl, -⟩ | ⟨rfl, -⟩ | ⟨rfl, -⟩ | ⟨rfl, -⟩
    · have := x1.2.2.1; rw [hr] at this; cases this; exact Or.inl ⟨rfl, Or.inl rfl⟩
    · have := x2.2.2.1; rw [hr] at this; cases this; exact Or.inr ⟨rfl, Or.inl rfl⟩
    · have := x3.2.2.1; rw [hr] at this; cases this; exact Or.inr ⟨rfl, Or.inr rfl⟩
    · have := x4.2.2.1; rw [hr] at this; cases this; exact Or.inl ⟨rfl, Or.inr rfl⟩
  have b0 : Behaves E 0 0 lastO := behaves_two (by omega) x1 x4 fun t res hr => by have := at' t 0 res hr; omega
  have b1 : Behaves E 0 1 lastO := behaves_two (by omega) x2 x3 fun t res hr => by have := at' t 1 res hr; omega
  have used : Used E (bytesOf "ILogger") 0 0 37 91 helloPrint [.str 0 (bytesOf "Hello Ferry!")] [] :=
    ⟨rfl, by decide +kernel, Or.inl ⟨1, _, g1, rfl, rfl, by decide +kernel⟩⟩
  have stored : Stored E (bytesOf "INote") 0 1 (bytesOf "Print") 91 112 :=
    ⟨notePrint, [.str 0 (bytesOf "done")], [], ⟨rfl, by decide +kernel, Or.inl ⟨1, _, g2, rfl, rfl, by decide +kernel⟩⟩, rfl⟩
  have reads : ReadsIt E (bytesOf "INote") 0 1 (bytesOf "Last") 112 133 [.str 0 (bytesOf "done")] :=
    ⟨noteLast, [], ⟨rfl, by decide +kernel, Or.inl ⟨1, _, g3, rfl, rfl, by decide +kernel⟩⟩, rfl, rfl⟩
  refine ⟨E, reg, only, only', b0, b1, hd, hw, hw', used, ⟨1, notePrint, g2.1, rfl, rfl, rfl⟩, stored, reads, _, g4, ?_⟩
  refine (C152_learns (w := 91) (v := [.str 0 (bytesOf "done")]) reg reg only only' b0 b1 hd hw hw' used rfl (by omega) ?_
    (by decide +kernel) reads rfl (by omega) g4 ⟨rfl, by decide +kernel⟩ rfl rfl ?_).trans (by decide +kernel)
  · rintro w' v' ⟨d0, c, hc, h1, h2, -⟩ -
    rcases calls w' d0 c hc with ⟨-, -, rfl⟩ | ⟨rfl, -, rfl⟩ | ⟨-, -, rfl⟩ | ⟨-, -, rfl⟩
    · exact absurd h1 (by decide +kernel)
    · rfl
    · exact absurd h2 (by decide +kernel)
    · exact absurd h1 (by decide +kernel)
  · intro n d0 c hn hc h1 h2
    rcases calls n d0 c hc with ⟨rfl, -, rfl⟩ | ⟨-, -, rfl⟩ | ⟨-, -, rfl⟩ | ⟨-, -, rfl⟩
    · exact absurd rfl hn
    · exact absurd h1 (by decide +kernel)
    · exact absurd h1 (by decide +kernel)
    · exact absurd h2 (by decide +kernel)

end Verif.Props
