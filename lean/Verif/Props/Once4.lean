import Verif.Props.Once3

/-!
# C150: a feature behaves like an atomic object
-/

namespace Verif.Props

open Verif Verif.Codec Verif.Proto Verif.System
open Verif.Dock (Carried LastNamed)

variable {C : Nat → List Carried} {T : Nat → Nat → Chan.Target} {H R : Nat → Str} {black : List Int}
  {E : World.Course C T H R black}

/-- An object with state, as its methods behave one after the other: what a method returns, and the state it leaves.  The methods of
a feature, called in /repo/chancall/meta.go:51. -/
structure Obj (σ : Type) where
  init : σ
  apply : Str → List Val → σ → List Val × σ

/-- The state after these methods one after the other, /repo/chancall/callee.go:27-32. -/
def Obj.after {σ : Type} (O : Obj σ) (h : List (Str × List Val)) : σ := h.foldl (fun s x => (O.apply x.1 x.2 s).2) O.init

/-- The methods of feature `k` of dock `d` that have returned before step `t`, in order, /repo/chancall/callee.go:37. -/
def returnsOf (E : World.Course C T H R black) (d k : Nat) : Nat → List (Str × List Val)
  | 0 => []
  | t + 1 =>
    match E.act t, ((E.st t).rest d).chan.handler k with
    | some (.dock d' (.chan (.ret k' _))), .running q =>
      if d' = d ∧ k' = k then
        returnsOf E d k t ++ [((((E.st t).rest d).chan.req q).meth, (((E.st t).rest d).chan.req q).args)]
      else returnsOf E d k t
    | _, _ => returnsOf E d k t

/-- The methods of feature `k` of dock `d` are those of the object: a method returns what that of the object returns in the state
after all those that returned before.  /repo/chancall/meta.go:44-62. -/
def Behaves {σ : Type} (E : World.Course C T H R black) (d k : Nat) (O : Obj σ) : Prop :=
  ∀ s t meth args res, Executes E d k meth args s t res → res = (O.apply meth args (O.after (returnsOf E d k t))).1

/-- Feature `k` of dock `d` is the one that calls of this name are for: no other dock carries one of the name. -/
def OnlyAt (C : Nat → List Carried) (slot : Str) (d k : Nat) : Prop :=
  LastAt (C d) slot k ∧ ∀ d', (∃ f ∈ C d', f.name = slot) → d' = d

/-! ## What has returned -/

theorem ret_running {t d k : Nat} {res : List Val} (h : E.act t = some (.dock d (.chan (.ret k res)))) :
    ∃ q, ((E.st t).rest d).chan.handler k = .running q := by
  have hp := World.chan_part (E.some_step h) d
  simp only [World.State.chanAct, if_pos] at hp
  unfold Chan.State.step at hp
  split at hp
  · cases hp
  simp only at hp
  split at hp
  · rename_i q hq
    exact ⟨q, hq⟩
  · cases hp

/-- The method that returns is the one started last. -/
theorem executes_of {t d k : Nat} {res : List Val} {q : Nat} (h : E.act t = some (.dock d (.chan (.ret k res))))
    (hq : ((E.st t).rest d).chan.handler k = .running q) :
    ∃ s, Begins E s d q ∧ Executes E d k (((E.st t).rest d).chan.req q).meth (((E.st t).rest d).chan.req q).args s t res := by
  obtain ⟨s, h1, h2, h3, h4⟩ := running_since t d k q hq
  obtain ⟨hlt, b1, ⟨rest, b2⟩, -⟩ := begins_new h2
  rw [h3] at b1
  simp only [Option.some.injEq, World.Act.dock.injEq, Whole.Act.chan.injEq, Chan.Act.start.injEq, true_and] at b1
  have hreq := (request_stays (E := E) (Nat.le_of_lt h1) hlt).2
  exact ⟨s, h2, ⟨h3, q, rest, by rw [b1]; exact b2, by rw [hreq], by rw [hreq]⟩, h1, h, h4⟩

theorem executes_begin {s t d k : Nat} {meth : Str} {args res : List Val} (h : Executes E d k meth args s t res) :
    ∃ q, Begins E s d q ∧ ((E.st t).rest d).chan.handler k = .running q ∧ (((E.st t).rest d).chan.req q).meth = meth ∧
      (((E.st t).rest d).chan.req q).args = args := by
  obtain ⟨⟨h1, q, rest, h2, h3, h4⟩, h5, h6, h7⟩ := h
  obtain ⟨q', hq'⟩ := ret_running h6
  obtain ⟨s', g0, ⟨g1, -⟩, g2, -, g4⟩ := executes_of h6 hq'
  have e : s = s' := by
    rcases Nat.lt_trichotomy s s' with hl | hl | hl
    · exact absurd g1 (h7 s' hl g2).1
    · exact hl
    · exact absurd h1 (g4 s hl h5).1
  subst e
  have hb : Begins E s d q := ⟨k, rest, h1, h2⟩
  obtain ⟨-, rfl⟩ := begins_same hb g0
  have hreq := (request_stays (E := E) (Nat.le_of_lt h5) (begins_new hb).1).2
  exact ⟨q, hb, hq', by rw [hreq]; exact h3, by rw [hreq]; exact h4⟩

/-- A method returns once. -/
theorem executes_once {s t t' d k d' k' : Nat} {meth meth' : Str} {args res args' res' : List Val}
    (h : Executes E d k meth args s t res) (h' : Executes E d' k' meth' args' s t' res') : t = t' ∧ res = res' := by
  obtain ⟨⟨h1, -⟩, h5, h6, h7⟩ := h
  obtain ⟨⟨g1, -⟩, g5, g6, g7⟩ := h'
  rw [h1] at g1
  cases g1
  have e : t = t' := by
    rcases Nat.lt_trichotomy t t' with hl | hl | hl
    · exact absurd h6 ((g7 t h5 hl).2 _)
    · exact hl
    · exact absurd g6 ((h7 t' g5 hl).2 _)
  subst e
  rw [h6] at g6
  cases g6
  exact ⟨rfl, rfl⟩

theorem executes_start {s s' t d k d' k' : Nat} {meth meth' : Str} {args res args' res' : List Val}
    (h : Executes E d k meth args s t res) (h' : Executes E d' k' meth' args' s' t res') : s = s' := by
  obtain ⟨⟨h1, -⟩, h5, h6, h7⟩ := h
  obtain ⟨⟨g1, -⟩, g5, g6, g7⟩ := h'
  rw [h6] at g6
  cases g6
  rcases Nat.lt_trichotomy s s' with hl | hl | hl
  · exact absurd g1 (h7 s' hl g5).1
  · exact hl
  · exact absurd h1 (g7 s hl h5).1

theorem returns_succ {s t d k : Nat} {meth : Str} {args res : List Val} (h : Executes E d k meth args s t res) :
    returnsOf E d k (t + 1) = returnsOf E d k t ++ [(meth, args)] := by
  obtain ⟨q, -, h2, h3, h4⟩ := executes_begin h
  simp only [returnsOf, h.2.2.1, h2, h3, h4, and_self, if_true]

/-- What is added between two steps. -/
theorem returns_grow {t u : Nat} (d k : Nat) (hu : t ≤ u) : ∃ more, returnsOf E d k u = returnsOf E d k t ++ more ∧
    ∀ x ∈ more, ∃ s v res, t ≤ v ∧ v < u ∧ Executes E d k x.1 x.2 s v res := by
  induction u with
  | zero =>
    have : t = 0 := by omega
    subst this
    exact ⟨[], by simp, by simp⟩
  | succ u ih =>
    by_cases e : t = u + 1
    · subst e
      exact ⟨[], by simp, by simp⟩
    obtain ⟨more, h1, h2⟩ := ih (by omega)
    have old : returnsOf E d k (u + 1) = returnsOf E d k u → ∃ more, returnsOf E d k (u + 1) = returnsOf E d k t ++ more ∧
        ∀ x ∈ more, ∃ s v res, t ≤ v ∧ v < u + 1 ∧ Executes E d k x.1 x.2 s v res := fun e => by
      refine ⟨more, e.trans h1, fun x hx => ?_⟩
      obtain ⟨s, v, res, g1, g2, g3⟩ := h2 x hx
      exact ⟨s, v, res, g1, by omega, g3⟩
    by_cases hr : ∃ res, E.act u = some (.dock d (.chan (.ret k res)))
    · obtain ⟨res, hr⟩ := hr
      obtain ⟨q, hq⟩ := ret_running hr
      obtain ⟨s, -, hx⟩ := executes_of hr hq
      refine ⟨more ++ [((((E.st u).rest d).chan.req q).meth, (((E.st u).rest d).chan.req q).args)], ?_, fun x hx' => ?_⟩
      · rw [returns_succ hx, h1, List.append_assoc]
      · rcases List.mem_append.mp hx' with hx' | hx'
        · obtain ⟨s, v, res, g1, g2, g3⟩ := h2 x hx'
          exact ⟨s, v, res, g1, by omega, g3⟩
        · rw [List.mem_singleton.mp hx']
          exact ⟨s, u, res, by omega, Nat.lt_succ_self _, hx⟩
    · refine old ?_
      rw [returnsOf]
      split
      · rename_i hact _
        rw [if_neg]
        rintro ⟨rfl, rfl⟩
        exact hr ⟨_, hact⟩
      · rfl

/-! ## Calls -/

/-- The call made in step `n` has by step `m` got the values `out` without an error; `args` is what its method is given. -/
def Success (E : World.Course C T H R black) (n m : Nat) (c : Dock.Call) (args out : List Val) : Prop :=
  (∃ d r, GotRemote E n m d c r ∧ r.err = [] ∧ r.result = out ∧ args = canonList c.args) ∨
    ∃ d, GotLocal E n m d c (.ok (some out)) ∧ args = c.args

theorem success_exec (hd : ∀ d, ReadingsDiffer E d)
    (hw : ∀ n d c, Calls E n d c → (∀ f ∈ C d, f.name ≠ c.slot) → wireOKList c.args = true)
    (hw' : ∀ t d k res, E.act t = some (.dock d (.chan (.ret k res))) → wireOKList res = true)
    {n m : Nat} {c : Dock.Call} {args out : List Val} (h : Success E n m c args out) :
    ∃ d' k s, StartedFor E n s ∧ n < s ∧ LastAt (C d') c.slot k ∧ StartsMethod E s d' k c.meth args ∧
      ((∃ d, GotRemote E n m d c ⟨out, []⟩) ∧ (∃ f, (C d')[k]? = some f ∧ f.discoverable = true) ∧
        ((∃ t res, t < m ∧ Executes E d' k c.meth args s t res ∧ out = if c.withResult then canonList res else []) ∨
          (T d' k).invoke c.meth args = .unknown) ∨
        GotLocal E n m d' c (.ok (some out)) ∧ ∃ t, t < m ∧ Executes E d' k c.meth args s t out) := by
  rcases h with ⟨d, r, h, he, rfl, rfl⟩ | ⟨d, h, rfl⟩
  · obtain ⟨s, h1, h2, h3, d', k, h4, h5, h6, h7⟩ := remote_started hd hw hw' h
    refine ⟨d', k, s, h1, h2, h4, h6, Or.inl ⟨⟨d, by cases r; cases he; exact h⟩, h5, ?_⟩⟩
    rcases h7 with ⟨-, ⟨t, res, g1, g2, g3⟩ | ⟨g1, -⟩⟩ | ⟨g1, -⟩
    · exact Or.inl ⟨t, res, g1, g2, g3⟩
    · exact Or.inr g1
    · rw [he] at g1; cases g1
  · obtain ⟨s, h1, h2, h3, k, h4, h6, h7⟩ := local_started h
    refine ⟨d, k, s, h1, h2, h4, h6, Or.inr ⟨h, ?_⟩⟩
    rcases h7 with ⟨t, res, g1, g2, g3⟩ | ⟨-, g3⟩ | g3
    · cases g3; exact ⟨t, g1, g2⟩
    · cases g3
    · cases g3

theorem last_at {cs : List Carried} {name : Str} {k k' : Nat} (h : LastAt cs name k) (h' : LastAt cs name k') : k = k' := by
  obtain ⟨pre, f, post, rfl, h2, h3, rfl⟩ := h
  obtain ⟨pre', f', post', e, g2, g3, rfl⟩ := h'
  rcases List.append_eq_append_iff.mp e with ⟨a, rfl, h⟩ | ⟨a, rfl, h⟩
  · cases a with
    | nil => simp
    | cons x a =>
      simp only [List.cons_append, List.cons.injEq] at h
      exact absurd g2 (h3 f' (by rw [h.2]; simp))
  · cases a with
    | nil => simp
    | cons x a =>
      simp only [List.cons_append, List.cons.injEq] at h
      exact absurd h2 (g3 f (by rw [h.2]; simp))

theorem name_at {cs : List Carried} {name name' : Str} {k : Nat} (h : LastAt cs name k) (h' : LastAt cs name' k) : name = name' := by
  obtain ⟨pre, f, post, rfl, rfl, h3, rfl⟩ := h
  obtain ⟨pre', f', post', e, rfl, g3, hl⟩ := h'
  obtain ⟨-, e⟩ := List.append_inj e hl.symm
  cases e
  rfl

/-- The call made in step `n`, of a method that feature `k` of dock `d` has, has by step `m` got the values `out` without an error;
`args` is what the method is given. -/
def Used (E : World.Course C T H R black) (slot : Str) (d k n m : Nat) (c : Dock.Call) (args out : List Val) : Prop :=
  c.slot = slot ∧ (T d k).invoke c.meth args ≠ .unknown ∧ Success E n m c args out

/-- Such a call has executed the method. -/
theorem used_exec (hd : ∀ d, ReadingsDiffer E d)
    (hw : ∀ n d c, Calls E n d c → (∀ f ∈ C d, f.name ≠ c.slot) → wireOKList c.args = true)
    (hw' : ∀ t d k res, E.act t = some (.dock d (.chan (.ret k res))) → wireOKList res = true)
    {slot : Str} {n m d k : Nat} {c : Dock.Call} {args out : List Val} (ho : OnlyAt C slot d k) (h : Used E slot d k n m c args out) :
    ∃ s t res, StartedFor E n s ∧ n < s ∧ Executes E d k c.meth args s t res ∧ t < m ∧
      ((∃ d0, GotRemote E n m d0 c ⟨out, []⟩) ∧ out = (if c.withResult then canonList res else []) ∨
        GotLocal E n m d c (.ok (some out)) ∧ out = res) := by
  obtain ⟨rfl, hk, h⟩ := h
  obtain ⟨d', k', s, h1, h2, h3, h4, h5⟩ := success_exec hd hw hw' h
  obtain rfl : d' = d := by
    obtain ⟨pre, f, post, e, hn, -⟩ := h3
    exact ho.2 d' ⟨f, by rw [e]; simp, hn⟩
  obtain rfl := last_at h3 ho.1
  rcases h5 with ⟨h5, h6, ⟨t, res, g1, g2, g3⟩ | g⟩ | ⟨h5, t, g1, g2⟩
  · exact ⟨s, t, res, h1, h2, g2, g1, Or.inl ⟨h5, g3⟩⟩
  · exact absurd g hk
  · exact ⟨s, t, out, h1, h2, g2, g1, Or.inr ⟨h5, rfl⟩⟩

/-- Every method that is executed is executed for a call. -/
theorem exec_for (hw : ∀ n d c, Calls E n d c → (∀ f ∈ C d, f.name ≠ c.slot) → wireOKList c.args = true)
    {s t d k : Nat} {meth : Str} {args res : List Val} (h : Executes E d k meth args s t res) :
    ∃ n d0 c, n < s ∧ Calls E n d0 c ∧ StartedFor E n s ∧ MeansMethod C d0 c d k meth args := by
  obtain ⟨q, hb, h1, h2, h3⟩ := executes_begin h
  obtain ⟨n, g1, g2, d0, c, g3, g4⟩ := for_some hb
  obtain ⟨hlt, b1, -⟩ := begins_new hb
  have hreq := (request_stays (E := E) (Nat.le_of_lt h.2.1) hlt).2
  rw [hreq] at h2 h3
  rw [h.1.1] at b1
  simp only [Option.some.injEq, World.Act.dock.injEq, Whole.Act.chan.injEq, Chan.Act.start.injEq, true_and] at b1
  have := g4 (hw n d0 c g3)
  rw [h2, h3, ← b1] at this
  exact ⟨n, d0, c, g2, g3, g1, this⟩

/-- **C150.**  A feature whose methods, executed one after the other, are those of an object with state, and whose name no other dock
uses, behaves for all docks like that object with atomic methods: in every execution of a system with callees in which the clocks
give no reading twice and arguments and results survive the wire, every call of a method of the feature that got its result without
an error can be assigned a step, after the call was made and before it got the result, different ones to different calls, such that
the result is what the method returns after all methods that returned in earlier steps; and in every step in which a method of the
feature returns it does so for a call made before. -/
theorem C150_atomic {σ : Type} (O : Obj σ) {slot : Str} {d k : Nat} (ho : OnlyAt C slot d k) (hi : Behaves E d k O)
    (hd : ∀ d, ReadingsDiffer E d)
    (hw : ∀ n d c, Calls E n d c → (∀ f ∈ C d, f.name ≠ c.slot) → wireOKList c.args = true)
    (hw' : ∀ t d k res, E.act t = some (.dock d (.chan (.ret k res))) → wireOKList res = true) :
    ∃ g : Nat → Nat,
      (∀ n m c args out n' m' c' args' out', Used E slot d k n m c args out → Used E slot d k n' m' c' args' out' →
        g n = g n' → n = n') ∧
      (∀ n m c args out, Used E slot d k n m c args out → n < g n ∧ g n < m ∧
        returnsOf E d k (g n + 1) = returnsOf E d k (g n) ++ [(c.meth, args)] ∧
        ∃ res, res = (O.apply c.meth args (O.after (returnsOf E d k (g n)))).1 ∧
          ((∃ d0, GotRemote E n m d0 c ⟨out, []⟩) ∧ out = (if c.withResult then canonList res else []) ∨
            GotLocal E n m d c (.ok (some out)) ∧ out = res)) ∧
      ∀ t, returnsOf E d k (t + 1) = returnsOf E d k t ∨
        ∃ n d0 c args, n < t ∧ Calls E n d0 c ∧ MeansMethod C d0 c d k c.meth args ∧
          returnsOf E d k (t + 1) = returnsOf E d k t ++ [(c.meth, args)] := by
  classical
  have key : ∀ n, ∃ t, (∃ s t meth args res, StartedFor E n s ∧ Executes E d k meth args s t res) →
      ∃ s meth args res, StartedFor E n s ∧ Executes E d k meth args s t res := by
    intro n
    by_cases h : ∃ s t meth args res, StartedFor E n s ∧ Executes E d k meth args s t res
    · obtain ⟨s, t, meth, args, res, h⟩ := h
      exact ⟨t, fun _ => ⟨s, meth, args, res, h⟩⟩
    · exact ⟨0, fun h' => absurd h' h⟩
  have is : ∀ n s t meth args res, StartedFor E n s → Executes E d k meth args s t res → (key n).choose = t := by
    intro n s t meth args res h1 h2
    obtain ⟨s', meth', args', res', g1, g2⟩ := (key n).choose_spec ⟨s, t, meth, args, res, h1, h2⟩
    obtain rfl := for_one hd g1 h1
    exact (executes_once g2 h2).1
  refine ⟨fun n => (key n).choose, fun n m c args out n' m' c' args' out' h h' e => ?_, fun n m c args out h => ?_, fun t => ?_⟩
  · obtain ⟨s, t, res, h1, -, h2, -⟩ := used_exec hd hw hw' ho h
    obtain ⟨s', t', res', g1, -, g2, -⟩ := used_exec hd hw hw' ho h'
    have e : (key n).choose = (key n').choose := e
    rw [is n s t _ _ _ h1 h2, is n' s' t' _ _ _ g1 g2] at e
    subst e
    obtain rfl := executes_start h2 g2
    exact one_for hd h1 g1
  · obtain ⟨s, t, res, h1, h2, h3, h4, h5⟩ := used_exec hd hw hw' ho h
    simp only [is n s t _ _ _ h1 h3]
    exact ⟨by have := h3.2.1; omega, h4, returns_succ h3, res, hi _ _ _ _ _ h3, h5⟩
  · by_cases hr : ∃ res, E.act t = some (.dock d (.chan (.ret k res)))
    · obtain ⟨res, hr⟩ := hr
      obtain ⟨q, hq⟩ := ret_running hr
      obtain ⟨s, -, hx⟩ := executes_of hr hq
      obtain ⟨n, d0, c, h1, h2, -, h3⟩ := exec_for hw hx
      have e := returns_succ hx
      rw [h3.1] at e h3
      exact Or.inr ⟨n, d0, c, _, by have := hx.2.1; omega, h2, h3, e⟩
    · left
      rw [returnsOf]
      split
      · rename_i hact _
        rw [if_neg]
        rintro ⟨rfl, rfl⟩
        exact hr ⟨_, hact⟩
      · rfl

/-! ## A register -/

theorem canonNat_again (n : Nat) (h : n < 2^64) : canon (canonNat n) = canonNat n := by
  unfold canonNat
  split
  · show canonNat (BitVec.ofNat 8 n).toNat = _; rw [BitVec.toNat_ofNat, Nat.mod_eq_of_lt (by omega), canonNat, if_pos (by omega)]
  split
  · show canonNat (BitVec.ofNat 16 n).toNat = _; rw [BitVec.toNat_ofNat, Nat.mod_eq_of_lt (by omega), canonNat, if_neg (by omega), if_pos (by omega)]
  split
  · show canonNat (BitVec.ofNat 32 n).toNat = _; rw [BitVec.toNat_ofNat, Nat.mod_eq_of_lt (by omega), canonNat, if_neg (by omega), if_neg (by omega), if_pos (by omega)]
  · show canonNat (BitVec.ofNat 64 n).toNat = _; rw [BitVec.toNat_ofNat, Nat.mod_eq_of_lt (by omega), canonNat, if_neg (by omega), if_neg (by omega), if_neg (by omega)]

theorem canonInt_again (z : Int) (h : -2^63 ≤ z ∧ z < 2^63) : canon (canonInt z) = canonInt z := by
  have e : ∀ w, 0 < w → -2^(w-1) ≤ z → z < 2^(w-1) → (BitVec.ofInt w z).toInt = z := fun w hw h1 h2 =>
    BitVec.toInt_ofInt_eq_self hw h1 h2
  unfold canonInt
  split
  · show canonInt (BitVec.ofInt 8 z).toInt = _; rw [e 8 (by omega) (by omega) (by omega), canonInt, if_pos (by omega)]
  split
  · show canonInt (BitVec.ofInt 16 z).toInt = _; rw [e 16 (by omega) (by omega) (by omega), canonInt, if_neg (by omega), if_pos (by omega)]
  split
  · show canonInt (BitVec.ofInt 32 z).toInt = _; rw [e 32 (by omega) (by omega) (by omega), canonInt, if_neg (by omega), if_neg (by omega), if_pos (by omega)]
  · show canonInt (BitVec.ofInt 64 z).toInt = _; rw [e 64 (by omega) (by omega) (by omega), canonInt, if_neg (by omega), if_neg (by omega), if_neg (by omega)]

mutual

/-- A value that has been over the wire stays the same when it goes over it again. -/
theorem canon_again : ∀ v : Val, canon (canon v) = canon v
  | .nil => rfl
  | .bool _ b => rfl
  | .uint w _ v => canonNat_again _ (Nat.lt_of_lt_of_le v.isLt (by cases w <;> decide))
  | .int w _ v => canonInt_again _ ⟨Int.le_trans (by cases w <;> decide) (BitVec.le_toInt v),
      Int.lt_of_lt_of_le (BitVec.toInt_lt (x := v)) (by cases w <;> decide)⟩
  | .f32 _ b => rfl
  | .f64 _ b => rfl
  | .str _ s => rfl
  | .seq _ xs => by simp only [canon, canonList_again xs]
  | .map _ kvs => by simp only [canon, canonEntries_again kvs]
  | .bad k => rfl

theorem canonList_again : ∀ l : List Val, canonList (canonList l) = canonList l
  | [] => rfl
  | x :: xs => by simp only [canonList, canon_again x, canonList_again xs]

theorem canonEntries_again : ∀ l : List (Val × Val), canonEntries (canonEntries l) = canonEntries l
  | [] => rfl
  | (k, v) :: l => by simp only [canonEntries, canon_again k, canon_again v, canonEntries_again l]

end

/-- The object with a method that stores its arguments and one that returns what was stored last. -/
structure IsRegister (O : Obj (List Val)) (set get : Str) : Prop where
  stores : ∀ args s, O.apply set args s = ([], args)
  reads : ∀ args s, (O.apply get args s).1 = s
  keeps : ∀ meth args s, meth ≠ set → (O.apply meth args s).2 = s

theorem register_keeps {O : Obj (List Val)} {set get : Str} (h : IsRegister O set get) (more : List (Str × List Val))
    (hm : ∀ x ∈ more, x.1 ≠ set) (s : List Val) : more.foldl (fun s x => (O.apply x.1 x.2 s).2) s = s := by
  induction more generalizing s with
  | nil => rfl
  | cons x l ih =>
    simp only [List.foldl_cons]
    rw [h.keeps _ _ _ (hm x List.mem_cons_self)]
    exact ih (fun y hy => hm y (List.mem_cons_of_mem _ hy)) s

/-- **C150**, for a feature that stores a value: a dock that reads it, after a call that stored a value has returned, gets that value, if
all other calls that store one have returned without an error before this one was made, or are made after the value was read. -/
theorem C150_register {O : Obj (List Val)} {set get : Str} (hO : IsRegister O set get) {slot : Str} {d k : Nat}
    (ho : OnlyAt C slot d k) (hi : Behaves E d k O) (hd : ∀ d, ReadingsDiffer E d)
    (hw : ∀ n d c, Calls E n d c → (∀ f ∈ C d, f.name ≠ c.slot) → wireOKList c.args = true)
    (hw' : ∀ t d k res, E.act t = some (.dock d (.chan (.ret k res))) → wireOKList res = true)
    {n1 m1 n2 m2 d2 : Nat} {c1 c2 : Dock.Call} {args1 out1 out2 : List Val}
    (h1 : Used E slot d k n1 m1 c1 args1 out1) (hs : c1.meth = set)
    (h2 : GotRemote E n2 m2 d2 c2 ⟨out2, []⟩) (hk : c2.slot = slot ∧ (T d k).invoke c2.meth (canonList c2.args) ≠ .unknown)
    (hg : c2.meth = get) (hr : c2.withResult = true) (h12 : m1 ≤ n2)
    (h3 : ∀ n d0 c, n ≠ n1 → Calls E n d0 c → c.slot = slot → c.meth = set →
      m2 ≤ n ∨ ∃ m args out, m ≤ n1 ∧ Used E slot d k n m c args out) :
    out2 = canonList c1.args := by
  obtain ⟨s1, t1, res1, a1, a2, a3, a4, -⟩ := used_exec hd hw hw' ho h1
  obtain ⟨s2, t2, res2, b1, b2, b3, b4, b5⟩ := used_exec hd hw hw' ho
    (⟨hk.1, hk.2, Or.inl ⟨d2, _, h2, rfl, rfl, rfl⟩⟩ : Used E slot d k n2 m2 c2 (canonList c2.args) out2)
  have e2 : out2 = canonList res2 := by
    rcases b5 with ⟨-, b5⟩ | ⟨b5, -⟩
    · rw [b5, hr]; rfl
    · obtain ⟨rfl, -⟩ := calls_same h2.1 b5.1
      obtain ⟨f, hf, e⟩ := b5.2.1
      exact absurd e (h2.2.1 f hf)
  have hb := b3.2.1
  obtain ⟨more, g1, g2⟩ := returns_grow (E := E) d k (show t1 + 1 ≤ t2 by omega)
  have none : ∀ x ∈ more, x.1 ≠ set := by
    intro x hx e
    obtain ⟨s, v, res, k1, k2, k3⟩ := g2 x hx
    obtain ⟨n, d0, c, l1, l2, l3, l4⟩ := exec_for hw k3
    have hn : n ≠ n1 := fun e' => by
      subst e'
      obtain rfl := for_one hd l3 a1
      have := (executes_once k3 a3).1
      omega
    have hv := k3.2.1
    rcases h3 n d0 c hn l2 (name_at l4.2.1 ho.1) (l4.1.symm.trans e) with h | ⟨m, args, out, h, hu⟩
    · omega
    · obtain ⟨s', t', res', p1, p2, p3, p4, -⟩ := used_exec hd hw hw' ho hu
      obtain rfl := for_one hd l3 p1
      have := (executes_once k3 p3).1
      have := a3.2.1
      omega
  have e3 := hi _ _ _ _ _ b3
  rw [hg, hO.reads, g1, returns_succ a3, Obj.after, List.foldl_append, List.foldl_append] at e3
  simp only [List.foldl_cons, List.foldl_nil] at e3
  rw [register_keeps hO more none, hs, hO.stores] at e3
  have e4 : canonList args1 = canonList c1.args := by
    obtain ⟨-, -, ⟨_, _, _, _, _, e⟩ | ⟨_, _, e⟩⟩ := h1
    · rw [e, canonList_again]
    · rw [e]
  rw [e2, e3, e4]

/-! ## An execution -/

/-- The logger of the README with a second method that returns what was printed last. -/
def lastA : Application := fun d k m =>
  if d = 0 ∧ k = 0 ∧ m = bytesOf "Print" then some ⟨[.str 0], fun _ res => res = []⟩
  else if d = 0 ∧ k = 0 ∧ m = bytesOf "Last" then some ⟨[], fun _ _ => True⟩
  else none

/-- Its methods as targets of callees, /repo/chancall/meta.go:22-42. -/
abbrev lastT : Nat → Nat → Chan.Target := fun d => (lastA d).targets noConv

/-- What was printed last, and the two methods. -/
def lastO : Obj (List Val) := ⟨[], fun m args s => if m = bytesOf "Print" then ([], args) else (s, s)⟩

/-- The call of the second method, /repo/slot.go:57-59. -/
def lastCall : Dock.Call := ⟨bytesOf "ILogger", bytesOf "Last", [], true⟩

/-- As in the README, and then dock 1 asks for what was printed last. -/
def lastRest : List World.Act := [.dock 0 (.chan (.setTimeout 0 (bytesOf "Last") 0))] ++ helloRest.take 80 ++
  [.dock 1 (.call lastCall 78 none), .dock 1 (.dock (.store 1)), .dock 1 (.dock (.setReq 1)), .dock 1 (.dock (.commit 1))] ++
  testServe 1 [.str 0 (bytesOf "Hello Ferry!")] ++ [.dock 1 (.onStarted 0)]

set_option synthInstance.maxSize 100000 in
set_option synthInstance.maxHeartbeats 2000000 in
/-- An execution in which one call stores a value and one reads it, and what C150 says of it. -/
example : ∃ E : World.Course helloC lastT sysH sysR [], IsRegister lastO (bytesOf "Print") (bytesOf "Last") ∧
    OnlyAt helloC (bytesOf "ILogger") 0 0 ∧ Behaves E 0 0 lastO ∧ (∀ d, ReadingsDiffer E d) ∧
    (∀ n d c, Calls E n d c → (∀ f ∈ helloC d, f.name ≠ c.slot) → wireOKList c.args = true) ∧
    (∀ t d k res, E.act t = some (.dock d (.chan (.ret k res))) → wireOKList res = true) ∧
    Used E (bytesOf "ILogger") 0 0 31 81 helloPrint [.str 0 (bytesOf "Hello Ferry!")] [] ∧
    ∃ out, GotRemote E 81 102 1 lastCall ⟨out, []⟩ ∧ out = [.str 0 (bytesOf "Hello Ferry!")] := by
  obtain ⟨S, h, hv⟩ := worldWitness (C := helloC) (T := lastT) (H := sysH) (R := sysR) (as := lastRest)
    (f := fun S => (World.quietOn false 2 S, (S.sys.dock 0).n, (S.sys.dock 1).n,
      ((S.sys.dock 1).index 0, (S.sys.dock 1).index 1))) (b := (true, 0, 2, (77, 78))) (by decide +kernel)
  simp only [Prod.mk.injEq] at hv
  obtain ⟨hq, n0, n1, ⟨i0, i1⟩⟩ := hv
  have ht : (lastRest.all fun a => a.tame 2) = true := by decide +kernel
  have hlen : lastRest.length = 103 := by decide
  obtain ⟨E, F, hd, hD, hact, hst, htail'⟩ := course_from (w := false) h ht hq (by
    intro d hd i j hi hj hij
    match d, hd with
    | 0, _ => omega
    | 1, _ =>
      rw [n1] at hi hj
      match i, j, hi, hj with
      | 0, 0, _, _ => rfl
      | 0, 1, _, _ => rw [i0, i1] at hij; exact absurd hij (by decide)
      | 1, 0, _, _ => rw [i0, i1] at hij; exact absurd hij (by decide)
      | 1, 1, _, _ => rfl)
  have htick : ∀ n, lastRest.length ≤ n → ∃ d, E.act n = some (.dock d (.chan .tick)) := fun n hn => (htail' n hn).2
  have hcalls : callsIn lastRest = [(31, 1, helloPrint), (81, 1, lastCall)] := by decide +kernel
  have hrets : retsIn lastRest = [(68, []), (89, [.str 0 (bytesOf "Hello Ferry!")])] := by decide +kernel
  have hw : ∀ n d c, Calls E n d c → (∀ f ∈ helloC d, f.name ≠ c.slot) → wireOKList c.args = true := by
    intro n d c hc _
    have := calls_in hact htick hc
    rw [hcalls] at this
    simp only [List.mem_cons, Prod.mk.injEq, List.not_mem_nil, or_false] at this
    rcases this with ⟨rfl, rfl, rfl⟩ | ⟨rfl, rfl, rfl⟩ <;> decide +kernel
  have hw' : ∀ t d k res, E.act t = some (.dock d (.chan (.ret k res))) → wireOKList res = true := by
    intro t d k res hr
    exact List.all_eq_true.mp (show ((retsIn lastRest).all fun x => wireOKList x.2) = true by decide +kernel) _ (rets_in hact htick hr)
  have look : ∀ (n : Nat) {β : Type} (f : World.State → β) (b : β), n ≤ 103 →
      (∃ S, run (World.State.step helloC lastT sysH sysR []) (World.State.init lastT) (lastRest.take n) = some S ∧ f S = b) →
      f (E.st n) = b := by
    rintro n β f b hn ⟨S', h1, h2⟩
    rw [hst n (by omega)] at h1
    cases h1
    exact h2
  have c1 : Calls E 31 1 helloPrint := ⟨77, none, hact 31 (by omega)⟩
  have c2 : Calls E 81 1 lastCall := ⟨78, none, hact 81 (by omega)⟩
  have g1 : GotRemote E 31 81 1 helloPrint ⟨[], []⟩ := by
    refine ⟨c1, by decide +kernel, by omega, ?_⟩
    rw [look 31 (fun S => (S.sys.dock 1).n) 0 (by omega) (worldWitness (by decide +kernel))]
    exact phase_got (look 81 (fun S => ((S.sys.dock 1).phase 0).result.map fun r => (r.result, r.err)) _ (by omega)
      (worldWitness (by decide +kernel)))
  have g2 : GotRemote E 81 102 1 lastCall ⟨[.str 0 (bytesOf "Hello Ferry!")], []⟩ := by
    refine ⟨c2, by decide +kernel, by omega, ?_⟩
    rw [look 81 (fun S => (S.sys.dock 1).n) 1 (by omega) (worldWitness (by decide +kernel))]
    exact phase_got (look 102 (fun S => ((S.sys.dock 1).phase 1).result.map fun r => (r.result, r.err)) _ (by omega)
      (worldWitness (by decide +kernel)))
  have reg : IsRegister lastO (bytesOf "Print") (bytesOf "Last") := by
    refine ⟨fun args s => ?_, fun args s => ?_, fun meth args s hm => ?_⟩
    · simp only [lastO, if_true]
    · simp only [lastO]; rw [if_neg (by decide +kernel)]
    · simp only [lastO]; rw [if_neg hm]
  have only : OnlyAt helloC (bytesOf "ILogger") 0 0 := by
    refine ⟨⟨[], _, [], rfl, rfl, by simp⟩, fun d' ⟨f, hf, e⟩ => ?_⟩
    unfold helloC at hf
    split at hf
    · assumption
    · split at hf
      · rw [List.mem_singleton.mp hf] at e
        exact absurd e (by decide +kernel)
      · cases hf
  have r1 : E.act 68 = some (.dock 0 (.chan (.ret 0 []))) := hact 68 (by omega)
  have r2 : E.act 89 = some (.dock 0 (.chan (.ret 0 [.str 0 (bytesOf "Hello Ferry!")]))) := hact 89 (by omega)
  have running : ∀ {x : Chan.Handler} {q : Nat}, (match x with | .running i => some i | _ => none) = some q → x = .running q := by
    intro x q hx
    cases x <;> simp at hx
    rw [hx]
  have w1 := look 68 (fun S => (match (S.rest 0).chan.handler 0 with | .running i => some i | _ => none, ((S.rest 0).chan.req 0).meth,
    ((S.rest 0).chan.req 0).args)) (some 0, bytesOf "Print", [.str 0 (bytesOf "Hello Ferry!")]) (by omega) (worldWitness (by decide +kernel))
  have w2 := look 89 (fun S => (match (S.rest 0).chan.handler 0 with | .running i => some i | _ => none, ((S.rest 0).chan.req 1).meth,
    ((S.rest 0).chan.req 1).args)) (some 1, bytesOf "Last", []) (by omega) (worldWitness (by decide +kernel))
  simp only [Prod.mk.injEq] at w1 w2
  obtain ⟨s1, -, x1⟩ := executes_of r1 (running w1.1)
  obtain ⟨s2, -, x2⟩ := executes_of r2 (running w2.1)
  rw [w1.2.1, w1.2.2] at x1
  rw [w2.2.1, w2.2.2] at x2
  have at' : ∀ t res, E.act t = some (.dock 0 (.chan (.ret 0 res))) → t = 68 ∨ t = 89 := by
    intro t res hr
    have := rets_in hact htick hr
    rw [hrets] at this
    simp only [List.mem_cons, Prod.mk.injEq, List.not_mem_nil, or_false] at this
    rcases this with h | h
    · exact Or.inl h.1
    · exact Or.inr h.1
  have grow : ∀ t u, t ≤ u → (u ≤ 68 ∨ 69 ≤ t ∧ u ≤ 89) → returnsOf E 0 0 u = returnsOf E 0 0 t := by
    intro t u htu hu
    obtain ⟨more, e1, e2⟩ := returns_grow (E := E) 0 0 htu
    cases more with
    | nil => rw [e1, List.append_nil]
    | cons x l =>
      obtain ⟨s, v, res, k1, k2, k3⟩ := e2 x List.mem_cons_self
      have := at' v res k3.2.2.1
      omega
  have e0 : returnsOf E 0 0 68 = [] := grow 0 68 (by omega) (by omega)
  have e1 := returns_succ x1
  rw [e0] at e1
  have e2 : returnsOf E 0 0 89 = _ := (grow 69 89 (by omega) (by omega)).trans e1
  have imp : Behaves E 0 0 lastO := by
    intro s t meth args res hx
    rcases at' t res hx.2.2.1 with rfl | rfl
    · obtain rfl := executes_start hx x1
      obtain ⟨-, rfl⟩ := executes_once hx x1
      obtain ⟨q, b, _, h3, _⟩ := executes_begin hx
      obtain ⟨q', b', _, h3', _⟩ := executes_begin x1
      obtain ⟨-, rfl⟩ := begins_same b b'
      rw [← h3, h3', reg.stores]
    · obtain rfl := executes_start hx x2
      obtain ⟨-, rfl⟩ := executes_once hx x2
      obtain ⟨q, b, _, h3, _⟩ := executes_begin hx
      obtain ⟨q', b', _, h3', _⟩ := executes_begin x2
      obtain ⟨-, rfl⟩ := begins_same b b'
      rw [← h3, h3', reg.reads, e2]
      rfl
  have used : Used E (bytesOf "ILogger") 0 0 31 81 helloPrint [.str 0 (bytesOf "Hello Ferry!")] [] :=
    ⟨rfl, by decide +kernel, Or.inl ⟨1, _, g1, rfl, rfl, by decide +kernel⟩⟩
  refine ⟨E, reg, only, imp, hd, hw, hw', used, _, g2, ?_⟩
  refine (C150_register reg only imp hd hw hw' used rfl g2 ⟨rfl, by decide +kernel⟩ rfl rfl (by omega) ?_).trans (by decide +kernel)
  intro n d0 c hn hc _ hm
  have := calls_in hact htick hc
  rw [hcalls] at this
  simp only [List.mem_cons, Prod.mk.injEq, List.not_mem_nil, or_false] at this
  rcases this with ⟨rfl, rfl, rfl⟩ | ⟨rfl, rfl, rfl⟩
  · exact absurd rfl hn
  · exact absurd hm (by decide +kernel)

end Verif.Props
