import Verif.Props.Once2

/-!
# C149: a call takes effect between its being made and its result
-/

namespace Verif.Props

open Verif Verif.Codec Verif.Proto Verif.System
open Verif.Dock (Carried LastNamed)

variable {C : Nat → List Carried} {T : Nat → Nat → Chan.Target} {H R : Nat → Str} {black : List Int}
  {E : World.Course C T H R black}

/-- In step `s` the routine of feature `k` of dock `d` calls a method, which in step `t` returns `res`; in between the routine
calls no method and none returns to it.  /repo/chancall/callee.go:26-61, /repo/chancall/meta.go:44-62. -/
def Executes (E : World.Course C T H R black) (d k : Nat) (meth : Str) (args : List Val) (s t : Nat) (res : List Val) : Prop :=
  StartsMethod E s d k meth args ∧ s < t ∧ E.act t = some (.dock d (.chan (.ret k res))) ∧
    ∀ u, s < u → u < t → E.act u ≠ some (.dock d (.chan (.start k))) ∧ ∀ res', E.act u ≠ some (.dock d (.chan (.ret k res')))

/-- The call made in step `n` by dock `d`, of a feature of another dock, has by step `m` got the result `r`,
/repo/rpc.go:37-40 and 54-57. -/
def GotRemote (E : World.Course C T H R black) (n m d : Nat) (c : Dock.Call) (r : Dock.Ret) : Prop :=
  Calls E n d c ∧ (∀ f ∈ C d, f.name ≠ c.slot) ∧ n < m ∧
    (((E.st m).sys.dock d).phase ((E.st n).sys.dock d).n = .received r ∨
      ((E.st m).sys.dock d).phase ((E.st n).sys.dock d).n = .returned r)

/-- The call made in step `n` by dock `d`, of a feature of its own, has by step `m` got the answer `a`,
/repo/chancall/caller.go:27-28 and 42-43. -/
def GotLocal (E : World.Course C T H R black) (n m d : Nat) (c : Dock.Call) (a : Chan.Ans) : Prop :=
  Calls E n d c ∧ (∃ f ∈ C d, f.name = c.slot) ∧ n < m ∧ ∃ j, ((E.st m).rest d).chan.result ((E.st n).rest d).chan.n = some (j, a)

/-! ## Steps -/

/-- How a routine comes to run a method. -/
theorem chan_running {T : Nat → Chan.Target} {s t : Chan.State} {a : Chan.Act} (h : s.step T a = some t) {k q : Nat}
    (hq : t.handler k = .running q) : s.handler k = .running q ∧ a ≠ .start k ∧ (∀ res, a ≠ .ret k res) ∨
      a = .start k ∧ ∃ rest, s.queue k = q :: rest := by
  unfold Chan.State.step at h
  split at h
  · cases h
  cases a with
  | start c =>
    simp only at h
    split at h
    case h_2 => cases h
    rename_i i rest hh hl
    by_cases e : k = c
    · subst e
      split at h <;> cases h <;> simp only [upd_same] at hq
      · cases hq
        exact Or.inr ⟨rfl, rest, hl⟩
      · cases hq
      · rw [hh] at hq; cases hq
    · refine Or.inl ⟨?_, by simpa using fun h => e h.symm, by simp⟩
      split at h <;> cases h <;> simpa only [upd_other _ _ e] using hq
  | ret c res =>
    simp only at h
    split at h
    case h_2 => cases h
    split at h
    case isFalse => cases h
    cases h
    by_cases e : k = c
    · subst e
      simp only [upd_same] at hq
      cases hq
    · simp only [upd_other _ _ e] at hq
      exact Or.inl ⟨hq, by simp, fun res' h => e (by cases h; rfl)⟩
  | settleH c =>
    refine Or.inl ⟨?_, by simp, by simp⟩
    simp only at h
    repeat' split at h
    all_goals first
      | (cases h; done)
      | (cases h
         by_cases e : k = c
         · subst e
           simp only [upd_same] at hq
           cases hq
         · simpa only [upd_other _ _ e] using hq)
  | deliverH c =>
    refine Or.inl ⟨?_, by simp, by simp⟩
    simp only at h
    repeat' split at h
    all_goals first
      | (cases h; done)
      | (cases h
         by_cases e : k = c
         · subst e
           simp only [upd_same] at hq
           cases hq
         · simpa only [upd_other _ _ e] using hq)
  | _ =>
    refine Or.inl ⟨?_, by simp, by simp⟩
    simp only at h
    repeat' split at h
    all_goals first
      | (cases h; done)
      | (cases h; exact hq)

/-- How a request comes to have a return value. -/
theorem chan_ret {T : Nat → Chan.Target} {s t : Chan.State} {a : Chan.Act} (h : s.step T a = some t) {q : Nat}
    {v : Option (List Val)} (hq : t.ret q = some v) : s.ret q = some v ∨
      (∃ k res, a = .ret k res ∧ s.handler k = .running q ∧ v = some res) ∨
      ∃ k rest, a = .start k ∧ s.queue k = q :: rest ∧ v = none ∧ (T k).invoke (s.req q).meth (s.req q).args = .unknown := by
  unfold Chan.State.step at h
  split at h
  · cases h
  cases a with
  | start c =>
    simp only at h
    split at h
    case h_2 => cases h
    rename_i i rest hh hl
    split at h
    · cases h; exact Or.inl hq
    · rename_i hi
      cases h
      by_cases e : q = i
      · subst e
        simp only [upd_same, Option.some.injEq] at hq
        exact Or.inr (Or.inr ⟨c, rest, rfl, hl, hq.symm, hi⟩)
      · simp only [upd_other _ _ e] at hq
        exact Or.inl hq
    · cases h; exact Or.inl hq
  | ret c res =>
    simp only at h
    split at h
    case h_2 => cases h
    rename_i i hh
    split at h
    case isFalse => cases h
    cases h
    by_cases e : q = i
    · subst e
      simp only [upd_same, Option.some.injEq] at hq
      exact Or.inr (Or.inl ⟨c, res, rfl, hh, hq.symm⟩)
    · simp only [upd_other _ _ e] at hq
      exact Or.inl hq
  | _ =>
    simp only at h
    repeat' split at h
    all_goals first
      | (cases h; done)
      | (cases h; exact Or.inl hq)

/-- The actions of callees are those of the system. -/
theorem chanAct_untied {S : World.State} {d : Nat} {a : World.Act} {x : Chan.Act} (h : S.chanAct C d a = some x)
    (hx : ∀ k c m as p, x ≠ .call k c m as p) : a = .dock d (.chan x) := by
  unfold World.State.chanAct at h
  repeat' split at h
  all_goals first
    | (cases h; done)
    | (rename_i e; subst e; cases h; rfl)
    | (obtain ⟨_, _, h⟩ := Option.map_eq_some_iff.mp h
       exact absurd h.symm (hx _ _ _ _ _))

/-! ## Courses -/

/-- A method that runs was started, and since then its routine has run it. -/
theorem running_since (t d k q : Nat) (h : ((E.st t).rest d).chan.handler k = .running q) : ∃ s, s < t ∧ Begins E s d q ∧
    E.act s = some (.dock d (.chan (.start k))) ∧
    ∀ u, s < u → u < t → E.act u ≠ some (.dock d (.chan (.start k))) ∧ ∀ res, E.act u ≠ some (.dock d (.chan (.ret k res))) := by
  induction t with
  | zero => rw [E.init] at h; cases h
  | succ t ih =>
    have old : ((E.st t).rest d).chan.handler k = .running q →
        (E.act t ≠ some (.dock d (.chan (.start k))) ∧ ∀ res, E.act t ≠ some (.dock d (.chan (.ret k res)))) → ∃ s, s < t + 1 ∧ Begins E s d q ∧
        E.act s = some (.dock d (.chan (.start k))) ∧ ∀ u, s < u → u < t + 1 → E.act u ≠ some (.dock d (.chan (.start k))) ∧
          ∀ res, E.act u ≠ some (.dock d (.chan (.ret k res))) := fun h' ht => by
      obtain ⟨s, h1, h2, h3, h4⟩ := ih h'
      refine ⟨s, by omega, h2, h3, fun u hu hu' => ?_⟩
      by_cases e : u = t
      · subst e; exact ht
      · exact h4 u hu (by omega)
    cases ha : E.act t with
    | none =>
      rw [E.none_step ha] at h
      exact old h ⟨by rw [ha]; simp, by rw [ha]; simp⟩
    | some a =>
      have hp := World.chan_part (E.some_step ha) d
      split at hp
      · rename_i x hx
        rcases chan_running hp h with ⟨h1, h2, h3⟩ | ⟨rfl, rest, h1⟩
        · refine old h1 ⟨fun e => ?_, fun res e => ?_⟩
          · rw [ha] at e
            cases e
            simp only [World.State.chanAct, if_pos, Option.some.injEq] at hx
            exact h2 hx.symm
          · rw [ha] at e
            cases e
            simp only [World.State.chanAct, if_pos, Option.some.injEq] at hx
            exact h3 res hx.symm
        · have e := chanAct_untied hx (by simp)
          subst e
          exact ⟨t, Nat.lt_succ_self _, ⟨k, rest, ha, h1⟩, ha, fun u hu hu' => by omega⟩
      · rename_i hx
        rw [hp] at h
        refine old h ⟨fun e => ?_, fun res e => ?_⟩
        all_goals
          rw [ha] at e
          cases e
          simp [World.State.chanAct] at hx

/-- What a method returned it returned in some step. -/
theorem ret_made (m d q : Nat) (v : Option (List Val)) (h : ((E.st m).rest d).chan.ret q = some v) :
    (∃ t k res, t < m ∧ E.act t = some (.dock d (.chan (.ret k res))) ∧ ((E.st t).rest d).chan.handler k = .running q ∧ v = some res) ∨
    ∃ t k, t < m ∧ Begins E t d q ∧ E.act t = some (.dock d (.chan (.start k))) ∧ v = none ∧
      (T d k).invoke (((E.st t).rest d).chan.req q).meth (((E.st t).rest d).chan.req q).args = .unknown := by
  induction m with
  | zero => rw [E.init] at h; cases h
  | succ m ih =>
    have old : ((E.st m).rest d).chan.ret q = some v →
        (∃ t k res, t < m + 1 ∧ E.act t = some (.dock d (.chan (.ret k res))) ∧ ((E.st t).rest d).chan.handler k = .running q ∧ v = some res) ∨
        ∃ t k, t < m + 1 ∧ Begins E t d q ∧ E.act t = some (.dock d (.chan (.start k))) ∧ v = none ∧
          (T d k).invoke (((E.st t).rest d).chan.req q).meth (((E.st t).rest d).chan.req q).args = .unknown := fun h => by
      rcases ih h with ⟨t, k, res, h1, h2⟩ | ⟨t, k, h1, h2⟩
      · exact Or.inl ⟨t, k, res, by omega, h2⟩
      · exact Or.inr ⟨t, k, by omega, h2⟩
    cases ha : E.act m with
    | none => rw [E.none_step ha] at h; exact old h
    | some a =>
      have hp := World.chan_part (E.some_step ha) d
      split at hp
      · rename_i x hx
        rcases chan_ret hp h with h1 | ⟨k, res, rfl, h1, h2⟩ | ⟨k, rest, rfl, h1, h2, h3⟩
        · exact old h1
        · have e := chanAct_untied hx (by simp)
          subst e
          exact Or.inl ⟨m, k, res, Nat.lt_succ_self _, ha, h1, h2⟩
        · have e := chanAct_untied hx (by simp)
          subst e
          exact Or.inr ⟨m, k, Nat.lt_succ_self _, ⟨k, rest, ha, h1⟩, ha, h2, h3⟩
      · rw [hp] at h; exact old h

/-- What request `q` of dock `d`, started in step `s` by routine `k`, has come to by step `m`. -/
theorem ret_within {m s d q : Nat} {v : Option (List Val)} (hs : Begins E s d q) (h : ((E.st m).rest d).chan.ret q = some v) :
    (∃ t res, t < m ∧ Executes E d (((E.st s).rest d).chan.req q).callee (((E.st s).rest d).chan.req q).meth
        (((E.st s).rest d).chan.req q).args s t res ∧ v = some res) ∨
      v = none ∧ (T d (((E.st s).rest d).chan.req q).callee).invoke (((E.st s).rest d).chan.req q).meth
        (((E.st s).rest d).chan.req q).args = .unknown := by
  obtain ⟨-, b1, ⟨rest, b2⟩, -⟩ := begins_new hs
  rcases ret_made m d q v h with ⟨t, k, res, h1, h2, h3, h4⟩ | ⟨t, k, h1, h2, h3, h4, h5⟩
  · obtain ⟨s', g1, g2, g3, g4⟩ := running_since t d k q h3
    obtain rfl := begins_once hs g2
    rw [b1] at g3
    cases g3
    exact Or.inl ⟨t, res, h1, ⟨⟨b1, q, rest, b2, rfl, rfl⟩, g1, h2, g4⟩, h4⟩
  · obtain rfl := begins_once hs h2
    rw [b1] at h3
    cases h3
    exact Or.inr ⟨h4, h5⟩

theorem started_of_ret {m d q : Nat} {v : Option (List Val)} (h : ((E.st m).rest d).chan.ret q = some v) :
    ∃ s, s < m ∧ Begins E s d q := by
  rcases ret_made m d q v h with ⟨t, k, res, h1, h2, h3, h4⟩ | ⟨t, k, h1, h2, h3, h4, h5⟩
  · obtain ⟨s', g1, g2, g3, g4⟩ := running_since t d k q h3
    exact ⟨s', by omega, g2⟩
  · exact ⟨t, h1, h2⟩

theorem remote_started (hd : ∀ d, ReadingsDiffer E d)
    (hw : ∀ n d c, Calls E n d c → (∀ f ∈ C d, f.name ≠ c.slot) → wireOKList c.args = true)
    (hw' : ∀ t d k res, E.act t = some (.dock d (.chan (.ret k res))) → wireOKList res = true)
    {n m d : Nat} {c : Dock.Call} {r : Dock.Ret} (h : GotRemote E n m d c r) :
    ∃ s, StartedFor E n s ∧ n < s ∧ s < m ∧ ∃ d' k, LastAt (C d') c.slot k ∧ (∃ f, (C d')[k]? = some f ∧ f.discoverable = true) ∧
      StartsMethod E s d' k c.meth (canonList c.args) ∧
      (r.err = [] ∧ ((∃ t res, t < m ∧ Executes E d' k c.meth (canonList c.args) s t res ∧
          r.result = if c.withResult then canonList res else []) ∨
          (T d' k).invoke c.meth (canonList c.args) = .unknown ∧ r.result = []) ∨
        r.err = 91#8 :: (c.meth ++ Whole.cTimedOut) ∧ r.result = []) := by
  obtain ⟨hc, hrem, hnm, hr⟩ := h
  have hlt := call_numbered hnm hc hrem
  have hcall : ((E.st m).sys.dock d).call ((E.st n).sys.dock d).n = c := by
    obtain ⟨n', c', h1, h2, h3, h4, h5⟩ := call_made m d _ hlt
    obtain rfl := called_once hc h2 hrem h3 h4.symm
    obtain ⟨-, rfl⟩ := calls_same hc h2
    exact h5
  obtain ⟨as, hrun⟩ := E.reach m
  obtain ⟨d', q, k, h1, h2, h3, o1, o2, o3, o4, o5, o6⟩ := call_obtained hrun hlt hr (fun j hj e => hd d m _ _ hj hlt e)
    (by rw [hcall]; exact hw n d c hc hrem) (by
      intro d' q v hv _ _ _ _
      rcases ret_made m d' q _ hv with ⟨t, k, res, _, g1, _, g2⟩ | ⟨_, _, _, _, _, g, _⟩
      · cases g2; exact hw' t d' k _ g1
      · cases g)
  rw [hcall] at o2 o4 o5 o6
  obtain ⟨s, hsm, hbeg⟩ : ∃ s, s < m ∧ Begins E s d' q := by
    rcases o6 with ⟨-, v, hv, -⟩ | ⟨-, -, t0, b, t, hst, -⟩
    · exact started_of_ret hv
    · exact started_begun m d' q (by rw [hst]; simp)
  have hreq := (request_stays (E := E) (Nat.le_of_lt hsm) (begins_new hbeg).1).2
  rw [hreq] at o2 o3 o4 o5
  obtain ⟨-, b1, ⟨rest, b2⟩, -⟩ := begins_new hbeg
  obtain ⟨n', hfor, hn', -⟩ := for_some hbeg
  have hfor' := hfor
  have hnn : n' = n := by
    obtain ⟨A, TI, -, W⟩ := course_facts (E := E) m d'
    obtain ⟨d0, c0, d2, q2, hc', hb', hh⟩ := hfor
    obtain ⟨rfl, rfl⟩ := begins_same hbeg hb'
    rcases hh with ⟨_, rfl, x1, x2⟩ | ⟨hr', k', t1, t2, t3, t4, t5⟩
    · obtain ⟨n1, _, a1, a2, a3, _⟩ := served_made _ _ _ _ h1
      obtain rfl := made_once (E := E) x1 x2 a2 a3
      exact (invoke_call hc' a1).elim
    · have hmm : s ≤ m := by omega
      obtain rfl := W.inj k k' q h1 (course_served hmm t1)
      obtain ⟨y1, y2, y3, -⟩ := course_exec hmm t2
      have t3' := course_owner hmm t3
      rw [← y2, h2] at t3'
      cases t3'
      obtain ⟨z1, z2⟩ := course_index hmm (call_numbered t5 hc' hr')
      have e := hd d m _ _ z1 hlt (by rw [z2, ← t4, ← y3, h3])
      exact called_once hc' hc hr' hrem e
  subst hnn
  refine ⟨s, hfor', hn', hsm, d', _, o2, o3, ⟨b1, q, rest, b2, o4, o5⟩, ?_⟩
  rcases o6 with ⟨he, v, hv, hres⟩ | ⟨he, hres, -⟩
  · refine Or.inl ⟨he, ?_⟩
    rw [← o4, ← o5]
    rcases ret_within hbeg hv with ⟨t, res, g1, g2, rfl⟩ | ⟨rfl, g⟩
    · exact Or.inl ⟨t, res, g1, g2, hres⟩
    · refine Or.inr ⟨g, ?_⟩
      rw [hres]
      simp [canonList]
  · exact Or.inr ⟨he, hres⟩

theorem local_started {n m d : Nat} {c : Dock.Call} {a : Chan.Ans} (h : GotLocal E n m d c a) :
    ∃ s, StartedFor E n s ∧ n < s ∧ s < m ∧ ∃ k, LastAt (C d) c.slot k ∧ StartsMethod E s d k c.meth c.args ∧
      ((∃ t res, t < m ∧ Executes E d k c.meth c.args s t res ∧ a = .ok (some res)) ∨
        (T d k).invoke c.meth c.args = .unknown ∧ a = .ok none ∨ a = .timeout) := by
  obtain ⟨hc, hl, hnm, j, hr⟩ := h
  have hc0 := hc
  obtain ⟨clock, p, hact⟩ := hc0
  obtain ⟨k, hk⟩ : ∃ k, Whole.calleeOf (C d) c.slot = some k := by
    refine Option.ne_none_iff_exists'.mp fun h => ?_
    obtain ⟨f, h1, h2⟩ := hl
    exact (Dock.slotsOf_none _ _).mp (Whole.calleeOf_none.mp h) f h1 h2
  have hp := World.chan_part (E.some_step hact) d
  simp only [World.State.chanAct, if_pos, hk, Option.map_some] at hp
  obtain ⟨e1, e2, -⟩ := Whole.chan_call hp
  generalize hq : ((E.st n).rest d).chan.n = q at hr e1 e2
  obtain ⟨A, TI, -, W⟩ := course_facts (E := E) m d
  have hj := A.own.own q j a hr
  subst hj
  rename' j => q
  obtain ⟨t, ht⟩ := A.recd.result _ _ _ hr
  obtain ⟨s, hsm, hbeg⟩ : ∃ s, s < m ∧ Begins E s d q := by
    cases a with
    | ok v => exact started_of_ret (A.recd.retOK _ _ _ ht)
    | timeout =>
      obtain ⟨t0, b, k1, -⟩ := A.recd.late _ _ ht
      exact started_begun m d q (by
        have k1 : ((E.st m).rest d).chan.startedAt q = some (t0, b) := k1
        rw [k1]; simp)
  obtain ⟨hlt, b1, ⟨rest, b2⟩, -⟩ := begins_new hbeg
  have hns : n < s := Nat.lt_of_not_le fun hle => by
    have := chan_mono (E := E) d hle
    omega
  have hreq : ((E.st s).rest d).chan.req q = ((E.st (n + 1)).rest d).chan.req q :=
    (request_stays (E := E) (show n + 1 ≤ s by omega) (by omega)).2
  rw [e2, upd_same] at hreq
  have f1 : (((E.st s).rest d).chan.req q).callee = k := by rw [hreq]
  have f2 : (((E.st s).rest d).chan.req q).meth = c.meth := by rw [hreq]
  have f3 : (((E.st s).rest d).chan.req q).args = c.args := by rw [hreq]
  refine ⟨s, ⟨d, c, d, q, hc, hbeg, Or.inl ⟨hl, rfl, hq, e1⟩⟩, hns, hsm, k, calleeOf_last hk,
    ⟨by rw [← f1]; exact b1, q, rest, by rw [← f1]; exact b2, f2, f3⟩, ?_⟩
  cases a with
  | ok v =>
    have hv : ((E.st m).rest d).chan.ret q = some v := A.recd.retOK _ _ _ ht
    have := ret_within hbeg hv
    rw [f1, f2, f3] at this
    rcases this with ⟨t, res, g1, g2, rfl⟩ | ⟨rfl, g⟩
    · exact Or.inl ⟨t, res, g1, g2, rfl⟩
    · exact Or.inr (Or.inl ⟨g, rfl⟩)
  | timeout => exact Or.inr (Or.inr rfl)

/-- The call made in step `n` has its result by step `m`. -/
def Got (E : World.Course C T H R black) (n m : Nat) : Prop :=
  (∃ d c r, GotRemote E n m d c r) ∨ ∃ d c a, GotLocal E n m d c a

/-- **C149.**  In every execution of a system with callees, fair or not, in which the clocks give no reading twice and arguments and
results of methods survive the wire, one step can be assigned to every call that has got its result, after the call was made and
before it got the result, different ones to different calls, in which the method is started that the call is for, with its
arguments.  If the call did not time out, the method returned before the call got its result, and that is the result.  So a call
made when another one had its result takes effect after that one. -/
theorem C149_within (hd : ∀ d, ReadingsDiffer E d)
    (hw : ∀ n d c, Calls E n d c → (∀ f ∈ C d, f.name ≠ c.slot) → wireOKList c.args = true)
    (hw' : ∀ t d k res, E.act t = some (.dock d (.chan (.ret k res))) → wireOKList res = true) :
    ∃ f : Nat → Nat,
      (∀ n m n' m', Got E n m → Got E n' m' → f n = f n' → n = n') ∧
      (∀ n m n' m', Got E n m → Got E n' m' → m ≤ n' → f n < f n') ∧
      (∀ n m d c r, GotRemote E n m d c r → n < f n ∧ f n < m ∧
        ∃ d' k, LastAt (C d') c.slot k ∧ (∃ f, (C d')[k]? = some f ∧ f.discoverable = true) ∧
          StartsMethod E (f n) d' k c.meth (canonList c.args) ∧
          (r.err = [] ∧ ((∃ t res, t < m ∧ Executes E d' k c.meth (canonList c.args) (f n) t res ∧
              r.result = if c.withResult then canonList res else []) ∨
              (T d' k).invoke c.meth (canonList c.args) = .unknown ∧ r.result = []) ∨
            r.err = 91#8 :: (c.meth ++ Whole.cTimedOut) ∧ r.result = [])) ∧
      ∀ n m d c a, GotLocal E n m d c a → n < f n ∧ f n < m ∧
        ∃ k, LastAt (C d) c.slot k ∧ StartsMethod E (f n) d k c.meth c.args ∧
          ((∃ t res, t < m ∧ Executes E d k c.meth c.args (f n) t res ∧ a = .ok (some res)) ∨
            (T d k).invoke c.meth c.args = .unknown ∧ a = .ok none ∨ a = .timeout) := by
  classical
  have key : ∀ n, ∃ s, (∃ s, StartedFor E n s) → StartedFor E n s := by
    intro n
    by_cases h : ∃ s, StartedFor E n s
    · obtain ⟨s, h⟩ := h
      exact ⟨s, fun _ => h⟩
    · exact ⟨0, fun h' => absurd h' h⟩
  have is : ∀ n s, StartedFor E n s → (key n).choose = s := fun n s h => for_one hd ((key n).choose_spec ⟨s, h⟩) h
  have got : ∀ n m, Got E n m → StartedFor E n (key n).choose ∧ n < (key n).choose ∧ (key n).choose < m := by
    rintro n m (⟨d, c, r, h⟩ | ⟨d, c, a, h⟩)
    · obtain ⟨s, h1, h2, h3, -⟩ := remote_started hd hw hw' h
      rw [is n s h1]
      exact ⟨h1, h2, h3⟩
    · obtain ⟨s, h1, h2, h3, -⟩ := local_started h
      rw [is n s h1]
      exact ⟨h1, h2, h3⟩
  refine ⟨fun n => (key n).choose, fun n m n' m' h h' e => ?_, fun n m n' m' h h' e => ?_, fun n m d c r h => ?_,
    fun n m d c a h => ?_⟩
  · have h1 := (got n m h).1
    have h2 := (got n' m' h').1
    have e : (key n).choose = (key n').choose := e
    rw [← e] at h2
    exact one_for hd h1 h2
  · have h1 := (got n m h).2.2
    have h2 := (got n' m' h').2.1
    show (key n).choose < (key n').choose
    omega
  · obtain ⟨s, h1, h2⟩ := remote_started hd hw hw' h
    simp only [is n s h1]
    exact h2
  · obtain ⟨s, h1, h2⟩ := local_started h
    simp only [is n s h1]
    exact h2

/-! ## Executions -/

/-- What methods return among actions, with the steps. -/
def retsIn (as : List World.Act) : List (Nat × List Val) :=
  as.zipIdx.filterMap fun x => match x.1 with
    | .dock _ (.chan (.ret _ res)) => some (x.2, res)
    | _ => none

theorem rets_in {as : List World.Act} (hact : ∀ n, n < as.length → E.act n = as[n]?)
    (htick : ∀ n, as.length ≤ n → ∃ d, E.act n = some (.dock d (.chan .tick))) {n d k : Nat} {res : List Val}
    (h : E.act n = some (.dock d (.chan (.ret k res)))) : (n, res) ∈ retsIn as :=
  List.mem_filterMap.mpr ⟨_, course_zip hact htick h (by simp), rfl⟩

theorem phase_got {p : Dock.CallPhase} {res : List Val} {err : Str} (h : (p.result.map fun r => (r.result, r.err)) = some (res, err)) :
    p = .received ⟨res, err⟩ ∨ p = .returned ⟨res, err⟩ := by
  cases p <;> simp [Dock.CallPhase.result] at h <;> obtain ⟨rfl, rfl⟩ := h
  · exact Or.inl rfl
  · exact Or.inr rfl

theorem result_got {x : Option (Nat × Chan.Ans)} {v : Option (List Val)}
    (h : (x.map fun y => match y.2 with | .ok v => some v | .timeout => none) = some (some v)) : ∃ j, x = some (j, .ok v) := by
  obtain _ | ⟨j, _ | _⟩ := x <;> simp at h
  exact ⟨j, by rw [h]⟩

set_option synthInstance.maxSize 100000 in
set_option synthInstance.maxHeartbeats 2000000 in
/-- An execution of the example application, with two calls of another dock and one of the own that get their results, and what C149
says of it. -/
example : ∃ E : World.Course exampleC testT sysH sysR [], (∀ d, ReadingsDiffer E d) ∧
    (∀ n d c, Calls E n d c → (∀ f ∈ exampleC d, f.name ≠ c.slot) → wireOKList c.args = true) ∧
    (∀ t d k res, E.act t = some (.dock d (.chan (.ret k res))) → wireOKList res = true) ∧
    GotRemote E 34 87 1 testPrint ⟨[], []⟩ ∧ GotRemote E 87 110 1 exampleCall ⟨[.f64 0 0x4008000000000000], []⟩ ∧
    GotLocal E 110 120 1 testStart (.ok (some [])) ∧
    ∃ f : Nat → Nat, 34 < f 34 ∧ f 34 < f 87 ∧ f 87 < f 110 ∧ f 110 < 120 := by
  obtain ⟨S, h, hv⟩ := worldWitness (C := exampleC) (T := testT) (H := sysH) (R := sysR) (as := testRest)
    (f := fun S => (World.quietOn false 2 S, (S.sys.dock 0).n, (S.sys.dock 1).n,
      ((S.sys.dock 1).index 0, (S.sys.dock 1).index 1))) (b := (true, 0, 2, (77, 78))) (by decide +kernel)
  simp only [Prod.mk.injEq] at hv
  obtain ⟨hq, n0, n1, ⟨i0, i1⟩⟩ := hv
  have ht : (testRest.all fun a => a.tame 2) = true := by decide +kernel
  have hlen : testRest.length = 120 := by decide
  obtain ⟨E, F, hd, hD, hact, hst, htail'⟩ := course_from (w := false) h ht hq (by
    intro d hd i j hi hj hij
    match d, hd with
    | 0, _ => omega
    | 1, _ =>
      rw [n1] at hi hj
      match i, j, hi, hj with
      | 0, 0, _, _ => rfl
      | 0, 1, _, _ => rw [i0, i1] at hij; exact absurd hij (by decide)
      | 1, 0, _, _ => rw [i0, i1] at hij; exact absurd hij (by decide)
      | 1, 1, _, _ => rfl)
  have htick : ∀ n, testRest.length ≤ n → ∃ d, E.act n = some (.dock d (.chan .tick)) := fun n hn => (htail' n hn).2
  have hcalls : callsIn testRest = [(34, 1, testPrint), (87, 1, exampleCall), (110, 1, testStart)] := by decide +kernel
  have hw : ∀ n d c, Calls E n d c → (∀ f ∈ exampleC d, f.name ≠ c.slot) → wireOKList c.args = true := by
    intro n d c hc _
    have := calls_in hact htick hc
    rw [hcalls] at this
    simp only [List.mem_cons, Prod.mk.injEq, List.not_mem_nil, or_false] at this
    rcases this with ⟨rfl, rfl, rfl⟩ | ⟨rfl, rfl, rfl⟩ | ⟨rfl, rfl, rfl⟩ <;> decide +kernel
  have hw' : ∀ t d k res, E.act t = some (.dock d (.chan (.ret k res))) → wireOKList res = true := by
    intro t d k res hr
    exact List.all_eq_true.mp (show ((retsIn testRest).all fun x => wireOKList x.2) = true by decide +kernel) _ (rets_in hact htick hr)
  have look : ∀ (n : Nat) {β : Type} (f : World.State → β) (b : β), n ≤ 120 →
      (∃ S, run (World.State.step exampleC testT sysH sysR []) (World.State.init testT) (testRest.take n) = some S ∧ f S = b) →
      f (E.st n) = b := by
    rintro n β f b hn ⟨S', h1, h2⟩
    rw [hst n (by omega)] at h1
    cases h1
    exact h2
  have c1 : Calls E 34 1 testPrint := ⟨77, none, hact 34 (by omega)⟩
  have c2 : Calls E 87 1 exampleCall := ⟨78, none, hact 87 (by omega)⟩
  have c3 : Calls E 110 1 testStart := ⟨79, none, hact 110 (by omega)⟩
  have g1 : GotRemote E 34 87 1 testPrint ⟨[], []⟩ := by
    refine ⟨c1, by decide +kernel, by omega, ?_⟩
    rw [look 34 (fun S => (S.sys.dock 1).n) 0 (by omega) (worldWitness (by decide +kernel))]
    exact phase_got (look 87 (fun S => ((S.sys.dock 1).phase 0).result.map fun r => (r.result, r.err)) _ (by omega)
      (worldWitness (by decide +kernel)))
  have g2 : GotRemote E 87 110 1 exampleCall ⟨[.f64 0 0x4008000000000000], []⟩ := by
    refine ⟨c2, by decide +kernel, by omega, ?_⟩
    rw [look 87 (fun S => (S.sys.dock 1).n) 1 (by omega) (worldWitness (by decide +kernel))]
    exact phase_got (look 110 (fun S => ((S.sys.dock 1).phase 1).result.map fun r => (r.result, r.err)) _ (by omega)
      (worldWitness (by decide +kernel)))
  have g3 : GotLocal E 110 120 1 testStart (.ok (some [])) := by
    refine ⟨c3, by decide +kernel, by omega, ?_⟩
    rw [look 110 (fun S => (S.rest 1).chan.n) 0 (by omega) (worldWitness (by decide +kernel))]
    exact result_got (look 120 (fun S => ((S.rest 1).chan.result 0).map fun y => match y.2 with | .ok v => some v | .timeout => none) _
      (by omega) (worldWitness (by decide +kernel)))
  obtain ⟨f, -, f2, f3, f4⟩ := C149_within hd hw hw'
  exact ⟨E, hd, hw, hw', g1, g2, g3, f, (f3 _ _ _ _ _ g1).1, f2 34 87 87 110 (Or.inl ⟨_, _, _, g1⟩) (Or.inl ⟨_, _, _, g2⟩) (by omega),
    f2 87 110 110 120 (Or.inl ⟨_, _, _, g2⟩) (Or.inr ⟨_, _, _, g3⟩) (by omega), (f4 _ _ _ _ _ g3).2.1⟩

/-- The program of the README, where `Print` takes longer than its timeout. -/
def helloLate : List World.Act := helloRest.take 63 ++
  [.sys (.deliver 5), .dock 0 (.invoke 0), .dock 0 (.chan (.push 0)), .dock 0 (.chan (.start 0)), .dock 0 (.chan (.wake 0)),
   .dock 0 (.chan (.settleT 0)), .dock 0 (.chan (.deliverT 0)), .dock 0 (.chan (.receive 0)), .dock 0 (.finish 0),
   .dock 0 (.respond 0), .sys (.deliver 4), .dock 1 (.dock (.callback 0)), .dock 1 (.dock (.receive 0)), .dock 1 (.returns 0),
   .dock 1 (.dock (.delete 0)), .dock 1 (.onStarted 0), .dock 0 (.chan (.ret 0 [])), .dock 0 (.chan (.settleH 0))]

set_option synthInstance.maxSize 100000 in
set_option synthInstance.maxHeartbeats 2000000 in
/-- **C149**, why calls that time out are excepted: a method may return after its call.  In this execution of the program of the
README the call has returned in step 77, because of the timeout, and `Print` returns in step 79. -/
theorem C149_late_return : ∃ E : World.Course helloC helloT sysH sysR [], World.Fair E ∧ BodiesReturn E ∧
    (∀ d, ReadingsDiffer E d) ∧ GotRemote E 30 77 1 helloPrint ⟨[], 91#8 :: (bytesOf "Print" ++ Whole.cTimedOut)⟩ ∧
    ∃ s, s < 77 ∧ Executes E 0 0 (bytesOf "Print") [.str 0 (bytesOf "Hello Ferry!")] s 79 [] := by
  obtain ⟨S, h, hv⟩ := worldWitness (C := helloC) (T := helloT) (H := sysH) (R := sysR) (as := helloLate)
    (f := fun S => (World.quietOn false 2 S, (S.sys.dock 0).n, (S.sys.dock 1).n)) (b := (true, 0, 1)) (by decide +kernel)
  simp only [Prod.mk.injEq] at hv
  obtain ⟨hq, n0, n1⟩ := hv
  have ht : (helloLate.all fun a => a.tame 2) = true := by decide +kernel
  have hlen : helloLate.length = 81 := by decide
  obtain ⟨E, F, hd, hD, hact, hst, htail'⟩ := course_of (w := false) h ht hq (by
    intro d hd
    match d, hd with
    | 0, _ => omega
    | 1, _ => omega)
  have htail : ∀ n, helloLate.length ≤ n → S.later (E.st n) := fun n hn => (htail' n hn).1
  have Q := World.quiet_of h ht hq
  have hb := bodies_of h ht (Q.2.2.2 rfl) htail
  have look : ∀ (n : Nat) {β : Type} (f : World.State → β) (b : β), n ≤ 81 →
      (∃ S, run (World.State.step helloC helloT sysH sysR []) (World.State.init helloT) (helloLate.take n) = some S ∧ f S = b) →
      f (E.st n) = b := by
    rintro n β f b hn ⟨S', h1, h2⟩
    rw [hst n (by omega)] at h1
    cases h1
    exact h2
  have c1 : Calls E 30 1 helloPrint := ⟨77, none, hact 30 (by omega)⟩
  have g1 : GotRemote E 30 77 1 helloPrint ⟨[], 91#8 :: (bytesOf "Print" ++ Whole.cTimedOut)⟩ := by
    refine ⟨c1, by decide +kernel, by omega, ?_⟩
    rw [look 30 (fun S => (S.sys.dock 1).n) 0 (by omega) (worldWitness (by decide +kernel))]
    exact phase_got (look 77 (fun S => ((S.sys.dock 1).phase 0).result.map fun r => (r.result, r.err)) _ (by omega)
      (worldWitness (by decide +kernel)))
  have hs := look 66 (fun S => ((S.rest 0).chan.queue 0, ((S.rest 0).chan.req 0).meth, ((S.rest 0).chan.req 0).args))
    ([0], bytesOf "Print", [.str 0 (bytesOf "Hello Ferry!")]) (by omega) (worldWitness (by decide +kernel))
  simp only [Prod.mk.injEq] at hs
  refine ⟨E, F, hb, hd, g1, 66, by omega, ⟨hact 66 (by omega), 0, [], hs.1, hs.2.1, hs.2.2⟩, by omega, hact 79 (by omega), ?_⟩
  intro u h1 h2
  rw [hact u (by omega)]
  have all : (((helloLate.take 79).drop 67).all fun a => match a with
      | .dock 0 (.chan (.start _)) => false
      | .dock 0 (.chan (.ret _ _)) => false
      | _ => true) = true := by decide +kernel
  have hm : ∀ a, helloLate[u]? = some a → a ∈ (helloLate.take 79).drop 67 := fun a e =>
    List.mem_of_getElem? (i := u - 67) (by rw [List.getElem?_drop, show 67 + (u - 67) = u by omega, List.getElem?_take, if_pos h2]; exact e)
  exact ⟨fun e => by simpa using List.all_eq_true.mp all _ (hm _ e), fun res e => by simpa using List.all_eq_true.mp all _ (hm _ e)⟩

end Verif.Props
