import Verif.Props.Whole1

/-!
# C119: which requests of peers can be answered
-/

namespace Verif.Props

open Verif Verif.Codec Verif.Proto Verif.Dock

set_option synthInstance.maxSize 100000
set_option synthInstance.maxHeartbeats 2000000

/-! ## Methods that wait for remote calls -/

/-- A method that waits for a remote call is being executed, and waits for nothing else. -/
def BlockInv (s : Whole.State) : Prop :=
  ∀ i x, s.blocked i = some x → s.chan.handler (s.chan.req i).callee = .running i ∧ s.chan.waits i = none ∧ i < s.chan.n

/-- What a step within package chancall does to a method that is being executed. -/
theorem running_step {T : Nat → Chan.Target} {s t : Chan.State} {a : Chan.Act} {i : Nat} (L : LiveInv s)
    (h : s.step T a = some t) (hr : s.handler (s.req i).callee = .running i) (hw : s.waits i = none) (hi : i < s.n)
    (h1 : ∀ res, a ≠ .ret (s.req i).callee res) (h2 : ∀ callee caller meth args, a ≠ .call callee caller meth args (some i)) :
    t.handler (t.req i).callee = .running i ∧ t.waits i = none ∧ i < t.n ∧
      t.log (s.req i).callee = s.log (s.req i).callee := by
  unfold Chan.State.step at h
  split at h
  · cases h
  cases a with
  | call callee caller meth args parent =>
    have e : i ≠ s.n := by omega
    simp only at h
    split at h
    · cases h
      simp only [upd_other _ _ e]
      exact ⟨hr, hw, by omega, trivial⟩
    · rename_i p
      split at h
      · cases h
        have : i ≠ p := by rintro rfl; exact h2 _ _ _ _ rfl
        simp only [upd_other _ _ e, upd_other _ _ this]
        exact ⟨hr, hw, by omega, trivial⟩
      · cases h
  | receive k =>
    simp only at h
    repeat' split at h
    all_goals cases h
    all_goals
      refine ⟨hr, ?_, hi, rfl⟩
      first
        | exact hw
        | (simp only [upd]
           split
           · rfl
           · exact hw)
  | start c =>
    by_cases e : (s.req i).callee = c
    · subst e
      simp only [hr] at h
      cases h
    · simp only at h
      repeat' split at h
      all_goals cases h
      all_goals
        simp only [upd_other _ _ e]
        exact ⟨hr, hw, hi, trivial⟩
  | ret c res =>
    by_cases e : (s.req i).callee = c
    · subst e; exact absurd rfl (h1 res)
    · simp only at h
      repeat' split at h
      all_goals cases h
      all_goals
        simp only [upd_other _ _ e]
        exact ⟨hr, hw, hi, trivial⟩
  | settleH c =>
    by_cases e : (s.req i).callee = c
    · subst e
      simp only [hr] at h
      cases h
    · simp only at h
      repeat' split at h
      all_goals cases h
      all_goals
        simp only [upd_other _ _ e]
        exact ⟨hr, hw, hi, trivial⟩
  | deliverH c =>
    by_cases e : (s.req i).callee = c
    · subst e
      simp only [hr] at h
      cases h
    · simp only at h
      repeat' split at h
      all_goals cases h
      all_goals
        simp only [upd_other _ _ e]
        exact ⟨hr, hw, hi, trivial⟩
  | _ =>
    simp only at h
    repeat' split at h
    all_goals cases h
    all_goals exact ⟨hr, hw, hi, rfl⟩

/-- A method that waits for a remote call goes on waiting unless this call returns. -/
theorem blocked_step {cs : List Carried} {T : Nat → Chan.Target} {s t : Whole.State} {a : Whole.Act} (A : AllInv s.chan)
    (B : BlockInv s) (h : s.step cs T a = some t) :
    BlockInv t ∧ ∀ i x, s.blocked i = some x → a ≠ .returns x →
      t.blocked i = some x ∧ t.chan.log (s.chan.req i).callee = s.chan.log (s.chan.req i).callee := by
  have core : ∀ (b : Chan.Act) (e : Chan.State), s.chan.step T b = some e → (∀ c res, b = .ret c res → s.away c = false) →
      (∀ callee caller meth args p, b = .call callee caller meth args (some p) → s.blocked p = none) →
      ∀ i x, s.blocked i = some x → e.handler (e.req i).callee = .running i ∧ e.waits i = none ∧ i < e.n ∧
        e.log (s.chan.req i).callee = s.chan.log (s.chan.req i).callee := by
    intro b e hs h1 h2 i x hx
    obtain ⟨g1, g2, g3⟩ := B i x hx
    refine running_step A.live hs g1 g2 g3 ?_ ?_
    · rintro res rfl
      have := h1 _ _ rfl
      simp [Whole.State.away, g1, hx] at this
    · rintro _ _ _ _ rfl
      rw [h2 _ _ _ _ _ rfl] at hx
      cases hx
  have calm : ∀ t : Whole.State, t.chan = s.chan → t.blocked = s.blocked → BlockInv t ∧ ∀ i x, s.blocked i = some x → a ≠ .returns x →
      t.blocked i = some x ∧ t.chan.log (s.chan.req i).callee = s.chan.log (s.chan.req i).callee := by
    intro t h1 h2
    refine ⟨?_, fun i x hx _ => ⟨by rw [h2]; exact hx, by rw [h1]⟩⟩
    unfold BlockInv
    rw [h1, h2]
    exact B
  have move : ∀ (t : Whole.State) (b : Chan.Act), s.chan.step T b = some t.chan → (∀ c res, b = .ret c res → s.away c = false) →
      (∀ callee caller meth args p, b = .call callee caller meth args (some p) → s.blocked p = none) →
      t.blocked = s.blocked → BlockInv t ∧ ∀ i x, s.blocked i = some x → a ≠ .returns x →
      t.blocked i = some x ∧ t.chan.log (s.chan.req i).callee = s.chan.log (s.chan.req i).callee := by
    intro t b hs h1 h2 hb
    have := core b t.chan hs h1 h2
    refine ⟨?_, fun i x hx _ => ⟨by rw [hb]; exact hx, (this i x hx).2.2.2⟩⟩
    unfold BlockInv
    rw [hb]
    exact fun i x hx => ⟨(this i x hx).1, (this i x hx).2.1, (this i x hx).2.2.1⟩
  unfold Whole.State.step at h
  split at h
  · cases h
  cases a with
  | dock a =>
    simp only at h
    split at h
    · cases h
    · obtain ⟨d, hd, rfl⟩ := Option.map_eq_some_iff.mp h
      exact calm _ rfl rfl
  | chan a =>
    simp only at h
    split at h
    · cases h
    · rename_i ha
      split at h
      · rename_i c res
        split at h
        · cases h
        · rename_i hc
          obtain ⟨d, hd, rfl⟩ := Option.map_eq_some_iff.mp h
          refine move _ _ hd ?_ (fun _ _ _ _ _ e => by cases e) rfl
          intro c' res' e
          cases e
          simpa using hc
      · rename_i hr
        obtain ⟨d, hd, rfl⟩ := Option.map_eq_some_iff.mp h
        refine move _ _ hd (fun c res e => absurd e (hr c res)) ?_ rfl
        rintro _ _ _ _ _ rfl
        exact absurd rfl ha
  | call c clock parent =>
    simp only at h
    split at h
    · split at h
      · simp only [bind, Option.bind_eq_some_iff] at h
        obtain ⟨d, hd, e, he, h⟩ := h
        cases h
        exact move _ _ he (fun _ _ e => by cases e) (fun _ _ _ _ _ e => by cases e) rfl
      · obtain ⟨d, hd, rfl⟩ := Option.map_eq_some_iff.mp h
        exact calm _ rfl rfl
    · rename_i p
      split at h
      · rename_i hp
        split at h
        · simp only [bind, Option.bind_eq_some_iff] at h
          obtain ⟨d, hd, e, he, h⟩ := h
          cases h
          refine move _ _ he (fun _ _ e => by cases e) ?_ rfl
          intro _ _ _ _ p' e
          cases e
          exact hp.2.2
        · obtain ⟨d, hd, rfl⟩ := Option.map_eq_some_iff.mp h
          have hne : ∀ i x, s.blocked i = some x → i ≠ p := by
            rintro i x hx rfl
            rw [hp.2.2] at hx; cases hx
          refine ⟨?_, fun i x hx _ => ⟨(upd_other _ _ (hne i x hx)).trans hx, rfl⟩⟩
          intro i x hx
          by_cases e : i = p
          · subst e
            obtain ⟨h1, ⟨h2, h3⟩, -⟩ := hp
            refine ⟨?_, h3, h1⟩
            simp only
            split at h2
            · rename_i hh; rw [hh, h2]
            · exact absurd h2 id
          · simp only [upd_other _ _ e] at hx
            exact B i x hx
      · cases h
  | returns x =>
    simp only at h
    obtain ⟨d, hd, rfl⟩ := Option.map_eq_some_iff.mp h
    constructor
    · intro i y hy
      simp only at hy
      split at hy
      · cases hy
      · exact B i y hy
    · intro i y hy hne
      refine ⟨?_, rfl⟩
      simp only
      rw [if_neg]
      · exact hy
      · rw [hy]
        intro e
        cases e
        exact hne rfl
  | invoke k =>
    simp only at h
    split at h
    · simp only [bind, Option.bind_eq_some_iff] at h
      obtain ⟨d, hd, e, he, h⟩ := h
      cases h
      exact move _ _ he (fun _ _ e => by cases e) (fun _ _ _ _ _ e => by cases e) rfl
    · cases h
  | _ =>
    simp only at h
    repeat' split at h
    all_goals first
      | (obtain ⟨d, hd, rfl⟩ := Option.map_eq_some_iff.mp h; exact calm _ rfl rfl)
      | (cases h; done)
      | (cases h; exact calm _ rfl rfl)

theorem blockInv_run (cs : List Carried) (T : Nat → Chan.Target) (as : List Whole.Act) (s : Whole.State)
    (h : run (Whole.State.step cs T) (Whole.State.init T) as = some s) : BlockInv s := by
  induction as using List.reverseRecOn generalizing s with
  | nil => cases h; intro i x hx; cases hx
  | append_singleton as a ih =>
    rw [run_append] at h
    cases e : run (Whole.State.step cs T) (Whole.State.init T) as with
    | none => rw [e] at h; cases h
    | some u =>
      rw [e] at h
      simp only [Option.bind_some, run] at h
      split at h
      · cases h
      · rename_i v hv
        cases h
        obtain ⟨-, us, hu, un⟩ := Whole.chan_run cs T as u e
        exact (blocked_step (allInv_run T un hu) (ih u e) hv).1

theorem last_callee {cs : List Carried} {name : Str} {k : Nat} (h : LastAt cs name k) :
    Whole.calleeOf cs name = some k := by
  obtain ⟨pre, f, post, rfl, h2, h3, rfl⟩ := h
  induction post using List.reverseRecOn with
  | nil => rw [Whole.calleeOf_append, ← h2, upd_same]
  | append_singleton post g ih =>
    have : pre ++ f :: (post ++ [g]) = (pre ++ f :: post) ++ [g] := by simp
    rw [this, Whole.calleeOf_append, upd_other _ _ fun e => h3 g (by simp) e.symm]
    exact ih fun g hg => h3 g (by simp [hg])

/-! ## C119, positive part -/

/-- The methods that wait for remote calls. -/
def Abroad (s : Whole.State) (i : Nat) : Prop := s.blocked i ≠ none

theorem goes_whole {cs : List Carried} {T : Nat → Chan.Target} {s : Whole.State} (hd : s.dock.dead = false) {c e : Chan.State}
    (g : Goes T (Abroad s) c e) (F : Fine T (Abroad s) c) :
    ∃ more : List Chan.Act, (∀ a ∈ more, Whole.tiedC a = false) ∧
      run (Whole.State.step cs T) { s with chan := c } (more.map .chan) = some { s with chan := e } := by
  induction g with
  | refl c => exact ⟨[], (by simp), rfl⟩
  | @step u v w a ha hs _ ih =>
    obtain ⟨more, h1, h2⟩ := ih (fine_step F ha hs)
    have hu : u.dead = false := F.alive
    have ht : Whole.tiedC a = false := by
      cases a with
      | call callee caller meth args parent => exact absurd rfl (ha.1 _ _ _ _ _)
      | _ => rfl
    refine ⟨a :: more, ?_, ?_⟩
    · intro b hb
      rcases List.mem_cons.mp hb with rfl | hb
      · exact ht
      · exact h1 b hb
    · have st : Whole.State.step cs T { s with chan := u } (.chan a) = some { s with chan := v } := by
        simp only [Whole.State.step, hd, hu, Bool.or_self, Bool.false_eq_true, if_false, ht]
        split
        · rename_i c res
          rw [if_neg]
          · rw [hs]; rfl
          · simp only [Whole.State.away]
            split
            · rename_i i hi
              have := ha.2 c res i rfl hi
              simpa [Abroad] using this
            · simp
        · rw [hs]; rfl
      rw [List.map_cons]
      simp only [run, st]
      exact h2

/-- The actions of the goroutines that serve request `k`, and of package chancall. -/
def Serving (k : Nat) : Whole.Act → Prop
  | .chan a => Whole.tiedC a = false
  | .invoke j => j = k
  | .finish j => j = k
  | .respond j => j = k
  | _ => False

theorem serve_returned {cs : List Carried} {T : Nat → Chan.Target} {s : Whole.State} (hd : s.dock.dead = false)
    (hc : s.chan.dead = false) {k : Nat} {r : Ret} (hp : (s.dock.exec k).phase = .returned r) :
    ∃ t res err, run (Whole.State.step cs T) s [.respond k] = some t ∧
      t.dock.log.filterMap Whole.answerOf = s.dock.log.filterMap Whole.answerOf ++
        [((s.dock.exec k).peer, (s.dock.exec k).index, (s.dock.exec k).call.slot, (s.dock.exec k).call.meth, res, err)] := by
  have st : s.dock.step cs (.respond k) ≠ none := by simp [Dock.State.step, hd, hp]
  cases e : s.dock.step cs (.respond k) with
  | none => exact absurd e st
  | some d =>
    obtain ⟨r, -, -, -, h4⟩ := Whole.respond_step e
    refine ⟨{ s with dock := d, answered := s.answered ++ [k] }, _, _, ?_, h4⟩
    simp [run, Whole.State.step, hd, hc, e]

theorem serve_answered {cs : List Carried} {T : Nat → Chan.Target} {s : Whole.State} (hd : s.dock.dead = false)
    (hc : s.chan.dead = false) {k i j : Nat} {a : Chan.Ans} (hp : (s.dock.exec k).phase = .running) (hs : s.served k = some i)
    (hr : s.chan.result i = some (j, a)) :
    ∃ t res err, run (Whole.State.step cs T) s [.finish k, .respond k] = some t ∧
      t.dock.log.filterMap Whole.answerOf = s.dock.log.filterMap Whole.answerOf ++
        [((s.dock.exec k).peer, (s.dock.exec k).index, (s.dock.exec k).call.slot, (s.dock.exec k).call.meth, res, err)] := by
  have st : s.dock.step cs (.finish k (Whole.retOf (s.dock.exec k).call.meth a)) = some { s.dock with
      exec := upd s.dock.exec k { s.dock.exec k with phase := .returned (Whole.retOf (s.dock.exec k).call.meth a) }
      log := s.dock.log ++ [.returned ((s.dock.exec k).peer, (s.dock.exec k).index) (s.dock.exec k).feature
        (s.dock.exec k).call (Whole.retOf (s.dock.exec k).call.meth a)] } := by
    simp [Dock.State.step, hd, hp]
  have wt : Whole.State.step cs T s (.finish k) = some { s with
      dock := { s.dock with
        exec := upd s.dock.exec k { s.dock.exec k with phase := .returned (Whole.retOf (s.dock.exec k).call.meth a) }
        log := s.dock.log ++ [.returned ((s.dock.exec k).peer, (s.dock.exec k).index) (s.dock.exec k).feature
          (s.dock.exec k).call (Whole.retOf (s.dock.exec k).call.meth a)] }
      outcome := upd s.outcome k (some (Whole.retOf (s.dock.exec k).call.meth a)) } := by
    simp [Whole.State.step, hd, hc, hs, hr, st]
  obtain ⟨t, res, err, h1, h2⟩ := serve_returned (cs := cs) (T := T) (k := k)
    (r := Whole.retOf (s.dock.exec k).call.meth a) (s := { s with
      dock := { s.dock with
        exec := upd s.dock.exec k { s.dock.exec k with phase := .returned (Whole.retOf (s.dock.exec k).call.meth a) }
        log := s.dock.log ++ [.returned ((s.dock.exec k).peer, (s.dock.exec k).index) (s.dock.exec k).feature
          (s.dock.exec k).call (Whole.retOf (s.dock.exec k).call.meth a)] }
      outcome := upd s.outcome k (some (Whole.retOf (s.dock.exec k).call.meth a)) }) hd hc (by simp [upd_same])
  refine ⟨t, res, err, ?_, ?_⟩
  · simp only [run, wt]; exact h1
  · rw [h2]
    simp [List.filterMap_append, Whole.answerOf, upd_same]

theorem fine_whole {cs : List Carried} {T : Nat → Chan.Target} {as : List Whole.Act} {s : Whole.State}
    (h : run (Whole.State.step cs T) (Whole.State.init T) as = some s) (hc : s.chan.dead = false) (hp : Suitable T s.chan) :
    Fine T (Abroad s) s.chan := by
  obtain ⟨-, us, hu, un⟩ := Whole.chan_run cs T as s h
  have A := allInv_run T un hu
  have Ti := timerInv_run T hu
  refine ⟨A, Ti, hc, hp, ?_⟩
  intro i hi e
  cases hx : s.blocked i with
  | none => exact hi hx
  | some x =>
    have := (blockInv_run cs T as s h i x hx).1
    exact (A.ans.inHandler _ i (by rw [this]; rfl)).2.2 ((Ti.iff i).mpr e)

/-- The call that serves a request can return. -/
theorem serve_running {cs : List Carried} {T : Nat → Chan.Target} {as : List Whole.Act} {s : Whole.State}
    (h : run (Whole.State.step cs T) (Whole.State.init T) as = some s) (hd : s.dock.dead = false) (hc : s.chan.dead = false)
    (hp : Suitable T s.chan) {k i : Nat} (hk : (s.dock.exec k).phase = .running) (hs : s.served k = some i)
    (he : Ends (Abroad s) s.chan (s.chan.req i).callee) :
    ∃ more t res err, (∀ a ∈ more, Serving k a) ∧ run (Whole.State.step cs T) s more = some t ∧
      t.dock.log.filterMap Whole.answerOf = s.dock.log.filterMap Whole.answerOf ++
        [((s.dock.exec k).peer, (s.dock.exec k).index, (s.dock.exec k).call.slot, (s.dock.exec k).call.meth, res, err)] := by
  have F := fine_whole h hc hp
  have hi := ((Whole.inv_run cs T as s h).served k i hs).1
  have key : ∃ e, Goes T (Abroad s) s.chan e ∧ e.result i ≠ none := by
    obtain ⟨t, g, hf⟩ := freed F he
    have kt := g.keeps
    by_cases h1 : t.startedAt i = none
    · obtain ⟨v, g', hv⟩ := serve_call (g.fine F) (i := i) (by rw [kt.1]; exact hi) (by rw [kt.2.1]; exact hf) h1 []
      exact ⟨v, g.trans g', by rw [hv]; simp⟩
    · obtain ⟨v, g', hv⟩ := finish_call (g.fine F) h1
      exact ⟨v, g.trans g', hv⟩
  obtain ⟨e, g, hr⟩ := key
  obtain ⟨more, m1, m2⟩ := goes_whole (cs := cs) hd g F
  cases er : e.result i with
  | none => exact absurd er hr
  | some x =>
    obtain ⟨t, res, err, r1, r2⟩ := serve_answered (cs := cs) (T := T) (s := { s with chan := e }) hd (g.fine F).alive
      (k := k) (i := i) (j := x.1) (a := x.2) hk hs er
    refine ⟨more.map .chan ++ [.finish k, .respond k], t, res, err, ?_, ?_, r2⟩
    · intro b hb
      rcases List.mem_append.mp hb with hb | hb
      · obtain ⟨a, ha, rfl⟩ := List.mem_map.mp hb
        exact m1 a ha
      · rcases List.mem_cons.mp hb with rfl | hb
        · rfl
        · rw [List.mem_singleton.mp hb]; rfl
    · rw [run_append, m2]; exact r1

theorem ends_call {T : Nat → Chan.Target} {B : Nat → Prop} {s t : Chan.State} {k caller : Nat} {meth : Str} {args : List Val}
    (L : LiveInv s) (h : s.step T (.call k caller meth args none) = some t) {c : Nat} (he : Ends B s c) : Ends B t c := by
  simp only [Chan.State.step] at h
  split at h
  · cases h
  · cases h
    induction he with
    | intro c h1 _ ih =>
      refine .intro c h1 fun d hd => ih d ?_
      obtain ⟨i, j, g1, g2, g3, g4⟩ := hd
      refine ⟨i, j, g1, g2, g3, ?_⟩
      have := (L.waits j i g2).1
      simp only [upd_other _ _ (show j ≠ s.n by omega)] at g4
      exact g4

/-- **C119, partial.**  In every reachable state of a living dock: if a request of a peer has not been answered, its
arguments and those of the other calls suit their methods, and the chain of waiting that begins at its callee ends without
meeting a method that waits for a remote call, then the response can be sent, by the goroutine of the request and actions
within package chancall alone.  Missing: that this chain always ends, which is false. -/
theorem C119_answered_partial (cs : List Carried) (T : Nat → Chan.Target) (as : List Whole.Act) (s : Whole.State)
    (h : run (Whole.State.step cs T) (Whole.State.init T) as = some s) (hd : s.dock.dead = false) (hc : s.chan.dead = false)
    (hp : Suitable T s.chan) (k p : Nat) (x : BitVec 64) (call : Call)
    (hk : (s.dock.log.filterMap (askOf cs))[k]? = some (p, x, call)) (hn : k ∉ s.answered)
    (hcall : ∀ c, LastAt cs call.slot c →
      (T c).invoke call.meth call.args ≠ .panics ∧ Ends (fun i => s.blocked i ≠ none) s.chan c) :
    ∃ more t res err, (∀ a ∈ more, Serving k a) ∧ run (Whole.State.step cs T) s more = some t ∧
      t.dock.log.filterMap Whole.answerOf =
        s.dock.log.filterMap Whole.answerOf ++ [(p, x, call.slot, call.meth, res, err)] := by
  have I := Whole.inv_run cs T as s h
  obtain ⟨ds, hds⟩ := Whole.dock_run cs T as s h
  have H := histInv_run cs ds s.dock hds
  have hlt : k < s.dock.nx := by
    refine Nat.lt_of_not_le fun hge => ?_
    rw [List.getElem?_eq_none] at hk
    · cases hk
    · rw [askOf_asked, H.asked]; simpa using hge
  rw [askOf_asked, H.asked, List.map_map, List.getElem?_map, List.getElem?_range hlt] at hk
  cases hk
  cases hph : (s.dock.exec k).phase with
  | over => exact absurd ((I.over k hlt).mp hph) hn
  | returned r =>
    obtain ⟨t, res, err, r1, r2⟩ := serve_returned (cs := cs) (T := T) hd hc hph
    exact ⟨[.respond k], t, res, err, by intro a ha; rw [List.mem_singleton.mp ha]; rfl, r1, r2⟩
  | running =>
    cases hs : s.served k with
    | none => exact absurd hs (I.invoked k hlt (by rw [hph]; simp))
    | some i => exact serve_running h hd hc hp hph hs (hcall _ (calleeOf_last (I.served k i hs).2.1)).2
  | spawned =>
    cases hcal : Whole.calleeOf cs (s.dock.exec k).call.slot with
    | none => exact absurd (Whole.calleeOf_none.mp hcal) (I.slot k hlt)
    | some c =>
      obtain ⟨g1, g2⟩ := hcall c (calleeOf_last hcal)
      obtain ⟨-, us, hu, un⟩ := Whole.chan_run cs T as s h
      have A := allInv_run T un hu
      have sd : s.dock.step cs (.invoke k) = some { s.dock with
          exec := upd s.dock.exec k { s.dock.exec k with phase := .running }
          log := s.dock.log ++ [.invoke (some ((s.dock.exec k).peer, (s.dock.exec k).index)) (s.dock.exec k).feature
            (s.dock.exec k).call] } := by
        simp [Dock.State.step, hd, hph]
      have sc : s.chan.step T (.call c s.chan.n (s.dock.exec k).call.meth (s.dock.exec k).call.args none) = some { s.chan with
          n := s.chan.n + 1
          req := upd s.chan.req s.chan.n ⟨c, s.chan.n, (s.dock.exec k).call.meth, (s.dock.exec k).call.args, none, s.chan.clock⟩ } := by
        simp [Chan.State.step, hc]
      generalize hD : ({ s.dock with
          exec := upd s.dock.exec k { s.dock.exec k with phase := .running }
          log := s.dock.log ++ [.invoke (some ((s.dock.exec k).peer, (s.dock.exec k).index)) (s.dock.exec k).feature
            (s.dock.exec k).call] } : Dock.State) = D at sd
      have eC := ends_call A.live sc g2
      generalize hC : ({ s.chan with
          n := s.chan.n + 1
          req := upd s.chan.req s.chan.n ⟨c, s.chan.n, (s.dock.exec k).call.meth, (s.dock.exec k).call.args, none,
            s.chan.clock⟩ } : Chan.State) = C at sc eC
      have sw : Whole.State.step cs T s (.invoke k) =
          some { s with dock := D, chan := C, served := upd s.served k (some s.chan.n) } := by
        simp [Whole.State.step, hd, hc, hcal, sd, sc]
      have cr : (C.req s.chan.n).callee = c := by rw [← hC]; simp [upd_same]
      obtain ⟨more, t, res, err, m1, m2, m3⟩ := serve_running (cs := cs) (T := T) (as := as ++ [.invoke k])
        (s := { s with dock := D, chan := C, served := upd s.served k (some s.chan.n) }) (k := k) (i := s.chan.n)
        (Whole.run_snoc h sw) (by rw [← hD]; exact hd) (by rw [← hC]; exact hc) (by
          rw [← hC]
          intro i hi h0
          by_cases e : i = s.chan.n
          · subst e; simp only [upd_same]; exact g1
          · simp only [upd_other _ _ e]
            refine hp i ?_ h0
            simp only at hi
            omega) (by rw [← hD]; simp [upd_same]) (upd_same ..) (by
          simp only [cr]; exact eC)
      refine ⟨.invoke k :: more, t, res, err, ?_, ?_, ?_⟩
      · intro a ha
        rcases List.mem_cons.mp ha with rfl | ha
        · rfl
        · exact m1 a ha
      · simp only [run, sw]; exact m2
      · rw [m3, ← hD]
        simp [List.filterMap_append, Whole.answerOf, upd_same, Exec.key]

/-! ## C119, negative part -/

/-- Requests are answered by calls that have been started. -/
theorem answered_started {cs : List Carried} {T : Nat → Chan.Target} {as more : List Whole.Act} {s t : Whole.State}
    (h : run (Whole.State.step cs T) (Whole.State.init T) as = some s) (h' : run (Whole.State.step cs T) s more = some t)
    {c : Nat} (hc : ∀ j, (t.chan.req j).callee = c → s.chan.startedAt j = none → t.chan.startedAt j = none)
    {k : Nat} (hk : k ∈ t.answered) (hl : LastAt cs (t.dock.exec k).call.slot c) :
    ∃ j, s.served k = some j ∧ s.chan.startedAt j ≠ none := by
  have ht : run (Whole.State.step cs T) (Whole.State.init T) (as ++ more) = some t := by rw [run_append, h]; exact h'
  have I := Whole.inv_run cs T as s h
  have It := Whole.inv_run cs T _ t ht
  obtain ⟨-, us, hu, un⟩ := Whole.chan_run cs T as s h
  have A := allInv_run T un hu
  obtain ⟨-, ut, hut, unt⟩ := Whole.chan_run cs T _ t ht
  have At := allInv_run T unt hut
  have Tt := timerInv_run T hut
  cases ho : t.outcome k with
  | none => exact absurd ho (It.known k hk)
  | some r =>
    obtain ⟨j, j', a, e1, e2, -⟩ := It.outcome k r ho
    have ej := At.own.own j j' a e2
    subst ej
    have hdone := (At.ans.result _ _ _ e2).1
    have hst : t.chan.startedAt j' ≠ none := by
      intro e
      have := (At.ans.unstarted j' ((Tt.iff j').mpr e)).1
      rw [hdone] at this; cases this
    have hcal : (t.chan.req j').callee = c := by
      have h1 := (It.served k j' e1).2.1
      have h2 := last_callee hl
      rw [h1] at h2
      cases h2
      rfl
    have hs : s.chan.startedAt j' ≠ none := fun e => hst (hc j' hcal e)
    refine ⟨j', ?_, hs⟩
    rcases (keep_run more s t I h').2.1 k j' e1 with e | e
    · exact e
    · exact absurd (A.ans.fresh j' e).2.2.2.2.2.1 hs

/-- Along a run of the whole, callees whose goroutines are never idle start nothing. -/
theorem frozen_run {cs : List Carried} {T : Nat → Chan.Target} {as more : List Whole.Act} {s t : Whole.State}
    (h : run (Whole.State.step cs T) (Whole.State.init T) as = some s) (h' : run (Whole.State.step cs T) s more = some t)
    (P : Whole.State → Prop) (ok : Whole.Act → Prop) (c : Nat) (h0 : P s)
    (hstep : ∀ u a v, AllInv u.chan → TimerInv u.chan → BlockInv u → P u → ok a → u.step cs T a = some v → P v)
    (hbusy : ∀ u, P u → u.chan.handler c ≠ .idle) (hok : ∀ a ∈ more, ok a) :
    P t ∧ ∀ j, (t.chan.req j).callee = c → s.chan.startedAt j = none → t.chan.startedAt j = none := by
  induction more using List.reverseRecOn generalizing t with
  | nil => cases h'; exact ⟨h0, fun _ _ e => e⟩
  | append_singleton more a ih =>
    rw [run_append] at h'
    cases e : run (Whole.State.step cs T) s more with
    | none => rw [e] at h'; cases h'
    | some u =>
      rw [e] at h'
      simp only [Option.bind_some, run] at h'
      split at h'
      · cases h'
      · rename_i v hv
        cases h'
        obtain ⟨g1, g2⟩ := ih e fun b hb => hok b (List.mem_append_left _ hb)
        have hu : run (Whole.State.step cs T) (Whole.State.init T) (as ++ more) = some u := by rw [run_append, h]; exact e
        obtain ⟨-, us, hus, un⟩ := Whole.chan_run cs T _ u hu
        have A := allInv_run T un hus
        have Ti := timerInv_run T hus
        refine ⟨hstep u a _ A Ti (blockInv_run cs T _ u hu) g1 (hok a (by simp)) hv, ?_⟩
        intro j hj hs
        refine Classical.byContradiction fun hne => ?_
        have bstep : ∀ b, u.chan.step T b = some t.chan → False := by
          intro b hb
          by_cases e0 : u.chan.startedAt j = none
          · have := started_step A.ans hb j e0 hne
            rw [hj] at this
            exact hbusy u g1 this
          · refine e0 (g2 j ?_ hs)
            have hjn : j < u.chan.n := by
              refine Nat.lt_of_not_le fun hge => e0 (A.ans.fresh j hge).2.2.2.2.2.1
            rw [← (Whole.chan_keep hb).2.1 j hjn]
            exact hj
        rcases (Whole.step_parts hv).2 with e1 | ⟨b, -, e1⟩ | ⟨k, m, ar, p, e1⟩
        · rw [e1] at hne hj
          exact hne (g2 j hj hs)
        · exact bstep _ e1
        · exact bstep _ e1

/-- **C119.**  While a method waits for a remote call that does not return, whatever else happens, its callee
starts no other method; the only requests for this feature that can be answered are those whose method had been started
before (they time out). -/
theorem C119_abroad (cs : List Carried) (T : Nat → Chan.Target) (as more : List Whole.Act) (s t : Whole.State)
    (h : run (Whole.State.step cs T) (Whole.State.init T) as = some s) (h' : run (Whole.State.step cs T) s more = some t)
    (i x : Nat) (hb : s.blocked i = some x) (hm : .returns x ∉ more) :
    t.blocked i = some x ∧ ∀ k ∈ t.answered, LastAt cs (t.dock.exec k).call.slot (s.chan.req i).callee →
      ∃ j, s.served k = some j ∧ s.chan.startedAt j ≠ none := by
  have hi := (blockInv_run cs T as s h i x hb).2.2
  have := frozen_run h h' (fun u => u.blocked i = some x ∧ i < u.chan.n ∧ u.chan.req i = s.chan.req i ∧ BlockInv u)
    (fun a => a ≠ .returns x) (s.chan.req i).callee ⟨hb, hi, rfl, blockInv_run cs T as s h⟩ ?_ ?_ ?_
  · exact ⟨this.1.1, fun k hk hl => answered_started h h' this.2 hk hl⟩
  · rintro u a v A - B ⟨g1, g2, g3, -⟩ ha hs
    obtain ⟨b1, b2⟩ := blocked_step A B hs
    refine ⟨(b2 i x g1 ha).1, ?_, ?_, b1⟩
    · exact (b1 i x (b2 i x g1 ha).1).2.2
    · rcases (Whole.step_parts hs).2 with e | ⟨b, -, e⟩ | ⟨k, m, ar, p, e⟩
      · rw [e]; exact g3
      · rw [(Whole.chan_keep e).2.1 i g2]; exact g3
      · rw [(Whole.chan_keep e).2.1 i g2]; exact g3
  · rintro u ⟨g1, g2, g3, B⟩ e
    have := (B i x g1).1
    rw [g3, e] at this
    cases this
  · intro a ha e
    subst e
    exact hm ha

/-- **C119.**  When features of a dock wait for one another in a circle, then, whatever happens, the only
requests for these features that can be answered are those whose method had been started before. -/
theorem C119_circle (cs : List Carried) (T : Nat → Chan.Target) (as more : List Whole.Act) (s t : Whole.State)
    (h : run (Whole.State.step cs T) (Whole.State.init T) as = some s) (h' : run (Whole.State.step cs T) s more = some t)
    (S : Nat → Prop) (hS : ∀ c, S c → ∃ d, S d ∧ Blocks s.chan c d) :
    ∀ k ∈ t.answered, ∀ c, S c → LastAt cs (t.dock.exec k).call.slot c →
      ∃ j, s.served k = some j ∧ s.chan.startedAt j ≠ none := by
  intro k hk c hc hl
  obtain ⟨-, us, hu, un⟩ := Whole.chan_run cs T as s h
  have Ti := timerInv_run T hu
  have K : Closed S s.chan := by
    intro c hc
    obtain ⟨d, hd, i, j, h1, h2, h3, h4⟩ := hS c hc
    exact ⟨i, j, d, hd, h1, h2, h4, (Ti.iff j).mpr h3⟩
  have := frozen_run h h' (fun u => Closed S u.chan) (fun _ => True) c K ?_ ?_ (fun _ _ => trivial)
  · exact answered_started h h' this.2 hk hl
  · rintro u a v A - - g - hs
    rcases (Whole.step_parts hs).2 with e | ⟨b, -, e⟩ | ⟨k, m, ar, p, e⟩
    · rw [e]; exact g
    · exact (closed_step T S _ _ _ A g e).1
    · exact (closed_step T S _ _ _ A g e).1
  · intro u g e
    obtain ⟨i, j, d, -, w⟩ := g c hc
    rw [w.running] at e
    cases e

/-! ## Examples -/

/-- The method that serves the request of peer 2 calls feature `c` of peer 2; meanwhile peer 2 makes another request. -/
def abroadActs : List Whole.Act :=
  servedActs ++ [.call ⟨nameC, methM, [], true⟩ 77 (some 0), .dock (.store 0), .dock (.setReq 0), .dock (.commit 0),
    .dock (.recv 2 (.rpcRequest 6 nameA methM [] true))]

/-- **C119, violated.**  The remote call has been sent, and a second request waits.  Unless the remote call returns, only
the first request for feature `a` can ever be answered. -/
theorem C119_remote_refuted : ∃ s,
    run (Whole.State.step dockDemo wholeDemo) (Whole.State.init wholeDemo) abroadActs = some s ∧
    (s.dock.dead, s.chan.dead, s.answered) = (false, false, []) ∧
    s.dock.log.filterMap (askOf dockDemo) = [(2, 5, ⟨nameA, methM, [], true⟩), (2, 6, ⟨nameA, methM, [], true⟩)] ∧
    ∀ more t, run (Whole.State.step dockDemo wholeDemo) s more = some t → .returns 0 ∉ more →
      ∀ k ∈ t.answered, LastAt dockDemo (t.dock.exec k).call.slot 2 → k = 0 := by
  have : ∃ s, run (Whole.State.step dockDemo wholeDemo) (Whole.State.init wholeDemo) abroadActs = some s ∧
    (s.dock.dead, s.chan.dead, s.answered, s.dock.log.filterMap (askOf dockDemo), s.blocked 0, (s.chan.req 0).callee,
      s.served 1, s.dock.nx) =
      (false, false, [], [(2, 5, ⟨nameA, methM, [], true⟩), (2, 6, ⟨nameA, methM, [], true⟩)], some 0, 2, none, 2) :=
    wholeWitness (by decide +kernel)
  obtain ⟨s, h, e⟩ := this
  injection e with e1 e
  injection e with e2 e
  injection e with e3 e
  injection e with e4 e
  injection e with e5 e
  injection e with e6 e
  injection e with e7 e8
  refine ⟨s, h, by rw [e1, e2, e3], e4, ?_⟩
  intro more t h' hm k hk hl
  obtain ⟨j, hj, -⟩ := (C119_abroad dockDemo wholeDemo abroadActs more s t h h' 0 0 e5 hm).2 k hk (by rw [e6]; exact hl)
  have I := Whole.inv_run _ _ _ s h
  have hk2 : k < 2 := by
    refine Nat.lt_of_not_le fun hge => ?_
    rw [(I.fresh k (by rw [e8]; exact hge)).2.1] at hj
    cases hj
  match k, hk2 with
  | 0, _ => rfl
  | 1, _ => rw [e7] at hj; cases hj

/-- Two features of a dock whose methods call each other at the same time. -/
def crossingActs : List Whole.Act :=
  [.call ⟨nameA, methM, [], true⟩ 0 none, .call ⟨nameB, methM, [], true⟩ 0 none, .chan (.push 0), .chan (.push 1),
    .chan (.start 0), .chan (.start 1), .call ⟨nameB, methM, [], true⟩ 0 (some 0), .call ⟨nameA, methM, [], true⟩ 0 (some 1)]

/-- **C119, violated.**  When two features of a dock have called each other at the same time, and it has no others, the dock
never answers any request. -/
theorem C119_circle_refuted : ∃ s,
    run (Whole.State.step [⟨nameA, 1, true⟩, ⟨nameB, 2, true⟩] wholeDemo) (Whole.State.init wholeDemo) crossingActs = some s ∧
    (s.dock.dead, s.chan.dead) = (false, false) ∧
    ∀ more t, run (Whole.State.step [⟨nameA, 1, true⟩, ⟨nameB, 2, true⟩] wholeDemo) s more = some t →
      t.dock.log.filterMap Whole.answerOf = [] := by
  have : ∃ s, run (Whole.State.step [⟨nameA, 1, true⟩, ⟨nameB, 2, true⟩] wholeDemo) (Whole.State.init wholeDemo) crossingActs =
      some s ∧ (s.dock.dead, s.chan.dead, s.dock.nx, s.chan.handler 0, s.chan.handler 1, s.chan.waits 0, s.chan.waits 1,
      (s.chan.startedAt 2).isNone, (s.chan.startedAt 3).isNone, (s.chan.req 2).callee, (s.chan.req 3).callee) =
      (false, false, 0, .running 0, .running 1, some 2, some 3, true, true, 1, 0) :=
    wholeWitness (by decide +kernel)
  obtain ⟨s, h, e⟩ := this
  injection e with e1 e
  injection e with e2 e
  injection e with e3 e
  injection e with e4 e
  injection e with e5 e
  injection e with e6 e
  injection e with e7 e
  injection e with e8 e
  injection e with e9 e
  injection e with e10 e11
  refine ⟨s, h, by rw [e1, e2], ?_⟩
  intro more t h'
  have I := Whole.inv_run _ _ _ s h
  have ht : run (Whole.State.step [⟨nameA, 1, true⟩, ⟨nameB, 2, true⟩] wholeDemo) (Whole.State.init wholeDemo)
      (crossingActs ++ more) = some t := by rw [run_append, h]; exact h'
  have It := Whole.inv_run _ _ _ t ht
  have key := C119_circle _ wholeDemo crossingActs more s t h h' (fun c => c = 0 ∨ c = 1) (by
    rintro c (rfl | rfl)
    · exact ⟨1, Or.inr rfl, 0, 2, e4, e6, Option.isNone_iff_eq_none.mp e8, e10⟩
    · exact ⟨0, Or.inl rfl, 1, 3, e5, e7, Option.isNone_iff_eq_none.mp e9, e11⟩)
  have : t.answered = [] := by
    refine List.eq_nil_iff_forall_not_mem.mpr fun k hk => ?_
    have hlt : k < t.dock.nx := Nat.lt_of_not_le fun hge => (It.fresh k hge).2.2 hk
    cases hc : Whole.calleeOf [⟨nameA, 1, true⟩, ⟨nameB, 2, true⟩] (t.dock.exec k).call.slot with
    | none => exact It.slot k hlt (Whole.calleeOf_none.mp hc)
    | some c =>
      obtain ⟨f, -, hf⟩ := Whole.calleeOf_some hc
      have hc2 : c = 0 ∨ c = 1 := by
        match c, hf with
        | 0, _ => exact Or.inl rfl
        | 1, _ => exact Or.inr rfl
      obtain ⟨j, hj, -⟩ := key k hk c hc2 (calleeOf_last hc)
      rw [(I.fresh k (by rw [e3]; exact Nat.zero_le _)).2.1] at hj
      cases hj
  rw [It.sent, this]
  rfl

/-- A state to which the positive part applies: the method of the first request is being executed, the second request waits. -/
example : ∃ s, run (Whole.State.step dockDemo wholeDemo) (Whole.State.init wholeDemo) (servedActs ++
      [.dock (.recv 2 (.rpcRequest 6 nameA methM [] true)), .invoke 1]) = some s ∧
    (s.dock.log.filterMap (askOf dockDemo))[1]? = some (2, 6, ⟨nameA, methM, [], true⟩) ∧ 1 ∉ s.answered ∧
    Suitable wholeDemo s.chan ∧ ∀ c, LastAt dockDemo nameA c →
      (wholeDemo c).invoke methM [] ≠ .panics ∧ Ends (fun i => s.blocked i ≠ none) s.chan c := by
  have : ∃ s, run (Whole.State.step dockDemo wholeDemo) (Whole.State.init wholeDemo) (servedActs ++
      [.dock (.recv 2 (.rpcRequest 6 nameA methM [] true)), .invoke 1]) = some s ∧
    ((s.dock.log.filterMap (askOf dockDemo))[1]?, s.answered, s.chan.handler 2, s.blocked 0, s.chan.waits 0, s.chan.n,
      (s.chan.req 0).args, (s.chan.req 1).args) =
      (some (2, 6, ⟨nameA, methM, [], true⟩), [], .running 0, none, none, 2, [], []) := wholeWitness (by decide +kernel)
  obtain ⟨s, h, e⟩ := this
  injection e with e1 e
  injection e with e2 e
  injection e with e3 e
  injection e with e4 e
  injection e with e5 e
  injection e with e6 e
  injection e with e7 e8
  have good : ∀ c m, (wholeDemo c).invoke m [] ≠ .panics := by
    intro c m
    simp only [wholeDemo, Chan.Target.invoke]
    by_cases hm : (m == methM) = true <;> simp [hm]
  refine ⟨s, h, e1, by rw [e2]; simp, ?_, ?_⟩
  · intro i hi _
    rw [e6] at hi
    match i, hi with
    | 0, _ => rw [e7]; exact good _ _
    | 1, _ => rw [e8]; exact good _ _
  · intro c hc
    refine ⟨good _ _, ?_⟩
    have := last_callee hc
    have e : Whole.calleeOf dockDemo nameA = some 2 := by decide +kernel
    rw [e] at this
    cases this
    refine .intro 2 ?_ ?_
    · intro i hi
      rw [e3] at hi
      cases hi
      simp [e4]
    · rintro d ⟨i, j, g1, g2, -⟩
      rw [e3] at g1
      cases g1
      rw [e5] at g2
      cases g2

end Verif.Props
