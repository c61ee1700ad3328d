import Verif.Props.Dock6

/-!
# C94: which dock serves a feature
-/

namespace Verif.Props

open Verif Verif.Codec Verif.Proto Verif.Dock

/-! ## C94: Calls move on when the dock in use is gone -/

/-- Requests for the feature among the events go to peer `p` only. -/
def onlyTo (slot : Str) (p : Nat) (l : List Ev) : Prop :=
  ∀ q x meth args wr, Ev.sent q (.rpcRequest x slot meth args wr) ∈ l → q = p

/-- One step as far as the route of a feature is concerned: no other peer registers it. -/
structure RouteStep (slot : Str) (p : Nat) (s t : State) : Prop where
  others : (∀ q, q ≠ p → ¬ due slot (s.handler q)) → ∀ q, q ≠ p → ¬ due slot (t.handler q)
  kept : (∀ q, q ≠ p → ¬ due slot (s.handler q)) → s.remote slot = some p → t.remote slot = some p
  turn : (∀ q, q ≠ p → ¬ due slot (s.handler q)) → due slot (s.handler p) →
    due slot (t.handler p) ∨ t.remote slot = some p
  log : ∃ l, t.log = s.log ++ l ∧ (s.remote slot = some p → onlyTo slot p l)

/-- No packet that registers the feature comes from a peer other than `p`. -/
def noOther (slot : Str) (p : Nat) (a : Act) : Prop :=
  ∀ q slots, a = .recv q (.registerRequest slots) → slot ∈ slots → q = p

section
variable {slot : Str} {p : Nat} {s t : State}

theorem routeStep_same (l : List Ev) (hl : t.log = s.log ++ l) (hr : t.remote = s.remote) (hh : t.handler = s.handler)
    (ho : s.remote slot = some p → onlyTo slot p l) : RouteStep slot p s t :=
  ⟨by rw [hh]; exact id, by rw [hr]; exact fun _ => id, by rw [hh]; exact fun _ => Or.inl, l, hl, ho⟩

theorem routeStep_hand (l : List Ev) (q : Nat) (h : Handler) (hl : t.log = s.log ++ l) (hr : t.remote = s.remote)
    (hh : t.handler = upd s.handler q h) (h1 : due slot h → due slot (s.handler q) ∨ q = p)
    (h2 : due slot (s.handler q) → due slot h)
    (ho : s.remote slot = some p → onlyTo slot p l) : RouteStep slot p s t := by
  refine ⟨?_, by rw [hr]; exact fun _ => id, ?_, l, hl, ho⟩
  · intro hk q' hq'
    rw [hh]
    by_cases e : q' = q
    · subst e
      rw [upd_same]
      intro hd
      rcases h1 hd with h | h
      · exact hk q' hq' h
      · exact hq' h
    · rw [upd_other _ _ e]; exact hk q' hq'
  · intro _ hd
    left
    rw [hh]
    by_cases e : p = q
    · subst e; rw [upd_same]; exact h2 hd
    · rw [upd_other _ _ e]; exact hd

theorem routeStep_idle (l : List Ev) (q : Nat) (h : Handler) (hl : t.log = s.log ++ l) (hr : t.remote = s.remote)
    (hh : t.handler = upd s.handler q h) (h1 : ¬ due slot h) (h2 : ¬ due slot (s.handler q))
    (ho : s.remote slot = some p → onlyTo slot p l) : RouteStep slot p s t :=
  routeStep_hand l q h hl hr hh (fun h => absurd h h1) (fun h => absurd h h2) ho

theorem onlyTo_nil : onlyTo slot p [] := by intro q x meth args wr h; cases h

theorem commit_onlyTo (s : State) (i : Nat) : ∃ l, (s.doCommit i).log = s.log ++ l ∧
    (s.remote slot = some p → onlyTo slot p l) := by
  unfold State.doCommit
  split
  · split
    · rename_i q hq
      refine ⟨_, rfl, ?_⟩
      intro hr q' x meth args wr h
      rw [List.mem_singleton] at h
      unfold State.request at h
      cases h
      rw [hq] at hr
      exact Option.some.inj hr
    · split
      · exact ⟨[], (List.append_nil _).symm, fun _ => onlyTo_nil⟩
      · refine ⟨_, rfl, ?_⟩
        intro _ q' x meth args wr h
        obtain ⟨y, _, h⟩ := List.mem_map.mp h
        cases h
  · exact ⟨[], (List.append_nil _).symm, fun _ => onlyTo_nil⟩

theorem routeStep_commit (i : Nat) : RouteStep slot p s (s.doCommit i) := by
  obtain ⟨l, h1, h2⟩ := commit_onlyTo (slot := slot) (p := p) s i
  have hs := doCommit_same s i
  exact routeStep_same l h1 hs.2.2.2.2.2.2.2.1 hs.2.2.2.2.2.2.2.2.2.2.1 h2

theorem routeStep_of (cs : List Carried) (a : Act) (ha : noOther slot p a) (h : s.step cs a = some t) :
    RouteStep slot p s t := by
  have hsent : ∀ (q : Nat) (pkt : Proto), (∀ x meth args wr, pkt ≠ .rpcRequest x slot meth args wr) →
      onlyTo slot p [.sent q pkt] := by
    intro q pkt hp q' x meth args wr h
    rw [List.mem_singleton] at h
    cases h
    exact absurd rfl (hp x meth args wr)
  unfold State.step at h
  split at h
  · cases h
  cases a with
  | commit i =>
    simp only at h
    split at h
    · cases h
      obtain ⟨h1, h2, h3, h4⟩ := routeStep_commit (slot := slot) (p := p) (s := s) i
      exact ⟨h1, h2, h3, h4⟩
    · cases h
  | recv q pkt =>
    simp only at h
    split at h
    · rename_i hp
      split at h
      · cases h
        have hno : ∀ l : List Ev, (∀ q' pkt', Ev.sent q' pkt' ∉ l) → s.remote slot = some p → onlyTo slot p l :=
          fun l hl _ q' x meth args wr h => absurd h (hl _ _)
        have hdn : ¬ due slot (s.handler q) := by rw [hp]; simp [due]
        cases pkt
        all_goals simp only [State.onPacket]
        all_goals repeat' split
        all_goals first
          | exact routeStep_same [_] rfl rfl rfl (hno _ (by simp))
          | exact routeStep_hand [_] q _ rfl rfl rfl (fun h => Or.inr (ha q _ rfl h)) (fun h => absurd h hdn)
              (hno _ (by simp))
          | exact routeStep_idle [_] q _ rfl rfl rfl not_false hdn (hno _ (by simp))
          | exact routeStep_idle [_, _] q _ (List.append_assoc ..) rfl rfl not_false hdn (hno _ (by simp))
      · cases h
    · cases h
  | visit q i =>
    simp only at h
    split at h
    · rename_i hp
      repeat' split at h
      all_goals cases h
      all_goals
        exact routeStep_idle [] q _ (List.append_nil _).symm rfl rfl not_false (by rw [hp]; exact not_false)
          (fun _ => onlyTo_nil)
    · cases h
  | work q order =>
    simp only [State.work] at h
    split at h
    all_goals (rename_i hp; repeat' split at h)
    all_goals cases h
    all_goals first
      | exact routeStep_idle [] q _ (List.append_nil _).symm rfl rfl not_false (by rw [hp]; exact not_false)
          (fun _ => onlyTo_nil)
      | exact routeStep_hand [_] q _ rfl rfl rfl (by rw [hp]; exact Or.inl) (by rw [hp]; exact id)
          (fun _ => hsent _ _ (by simp))
      | exact routeStep_same [] (List.append_nil _).symm rfl rfl (fun _ => onlyTo_nil)
      | skip
    · rename_i slot' rest start visited i
      obtain ⟨l, h1, h2⟩ := commit_onlyTo (slot := slot) (p := p) s i
      have hs := doCommit_same s i
      exact routeStep_idle (t := { s.doCommit i with handler := upd s.handler q (.scan slot' rest start visited) }) l q
        _ h1 hs.2.2.2.2.2.2.2.1 rfl not_false (by rw [hp]; exact not_false) h2
    · exact routeStep_idle [] q _ (List.append_nil _).symm rfl rfl not_false (by rw [hp]; simp [due])
        (fun _ => onlyTo_nil)
    · rename_i slot' rest
      refine ⟨?_, ?_, ?_, [], (List.append_nil _).symm, fun _ => onlyTo_nil⟩
      · intro hk q' hq'
        by_cases e : q' = q
        · subst e
          have := hk q' hq'
          rw [hp] at this
          simp only [upd_same]
          intro hd
          exact this (List.mem_cons_of_mem _ hd)
        · simp only [upd_other _ _ e]; exact hk q' hq'
      · intro hk hr
        by_cases e : slot = slot'
        · subst e
          simp only [upd_same]
          by_cases e : q = p
          · rw [e]
          · have := hk q e
            rw [hp] at this
            exact absurd (List.mem_cons_self ..) this
        · simp only [upd_other _ _ e]; exact hr
      · intro hk hd
        by_cases e : p = q
        · subst e
          rw [hp] at hd
          rcases List.mem_cons.mp hd with rfl | hd
          · right; simp only [upd_same]
          · left; simp only [upd_same]; exact hd
        · left; simp only [upd_other _ _ e]; exact hd
    · refine routeStep_idle [_, _] q _ rfl rfl rfl not_false (by rw [hp]; exact not_false) ?_
      intro _ q' x meth args wr h
      simp at h
  | dialOK q e =>
    simp only [State.connected] at h
    split at h
    · rename_i hp
      split at h
      · cases h
        exact routeStep_idle [] q _ (List.append_nil _).symm rfl rfl not_false (by rw [hp]; exact not_false)
          (fun _ => onlyTo_nil)
      · cases h
    · cases h
  | _ =>
    simp only [State.connected] at h
    repeat' split at h
    all_goals cases h
    all_goals first
      | exact routeStep_same [] (List.append_nil _).symm rfl rfl (fun _ => onlyTo_nil)
      | exact routeStep_same [_] rfl rfl rfl (fun _ => hsent _ _ (by simp))
      | (refine routeStep_same [_] rfl rfl rfl (fun _ => ?_); intro q' x meth args wr h; simp at h)
      | (refine routeStep_same [_, _] rfl rfl rfl (fun _ => ?_); intro q' x meth args wr h; simp at h)

/-- A run in which no other peer registers the feature. -/
theorem route_run (cs : List Carried) (slot : Str) (p : Nat) (bs : List Act) (s t : State)
    (h : run (State.step cs) s bs = some t) (ha : ∀ a ∈ bs, noOther slot p a)
    (hk : ∀ q, q ≠ p → ¬ due slot (s.handler q)) :
    (∀ q, q ≠ p → ¬ due slot (t.handler q)) ∧
    (s.remote slot = some p → t.remote slot = some p ∧ ∃ l, t.log = s.log ++ l ∧ onlyTo slot p l) ∧
    (due slot (s.handler p) ∨ s.remote slot = some p → due slot (t.handler p) ∨ t.remote slot = some p) := by
  induction bs generalizing s with
  | nil => cases h; exact ⟨hk, fun h => ⟨h, [], (List.append_nil _).symm, onlyTo_nil⟩, id⟩
  | cons a bs ih =>
    simp only [run] at h
    split at h
    · cases h
    rename_i u hu
    have R := routeStep_of (slot := slot) (p := p) cs a (ha a (List.mem_cons_self ..)) hu
    obtain ⟨h1, h2, h3⟩ := ih u h (fun b hb => ha b (List.mem_cons_of_mem _ hb)) (R.others hk)
    refine ⟨h1, ?_, ?_⟩
    · intro hr
      obtain ⟨h4, l', h5, h6⟩ := h2 (R.kept hk hr)
      obtain ⟨l, h7, h8⟩ := R.log
      refine ⟨h4, l ++ l', by rw [h5, h7, List.append_assoc], ?_⟩
      intro q x meth args wr hm
      rcases List.mem_append.mp hm with hm | hm
      · exact h8 hr q x meth args wr hm
      · exact h6 q x meth args wr hm
    · intro hd
      refine h3 ?_
      rcases hd with hd | hd
      · exact R.turn hk hd
      · exact Or.inr (R.kept hk hd)

end

/-- C94 (partial): the dock that registers last serves the feature.  Peer `p` sends a register packet with the feature;
until the packet has been handled and afterwards no other peer registers the feature, and no registration of it by
another peer is being handled.  Then from the time the packet has been handled all requests for the feature go to `p`.

Missing: that a dock is replaced when its connection ends, see `C94_stale_refuted`. -/
theorem C94_last_partial (cs : List Carried) (bs ds : List Act) (s t u v : State) (p : Nat) (slot : Str)
    (slots : List Str) (hm : slot ∈ slots) (hk : ∀ q, q ≠ p → ¬ due slot (s.handler q))
    (hr : s.step cs (.recv p (.registerRequest slots)) = some t) (hb : run (State.step cs) t bs = some u)
    (hi : u.handler p = .idle) (hd : run (State.step cs) u ds = some v)
    (ho : ∀ a ∈ bs ++ ds, ∀ q slots', a = .recv q (.registerRequest slots') → slot ∈ slots' → q = p) :
    ∃ l, v.log = u.log ++ l ∧ ∀ q x meth args wr, Ev.sent q (.rpcRequest x slot meth args wr) ∈ l → q = p := by
  have R := routeStep_of (slot := slot) (p := p) cs (.recv p (.registerRequest slots))
    (by intro q slots' h _; cases h; rfl) hr
  have hdue : due slot (t.handler p) := by
    unfold State.step at hr
    split at hr
    · cases hr
    simp only at hr
    split at hr
    · split at hr
      · cases hr; simpa [State.onPacket, due, upd_same] using hm
      · cases hr
    · cases hr
  obtain ⟨h1, _, h2⟩ := route_run cs slot p bs t u hb (fun a ha => ho a (List.mem_append_left _ ha)) (R.others hk)
  rcases h2 (Or.inl hdue) with h3 | h3
  · rw [hi] at h3; exact absurd h3 (by simp [due])
  · obtain ⟨_, h4, _⟩ := route_run cs slot p ds u v hd (fun a ha => ho a (List.mem_append_right _ ha)) h1
    exact (h4 h3).2

/-- Behind `bootActs`, where peer 2 serves `c`, peer 4 connects and registers `c`; the next call is sent to peer 4. -/
example : ∃ s t u v, run (State.step dockDemo) State.init (bootActs ++ [.accept 4 20001]) = some s ∧
    s.remote nameC = some 2 ∧ (∀ q, q ≠ 4 → ¬ due nameC (s.handler q)) ∧
    s.step dockDemo (.recv 4 (.registerRequest [nameC])) = some t ∧
    run (State.step dockDemo) t [.work 4 [nameA], .work 4 [], .work 4 []] = some u ∧ u.handler 4 = .idle ∧
    run (State.step dockDemo) u [.call ⟨nameC, methM, [], true⟩ 5, .store 0, .setReq 0, .commit 0] = some v ∧
    v.log.getLast? = some (.sent 4 (.rpcRequest 5 nameC methM [] true)) := by
  refine ⟨_, _, _, _, rfl, rfl, ?_, rfl, rfl, rfl, rfl, rfl⟩
  intro q _
  show ¬ due nameC (upd (upd (upd (upd (upd (upd (upd (fun _ => Handler.idle) 0 _) 0 _) 0 _) 2 _) 2 _) 2 _) 2 _ q)
  by_cases h2 : q = 2
  · subst h2; simp [upd_same, due]
  · by_cases h0 : q = 0
    · subst h0; simp [upd_same, upd_other, due]
    · simp [upd_other _ _ h2, upd_other _ _ h0, due]

/-- C94 (partial), the reason for `C94_stale_refuted` in `Verif.Props.System5`: nothing removes a route.  When peer `p` serves a feature, all requests for it go to `p` for as long
as no other peer registers it, whatever becomes of `p`: `OnClosed` does nothing (/repo/dock.go:71-73) and the hub is not
asked again.  Missing: as in `C94_last_partial`. -/
theorem C94_kept_partial (cs : List Carried) (as bs : List Act) (s t : State) (p : Nat) (slot : Str)
    (_ : run (State.step cs) State.init as = some s) (hr : s.remote slot = some p)
    (hk : ∀ q, q ≠ p → ¬ due slot (s.handler q)) (hb : run (State.step cs) s bs = some t)
    (ho : ∀ a ∈ bs, ∀ q slots, a = .recv q (.registerRequest slots) → slot ∈ slots → q = p) :
    t.remote slot = some p ∧ ∃ l, t.log = s.log ++ l ∧
      ∀ q x meth args wr, Ev.sent q (.rpcRequest x slot meth args wr) ∈ l → q = p :=
  (route_run cs slot p bs s t hb ho hk).2.1 hr

/-- Behind `bootActs` peer 2 serves `c`; the hub announces another dock, which is dialled, but two calls go to peer 2. -/
example : ∃ s t, run (State.step dockDemo) State.init bootActs = some s ∧ s.remote nameC = some 2 ∧
    (∀ q, q ≠ 2 → ¬ due nameC (s.handler q)) ∧
    run (State.step dockDemo) s [.call ⟨nameC, methM, [], true⟩ 5, .store 0, .setReq 0, .commit 0,
      .recv 0 (.queryResponse [49]), .dialOK 0 6, .work 0 [], .call ⟨nameC, methM, [], true⟩ 6, .store 1, .setReq 1,
      .commit 1] = some t ∧
    t.log.filterMap requestTo = [(2, .rpcRequest 5 nameC methM [] true), (2, .rpcRequest 6 nameC methM [] true)] := by
  refine ⟨_, _, rfl, rfl, ?_, rfl, rfl⟩
  intro q h2
  show ¬ due nameC (upd (upd (upd (upd (upd (upd (upd (fun _ => Handler.idle) 0 _) 0 _) 0 _) 2 _) 2 _) 2 _) 2 _ q)
  by_cases h0 : q = 0
  · subst h0; simp [upd_same, upd_other, due]
  · simp [upd_other _ _ h2, upd_other _ _ h0, due]

end Verif.Props
