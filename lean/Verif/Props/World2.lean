import Verif.Props.World1
import Verif.Props.Dock2

/-!
# C121: features of different docks that wait for one another
-/

namespace Verif.Props

open Verif Verif.Codec Verif.Proto Verif.Dock Verif.System

section
variable {C : Nat → List Carried} {T : Nat → Nat → Chan.Target} {H R : Nat → Str} {black : List Int}

/-! ## Requests are executed once -/

/-- If the clock of dock `d` never returns the same reading twice, no request of it is received twice. -/
theorem exec_unique {bs : List System.Act} {S : System.State} (h : run (System.State.step C H R black) .init bs = some S)
    {d : Nat} (hd : ∀ i j, i < (S.dock d).n → j < (S.dock d).n → (S.dock d).index i = (S.dock d).index j → i = j)
    {d1 k1 d2 k2 : Nat} (h1 : k1 < (S.dock d1).nx) (h2 : k2 < (S.dock d2).nx)
    (o1 : S.owner (other ((S.dock d1).exec k1).peer) = some (.dock d))
    (o2 : S.owner (other ((S.dock d2).exec k2).peer) = some (.dock d))
    (hx : ((S.dock d1).exec k1).index = ((S.dock d2).exec k2).index) : d1 = d2 ∧ k1 = k2 := by
  have I := System.inv_run C H R black h
  have hR := (dock_inv I d).2.2.1
  obtain ⟨ids, hn, hm, he⟩ := hR.sent
  rw [← destOf_snd] at he
  obtain ⟨P, p1, p2, p3, p4⟩ := split_by _ _ _ he hn
  have p3 : ∀ a i, i ∈ P a → i < (S.dock d).n := fun a i hi => hR.lt ((hm i).mp (p3 a i hi)).1
  have p4 : ∀ a, (dockSent a (S.dock d).log).filter isReq = (P a).map (S.dock d).request := by
    intro a; rw [← destOf_filter]; exact p4 a
  -- what arrived at an end
  have got : ∀ e d', S.owner e = some (.dock d') → S.owner (other e) = some (.dock d) → ∃ is : List Nat, is.Nodup ∧
      (∀ i ∈ is, i ∈ P (other e)) ∧ is.map (fun i => fate ((S.dock d).request i)) =
        ((List.range (S.dock d').nx).filter fun k => ((S.dock d').exec k).peer = e).map fun k =>
          Fate.arrives (asRequest ((S.dock d').exec k).index ((S.dock d').exec k).call) := by
    intro e d' ho ho'
    obtain ⟨del, hf, hs⟩ := I.fifo e
    have hf := fate_filter isReq (fun p => by cases p <;> rfl) _ _ hf
    have hs := ((List.sublist_append_left _ _).trans hs).filter isReq
    unfold System.State.sentBy at hs
    rw [ho'] at hs
    simp only at hs
    rw [p4] at hs
    obtain ⟨is, hsub, hdel⟩ := List.sublist_map_iff.mp hs
    rw [hdel] at hf
    have hg := I.got.dock d' e
    rw [if_pos ho] at hg
    rw [← hg, ← requestGot_filter, (C61_executed C H R black bs S h d').1, List.filter_map, List.map_map, List.map_map,
      List.map_map] at hf
    exact ⟨is, (p1 (other e)).sublist hsub, fun i hi => hsub.subset hi, hf⟩
  -- the call of an execution
  have pos : ∀ d' k, k < (S.dock d').nx → S.owner (other ((S.dock d').exec k).peer) = some (.dock d) →
      S.owner ((S.dock d').exec k).peer = some (.dock d') := fun d' k hk _ => (exec_call I hk).1
  have q1 := pos d1 k1 h1 o1
  have q2 := pos d2 k2 h2 o2
  have find : ∀ e d', S.owner e = some (.dock d') → S.owner (other e) = some (.dock d) → ∀ is : List Nat,
      is.map (fun i => fate ((S.dock d).request i)) =
        ((List.range (S.dock d').nx).filter fun k => ((S.dock d').exec k).peer = e).map (fun k =>
          Fate.arrives (asRequest ((S.dock d').exec k).index ((S.dock d').exec k).call)) →
      ∀ k, k < (S.dock d').nx → ((S.dock d').exec k).peer = e →
      ∃ n j : Nat, ((List.range (S.dock d').nx).filter fun k => ((S.dock d').exec k).peer = e)[n]? = some k ∧ is[n]? = some j ∧
        (S.dock d).index j = ((S.dock d').exec k).index := by
    intro e d' ho ho' is hf k hk hp
    have hmem : k ∈ (List.range (S.dock d').nx).filter fun k => ((S.dock d').exec k).peer = e :=
      List.mem_filter.mpr ⟨List.mem_range.mpr hk, by simpa using hp⟩
    obtain ⟨n, hn⟩ := List.mem_iff_getElem?.mp hmem
    have hn' := congrArg (fun l => l[n]?) hf
    simp only [List.getElem?_map, hn, Option.map_some] at hn'
    obtain ⟨j, hj, hfate⟩ := Option.map_eq_some_iff.mp hn'
    refine ⟨n, j, hn, hj, ?_⟩
    have := fate_head hfate
    simp only [Dock.State.request, asRequest, head, Proto.rpcRequest.injEq] at this
    exact this.1.symm
  obtain ⟨is1, i1, i2, i3⟩ := got _ _ q1 o1
  obtain ⟨is2, j1, j2, j3⟩ := got _ _ q2 o2
  obtain ⟨n1, a1, f1, f2, f3⟩ := find _ _ q1 o1 is1 i3 k1 h1 rfl
  obtain ⟨n2, a2, g1, g2, g3⟩ := find _ _ q2 o2 is2 j3 k2 h2 rfl
  have m1 := i2 a1 (List.mem_of_getElem? f2)
  have m2 := j2 a2 (List.mem_of_getElem? g2)
  have ea : a1 = a2 := hd a1 a2 (p3 _ _ m1) (p3 _ _ m2) (by rw [f3, g3, hx])
  subst ea
  have ee := other_inj (p2 _ _ a1 m1 m2)
  have edd : d1 = d2 := by
    rw [ee, q2] at q1
    cases q1
    rfl
  subst edd
  refine ⟨rfl, ?_⟩
  rw [ee] at f1 i3
  have eis : is1.length = is2.length := by
    have := congrArg List.length (i3.trans j3.symm)
    simpa using this
  have hfg : is1.map (fun i => fate ((S.dock d).request i)) = is2.map (fun i => fate ((S.dock d).request i)) := i3.trans j3.symm
  -- the two positions are the same
  have : is2[n1]? = some a1 := by
    have h5 := congrArg (fun l => l[n1]?) hfg
    simp only [List.getElem?_map, f2, Option.map_some] at h5
    obtain ⟨b, hb, hfb⟩ := Option.map_eq_some_iff.mp h5.symm
    have hb' := j2 b (List.mem_of_getElem? hb)
    have hcong := f1
    have h6 := congrArg (fun l => l[n1]?) j3
    simp only [List.getElem?_map, hb, f1, Option.map_some, Option.some.injEq] at h6
    have := fate_head h6
    simp only [Dock.State.request, asRequest, head, Proto.rpcRequest.injEq] at this
    rw [hb, hd b a1 (p3 _ _ hb') (p3 _ _ m1) (this.1.symm.trans f3.symm)]
  obtain ⟨x1, x2⟩ := List.getElem?_eq_some_iff.mp this
  obtain ⟨y1, y2⟩ := List.getElem?_eq_some_iff.mp g2
  have en : n1 = n2 := (List.getElem_inj (h₀ := x1) (h₁ := y1) j1).mp (x2.trans y2.symm)
  rw [en, g1] at f1
  cases f1
  rfl

/-! ## What stays as it is -/

theorem exec_keep {cs : List Carried} {s t : Dock.State} {a : Dock.Act} (h : s.step cs a = some t) :
    s.nx ≤ t.nx ∧ ∀ k, k < s.nx → (t.exec k).peer = (s.exec k).peer ∧ (t.exec k).index = (s.exec k).index ∧
      (t.exec k).call = (s.exec k).call := by
  have up : ∀ k ph, t.nx = s.nx → t.exec = upd s.exec k { s.exec k with phase := ph } → s.nx ≤ t.nx ∧ ∀ k, k < s.nx →
      (t.exec k).peer = (s.exec k).peer ∧ (t.exec k).index = (s.exec k).index ∧ (t.exec k).call = (s.exec k).call := by
    intro k ph h1 h2
    refine ⟨by omega, fun k' _ => ?_⟩
    rw [h2]
    by_cases e : k' = k
    · subst e; rw [upd_same]; exact ⟨rfl, rfl, rfl⟩
    · rw [upd_other _ _ e]; exact ⟨rfl, rfl, rfl⟩
  have rest : (Whole.tiedD a = false ∨ (∃ c clock, a = .call c clock) ∨ ∃ i, a = .closeChan i) → s.nx ≤ t.nx ∧
      ∀ k, k < s.nx → (t.exec k).peer = (s.exec k).peer ∧ (t.exec k).index = (s.exec k).index ∧
      (t.exec k).call = (s.exec k).call := by
    intro ha
    rcases (Whole.grown_step cs s a t ha h).2 with ⟨e1, e2⟩ | ⟨p, x, c, f, e1, e2, -⟩
    · rw [e1, e2]; exact ⟨Nat.le_refl _, fun _ _ => ⟨rfl, rfl, rfl⟩⟩
    · refine ⟨by omega, fun k hk => ?_⟩
      rw [e2, upd_other _ _ (by omega)]
      exact ⟨rfl, rfl, rfl⟩
  cases a with
  | invoke k => obtain ⟨-, h1, h2, -⟩ := Whole.invoke_step h; exact up _ _ h1 h2
  | finish k r => obtain ⟨-, h1, h2, -⟩ := Whole.finish_step h; exact up _ _ h1 h2
  | respond k => obtain ⟨r, -, h1, h2, -⟩ := Whole.respond_step h; exact up _ _ h1 h2
  | call c clock => exact rest (Or.inr (Or.inl ⟨c, clock, rfl⟩))
  | closeChan i => exact rest (Or.inr (Or.inr ⟨i, rfl⟩))
  | _ => exact rest (Or.inl rfl)

theorem sys_owner {S S' : System.State} {a : System.Act} (I : System.Inv C H R black S)
    (h : S.step C H R black a = some S') {e : Nat} {p : Proc} (he : S.owner e = some p) : S'.owner e = some p := by
  have hlt : e < 2 * S.n := Nat.lt_of_not_le fun hge => by rw [I.shape.fresh e hge] at he; cases he
  have con : ∀ x y port, (S.connect x y port).owner e = some p := by
    intro x y port
    simp only [System.State.connect]
    rw [upd_other _ _ (by omega), upd_other _ _ (by omega)]
    exact he
  unfold System.State.step at h
  cases a with
  | join d =>
    simp only at h
    repeat' split at h
    all_goals cases h
    exact con (.dock d) .hub 0
  | dial d p d' port =>
    simp only at h
    repeat' split at h
    all_goals cases h
    exact con (.dock d) (.dock d') port
  | deliver e' =>
    simp only [System.State.receive] at h
    repeat' split at h
    all_goals cases h
    all_goals exact he
  | _ =>
    simp only at h
    repeat' split at h
    all_goals cases h
    all_goals exact he

theorem world_owner {S S' : World.State} {a : World.Act} (I : System.Inv C H R black S.sys)
    (h : S.step C T H R black a = some S') {e : Nat} {p : Proc} (he : S.sys.owner e = some p) : S'.sys.owner e = some p := by
  cases a with
  | sys a => exact sys_owner I (World.step_sys h).2.1 he
  | dock d a =>
    obtain ⟨-, -, w, -, rfl⟩ := World.step_whole h
    exact he

theorem world_dock {S S' : World.State} {a : World.Act} (W : World.Inv C T S) (h : S.step C T H R black a = some S') (d : Nat) :
    ((S.sys.dock d).n ≤ (S'.sys.dock d).n ∧ ∀ i, i < (S.sys.dock d).n → (S'.sys.dock d).index i = (S.sys.dock d).index i) ∧
    (S.sys.dock d).nx ≤ (S'.sys.dock d).nx ∧ ∀ k, k < (S.sys.dock d).nx →
      ((S'.sys.dock d).exec k).peer = ((S.sys.dock d).exec k).peer ∧
      ((S'.sys.dock d).exec k).index = ((S.sys.dock d).exec k).index ∧
      ((S'.sys.dock d).exec k).call = ((S.sys.dock d).exec k).call := by
  have or : S'.sys.dock d = S.sys.dock d ∨ ∃ c, (S.sys.dock d).step (C d) c = some (S'.sys.dock d) := by
    rcases World.at_step h W.down d with e | ⟨-, b, e, -⟩
    · exact Or.inl (congrArg Whole.State.dock e)
    · rcases (Whole.step_parts e).1 with e | ⟨c, e⟩
      · exact Or.inl e
      · exact Or.inr ⟨c, e⟩
  rcases or with e | ⟨c, e⟩
  · rw [e]
    exact ⟨⟨Nat.le_refl _, fun _ _ => rfl⟩, Nat.le_refl _, fun _ _ => ⟨rfl, rfl, rfl⟩⟩
  · exact ⟨stable_run (C d) [c] _ _ (by simp [run, e]), exec_keep e⟩

end

/-! ## C121 -/

/-- Callee `c` of dock `d` runs a method that waits for a method of callee `c'` of dock `d'` which has not been started: by a
call within the dock, or by a remote call whose request has been received by dock `d'`. -/
def Waits (C : Nat → List Carried) (S : World.State) (d c d' c' : Nat) : Prop :=
  ∃ p, (S.rest d).chan.handler c = .running p ∧
    ((d' = d ∧ ∃ q, (S.rest d).chan.waits p = some q ∧ (S.rest d).chan.startedAt q = none ∧ ((S.rest d).chan.req q).callee = c') ∨
     ∃ i k, (S.rest d).blocked p = some i ∧ i < (S.sys.dock d).n ∧ k < (S.sys.dock d').nx ∧
      S.sys.owner (other ((S.sys.dock d').exec k).peer) = some (.dock d) ∧
      ((S.sys.dock d').exec k).index = (S.sys.dock d).index i ∧ LastAt (C d') ((S.sys.dock d').exec k).call.slot c' ∧
      ∀ q, (S.rest d').served k = some q → (S.rest d').chan.startedAt q = none)

/-- The clocks have not returned the same reading to two calls of a dock. -/
def Distinct (S : World.State) : Prop :=
  ∀ d i j, i < (S.sys.dock d).n → j < (S.sys.dock d).n → (S.sys.dock d).index i = (S.sys.dock d).index j → i = j

section
variable {C : Nat → List Carried} {T : Nat → Nat → Chan.Target} {H R : Nat → Str} {black : List Int}

theorem distinct_back {S S' : World.State} {a : World.Act} (W : World.Inv C T S) (h : S.step C T H R black a = some S')
    (hd : Distinct S') : Distinct S := by
  intro d i j hi hj e
  obtain ⟨⟨h1, h2⟩, -⟩ := world_dock W h d
  exact hd d i j (by omega) (by omega) (by rw [h2 i hi, h2 j hj]; exact e)

/-- While a request waits to be started, the call that sent it has no result. -/
theorem no_result {as : List World.Act} {S : World.State}
    (h : run (World.State.step C T H R black) (World.State.init T) as = some S) (hd : Distinct S) {d i d' k : Nat}
    (hk : k < (S.sys.dock d').nx) (ho : S.sys.owner (other ((S.sys.dock d').exec k).peer) = some (.dock d))
    (hx : ((S.sys.dock d').exec k).index = (S.sys.dock d).index i)
    (hs : ∀ q, (S.rest d').served k = some q → (S.rest d').chan.startedAt q = none) (r : Ret) :
    (S.sys.dock d).phase i ≠ .received r ∧ (S.sys.dock d).phase i ≠ .returned r := by
  have key : ¬ ((S.sys.dock d).phase i = .received r ∨ (S.sys.dock d).phase i = .returned r) := by
    intro hr
    obtain ⟨d2, k2, o, h1, h2, h3, h4, -⟩ := result_from h hr
    obtain ⟨bs, hb⟩ := World.sys_reach h
    obtain ⟨rfl, rfl⟩ := exec_unique hb (hd d) hk h1 ho h2 (hx.trans h3.symm)
    obtain ⟨ws, hws⟩ := (World.inv_run h).whole d'
    have W := Whole.inv_run _ _ ws _ hws
    obtain ⟨-, us, hu, un⟩ := Whole.chan_run _ _ ws _ hws
    have A := allInv_run _ un hu
    have Ti := timerInv_run _ hu
    obtain ⟨q, q', a, w1, w2, -⟩ := W.outcome k o h4
    have e := A.own.own q q' a w2
    subst e
    have hdone := (A.ans.result _ _ _ w2).1
    have h0 : (S.at d').chan.startedAt q' = none := hs q' w1
    rw [(A.ans.unstarted q' ((Ti.iff q').mpr h0)).1] at hdone
    cases hdone
  exact ⟨fun e => key (Or.inl e), fun e => key (Or.inr e)⟩

/-- A step leaves everything in the circle as it is. -/
theorem circle_step {as : List World.Act} {S S' : World.State} {a : World.Act}
    (h : run (World.State.step C T H R black) (World.State.init T) as = some S) (hs : S.step C T H R black a = some S')
    (hd : Distinct S) (X : Nat → Nat → Prop) (hX : ∀ d c, X d c → ∃ d' c', X d' c' ∧ Waits C S d c d' c')
    {d c d' c' : Nat} (hc' : X d' c') (hw : Waits C S d c d' c') :
    Waits C S' d c d' c' ∧ (S'.rest d).chan.handler c = (S.rest d).chan.handler c ∧
      (S'.rest d).chan.log c = (S.rest d).chan.log c ∧
      ∀ p i, (S.rest d).chan.handler c = .running p → (S.rest d).blocked p = some i → (S'.rest d).blocked p = some i := by
  have W := World.inv_run h
  have W' := World.inv_step S a S' W hs
  obtain ⟨bs, hb⟩ := World.sys_reach h
  have I := System.inv_run C H R black hb
  have busy : ∃ k, (S.rest d').chan.handler c' = .running k := by
    obtain ⟨_, _, -, p, hp, -⟩ := hX d' c' hc'
    exact ⟨p, hp⟩
  obtain ⟨p, hp, hw⟩ := hw
  obtain ⟨ws, hws⟩ := W.whole d
  obtain ⟨-, us, hu, un⟩ := Whole.chan_run _ _ ws _ hws
  have A := allInv_run _ un hu
  have Ti := timerInv_run _ hu
  rcases hw with ⟨rfl, q, h1, h2, h3⟩ | ⟨i, k, h1, h0, h2, h3, h4, h5, h6⟩
  · -- a call within the dock
    have none_blocked : ∀ p i, (S.rest d').chan.handler c = .running p → (S.rest d').blocked p = some i →
        (S'.rest d').blocked p = some i := by
      intro p2 i g1 g2
      rw [hp] at g1
      cases g1
      have := (blockInv_run _ _ ws _ hws p i g2).2.1
      have h1' : (S.at d').chan.waits p = some q := h1
      rw [h1'] at this
      cases this
    have same : (S'.rest d').chan = (S.rest d').chan → Waits C S' d' c d' c' ∧
        (S'.rest d').chan.handler c = (S.rest d').chan.handler c ∧ (S'.rest d').chan.log c = (S.rest d').chan.log c ∧
        ∀ p i, (S.rest d').chan.handler c = .running p → (S.rest d').blocked p = some i → (S'.rest d').blocked p = some i := by
      intro e
      rw [e]
      exact ⟨⟨p, by rw [e]; exact hp, Or.inl ⟨rfl, q, by rw [e]; exact ⟨h1, h2, h3⟩⟩⟩, rfl, rfl, none_blocked⟩
    have move : ∀ b, (S.rest d').chan.step (T d') b = some (S'.rest d').chan → Waits C S' d' c d' c' ∧
        (S'.rest d').chan.handler c = (S.rest d').chan.handler c ∧ (S'.rest d').chan.log c = (S.rest d').chan.log c ∧
        ∀ p i, (S.rest d').chan.handler c = .running p → (S.rest d').blocked p = some i → (S'.rest d').blocked p = some i := by
      intro b hb
      obtain ⟨⟨k1, k2, k3, k4⟩, k5⟩ := waiting_step (T d') c p q c' _ b _ A ⟨hp, h1, h3, (Ti.iff q).mpr h2⟩ busy hb
      have Ti' := timerInv_step _ _ _ _ A.ans Ti hb
      exact ⟨⟨p, k1, Or.inl ⟨rfl, q, k2, (Ti'.iff q).mp k4, k3⟩⟩, k1.trans hp.symm, k5, none_blocked⟩
    rcases World.at_step hs W.down d' with e | ⟨-, b, e, -⟩
    · exact same (show (S'.at d').chan = (S.at d').chan by rw [e])
    · rcases (Whole.step_parts e).2 with e | ⟨b, -, e⟩ | ⟨k, m, ar, pa, e⟩
      · exact same e
      · exact move _ e
      · exact move _ e
  · -- a remote call
    have B := blockInv_run _ _ ws _ hws
    have nores := no_result h hd h2 h3 h4 h6
    have hcal : ((S.rest d).chan.req p).callee = c := (A.ans.inHandler c p (by rw [show (S.at d).chan.handler c = _ from hp]; rfl)).1
    have caller : (S'.rest d).chan.handler c = .running p ∧ (S'.rest d).chan.log c = (S.rest d).chan.log c ∧
        (S'.rest d).blocked p = some i := by
      rcases World.at_step hs W.down d with e | ⟨-, b, e, -⟩
      · have e1 : (S'.rest d).chan = (S.rest d).chan := show (S'.at d).chan = (S.at d).chan by rw [e]
        have e2 : (S'.rest d).blocked = (S.rest d).blocked := show (S'.at d).blocked = (S.at d).blocked by rw [e]
        rw [e1, e2]
        exact ⟨hp, rfl, h1⟩
      · obtain ⟨b1, b2⟩ := blocked_step A B e
        have hne : b ≠ .returns i := by
          rintro rfl
          have e2 : ∃ x, (S.sys.dock d).step (C d) (.closeChan i) = some x := by
            simp only [Whole.State.step] at e
            split at e
            · cases e
            · obtain ⟨x, hx, -⟩ := Option.map_eq_some_iff.mp e
              exact ⟨x, hx⟩
          obtain ⟨x, hx⟩ := e2
          simp only [Dock.State.step] at hx
          repeat' split at hx
          all_goals first
            | (cases hx; done)
            | (rename_i hph; exact (nores _).1 hph)
        obtain ⟨g1, g2⟩ := b2 p i h1 hne
        have g3 := (b1 p i g1).1
        have hreq : ((S'.at d).chan.req p).callee = c := by
          have hpn := (B p i h1).2.2
          rcases (Whole.step_parts e).2 with e | ⟨b, -, e⟩ | ⟨k, m, ar, pa, e⟩
          · rw [e]; exact hcal
          · rw [(Whole.chan_keep e).2.1 p hpn]; exact hcal
          · rw [(Whole.chan_keep e).2.1 p hpn]; exact hcal
        rw [hreq] at g3
        have g2' : (S'.at d).chan.log c = (S.at d).chan.log c := by
          have : ((S.at d).chan.req p).callee = c := hcal
          rw [this] at g2
          exact g2
        exact ⟨g3, g2', g1⟩
    obtain ⟨c1, c2, c3⟩ := caller
    obtain ⟨⟨n1, n2⟩, -⟩ := world_dock W hs d
    obtain ⟨-, x1, x2⟩ := world_dock W hs d'
    obtain ⟨y1, y2, y3⟩ := x2 k h2
    refine ⟨⟨p, c1, Or.inr ⟨i, k, c3, by omega, by omega, ?_, ?_, ?_, ?_⟩⟩, c1.trans hp.symm, c2, ?_⟩
    · rw [y1]; exact world_owner I hs h3
    · rw [y2, h4, n2 i h0]
    · rw [y3]; exact h5
    · intro q hq
      obtain ⟨ws', hws'⟩ := W.whole d'
      have V := Whole.inv_run _ _ ws' _ hws'
      obtain ⟨-, us', hu', un'⟩ := Whole.chan_run _ _ ws' _ hws'
      have A' := allInv_run _ un' hu'
      rcases World.at_step hs W.down d' with e | ⟨-, b, e, -⟩
      · have e1 : (S'.rest d').chan = (S.rest d').chan := show (S'.at d').chan = (S.at d').chan by rw [e]
        have e2 : (S'.rest d').served = (S.rest d').served := show (S'.at d').served = (S.at d').served by rw [e]
        rw [e1]
        rw [e2] at hq
        exact h6 q hq
      · have V' := Whole.inv_step _ _ _ _ _ V e
        have old : (S.at d').chan.startedAt q = none := by
          rcases (keep_step V e).2 k q hq with e | e
          · exact h6 q e
          · exact (A'.ans.fresh q e).2.2.2.2.2.1
        have hcq : ((S'.at d').chan.req q).callee = c' := by
          have g1 := (V'.served k q hq).2.1
          have g2 := last_callee h5
          have g3 : ((S'.at d').dock.exec k).call = ((S.sys.dock d').exec k).call := y3
          rw [g3, g2] at g1
          cases g1
          rfl
        refine Classical.byContradiction fun hne => ?_
        have bad : ∀ b, (S.at d').chan.step (T d') b = some (S'.at d').chan → False := by
          intro b hb
          have := started_step A'.ans hb q old hne
          rw [hcq] at this
          obtain ⟨z, hz⟩ := busy
          have hz' : (S.at d').chan.handler c' = .running z := hz
          rw [hz'] at this
          cases this
        rcases (Whole.step_parts e).2 with e | ⟨b, -, e⟩ | ⟨k, m, ar, pa, e⟩
        · apply hne
          show (S'.at d').chan.startedAt q = none
          rw [e]
          exact old
        · exact bad _ e
        · exact bad _ e
    · intro p2 i2 g1 g2
      rw [hp] at g1
      cases g1
      rw [h1] at g2
      cases g2
      exact c3

/-- **C121.**  Let the callees in `X` wait for one another, within a dock or across docks: each of them runs a method that
waits for a call of a method of one of them which has not been started.  Then, whatever happens, as long as the clock of no
dock returns the same reading twice: each callee that waits so for one in `X` (thus each in `X`) keeps on waiting, it starts
and finishes no method, and remote calls made by the method it runs have no result. -/
theorem C121_circle (C : Nat → List Carried) (T : Nat → Nat → Chan.Target) (H R : Nat → Str) (black : List Int)
    (as more : List World.Act) (S S' : World.State)
    (h : run (World.State.step C T H R black) (World.State.init T) as = some S)
    (h' : run (World.State.step C T H R black) S more = some S') (hd : Distinct S')
    (X : Nat → Nat → Prop) (hX : ∀ d c, X d c → ∃ d' c', X d' c' ∧ Waits C S d c d' c') :
    ∀ d c d' c', X d' c' → Waits C S d c d' c' →
      Waits C S' d c d' c' ∧ (S'.rest d).chan.handler c = (S.rest d).chan.handler c ∧
      (S'.rest d).chan.log c = (S.rest d).chan.log c ∧
      ∀ p i r, (S.rest d).chan.handler c = .running p → (S.rest d).blocked p = some i →
        (S'.sys.dock d).phase i ≠ .received r ∧ (S'.sys.dock d).phase i ≠ .returned r := by
  have key : ∀ d c d' c', X d' c' → Waits C S d c d' c' → Waits C S' d c d' c' ∧
      (S'.rest d).chan.handler c = (S.rest d).chan.handler c ∧ (S'.rest d).chan.log c = (S.rest d).chan.log c ∧
      ∀ p i, (S.rest d).chan.handler c = .running p → (S.rest d).blocked p = some i → (S'.rest d).blocked p = some i := by
    induction more using List.reverseRecOn generalizing S' with
    | nil => cases h'; exact fun d c d' c' _ hw => ⟨hw, rfl, rfl, fun _ _ _ e => e⟩
    | append_singleton more a ih =>
      rw [run_append] at h'
      cases e : run (World.State.step C T H R black) S more with
      | none => rw [e] at h'; cases h'
      | some U =>
        rw [e] at h'
        have hs : U.step C T H R black a = some S' := by
          simp only [Option.bind_some, run] at h'
          cases e2 : U.step C T H R black a with
          | none => rw [e2] at h'; cases h'
          | some V => rw [e2] at h'; cases h'; rfl
        have hU : run (World.State.step C T H R black) (World.State.init T) (as ++ more) = some U := by
          rw [run_append, h]; exact e
        have hdU := distinct_back (World.inv_run hU) hs hd
        have ih := ih U e hdU
        have hXU : ∀ d c, X d c → ∃ d' c', X d' c' ∧ Waits C U d c d' c' := by
          intro d c hx
          obtain ⟨d', c', h1, h2⟩ := hX d c hx
          exact ⟨d', c', h1, (ih d c d' c' h1 h2).1⟩
        intro d c d' c' hx hw
        obtain ⟨i1, i2, i3, i4⟩ := ih d c d' c' hx hw
        obtain ⟨s1, s2, s3, s4⟩ := circle_step hU hs hdU X hXU hx i1
        exact ⟨s1, s2.trans i2, s3.trans i3, fun p i e1 e2 => s4 p i (i2.trans e1) (i4 p i e1 e2)⟩
  intro d c d' c' hx hw
  obtain ⟨k1, k2, k3, k4⟩ := key d c d' c' hx hw
  refine ⟨k1, k2, k3, fun p i r e1 e2 => ?_⟩
  have hS' : run (World.State.step C T H R black) (World.State.init T) (as ++ more) = some S' := by
    rw [run_append, h]; exact h'
  obtain ⟨ws, hws⟩ := (World.inv_run hS').whole d
  have B := blockInv_run _ _ ws _ hws
  have e2' := k4 p i e1 e2
  obtain ⟨p', hp, hw'⟩ := k1
  rw [k2, e1] at hp
  cases hp
  rcases hw' with ⟨-, q, h1, -⟩ | ⟨i', k, h1, h0, h2, h3, h4, h5, h6⟩
  · have := (B p i e2').2.1
    have h1' : (S'.at d).chan.waits p = some q := h1
    rw [h1'] at this
    cases this
  · rw [e2'] at h1
    cases h1
    exact no_result hS' hd h2 h3 h4 h6 r

end

/-! ## Example -/

/-- The method of dock 0 calls feature `b`, and both requests are received and handed to the callees. -/
def worldCross : List World.Act := worldAsk ++
  [.dock 0 (.call ⟨nameB, methM, [], true⟩ 78 (some 0)), .dock 0 (.dock (.store 0)), .dock 0 (.dock (.setReq 0)),
   .dock 0 (.dock (.commit 0)), .sys (.deliver 5), .sys (.deliver 4), .dock 0 (.invoke 0), .dock 1 (.invoke 0),
   .dock 0 (.chan (.push 1)), .dock 1 (.chan (.push 1))]

set_option synthInstance.maxSize 100000 in
set_option synthInstance.maxHeartbeats 2000000 in
/-- **C121, violated.**  Two docks whose features have called each other at the same time: neither call ever returns, and
no further method of the two features is ever started, though nothing has failed. -/
theorem C121_circle_refuted : ∃ S, run (World.State.step worldC worldT sysH sysR []) (World.State.init worldT) worldCross = some S ∧
    (S.sys.down .hub, S.sys.down (.dock 0), S.sys.down (.dock 1)) = (false, false, false) ∧
    ((S.sys.dock 0).call 0, (S.sys.dock 1).call 0) = (⟨nameB, methM, [], true⟩, ⟨nameA, methM, [], true⟩) ∧
    ∀ more S', run (World.State.step worldC worldT sysH sysR []) S more = some S' → Distinct S' → ∀ d, d < 2 →
      (S'.rest d).chan.log 0 = [.started 0] ∧ ∀ r, (S'.sys.dock d).phase 0 ≠ .received r ∧ (S'.sys.dock d).phase 0 ≠ .returned r := by
  have : ∃ S, run (World.State.step worldC worldT sysH sysR []) (World.State.init worldT) worldCross = some S ∧
      ((S.sys.down .hub, S.sys.down (.dock 0), S.sys.down (.dock 1)), ((S.sys.dock 0).call 0, (S.sys.dock 1).call 0),
       [0, 1].map fun d => ((S.sys.dock d).n, (S.sys.dock d).nx, (S.rest d).blocked 0, (S.rest d).served 0,
        ((S.rest d).chan.startedAt 1).isNone, (S.rest d).chan.handler 0, (S.rest d).chan.log 0),
       [0, 1].map fun d => (((S.sys.dock d).exec 0).call.slot, ((S.sys.dock d).exec 0).index, (S.sys.dock d).index 0,
        S.sys.owner (other ((S.sys.dock d).exec 0).peer))) =
      ((false, false, false), (⟨nameB, methM, [], true⟩, ⟨nameA, methM, [], true⟩),
       [(1, 1, some 0, some 1, true, .running 0, [.started 0]), (1, 1, some 0, some 1, true, .running 0, [.started 0])],
       [(nameA, 77, 78, some (.dock 1)), (nameB, 78, 77, some (.dock 0))]) :=
    worldWitness (by decide +kernel)
  obtain ⟨S, h, e⟩ := this
  injection e with e1 e
  injection e with e2 e
  injection e with e3 e4
  simp only [List.map_cons, List.map_nil, List.cons.injEq, Prod.mk.injEq, and_true] at e3 e4
  obtain ⟨⟨a1, a2, a3, a4, a5, a6, a7⟩, b1, b2, b3, b4, b5, b6, b7⟩ := e3
  obtain ⟨⟨c1, c2, c3, c4⟩, d1, d2, d3, d4⟩ := e4
  refine ⟨S, h, e1, e2, ?_⟩
  intro more S' h' hd
  have l0 : LastAt (worldC 0) nameA 0 := calleeOf_last (by decide +kernel)
  have l1 : LastAt (worldC 1) nameB 0 := calleeOf_last (by decide +kernel)
  have w0 : Waits worldC S 0 0 1 0 := by
    refine ⟨0, a6, Or.inr ⟨0, 0, a3, by omega, by omega, d4, by rw [d2, c3], by rw [d1]; exact l1, ?_⟩⟩
    intro q hq
    rw [b4] at hq
    cases hq
    exact Option.isNone_iff_eq_none.mp b5
  have w1 : Waits worldC S 1 0 0 0 := by
    refine ⟨0, b6, Or.inr ⟨0, 0, b3, by omega, by omega, c4, by rw [c2, d3], by rw [c1]; exact l0, ?_⟩⟩
    intro q hq
    rw [a4] at hq
    cases hq
    exact Option.isNone_iff_eq_none.mp a5
  have key := C121_circle worldC worldT sysH sysR [] worldCross more S S' h h' hd (fun d c => d < 2 ∧ c = 0) (by
    rintro d c ⟨hd, rfl⟩
    match d, hd with
    | 0, _ => exact ⟨1, 0, ⟨by omega, rfl⟩, w0⟩
    | 1, _ => exact ⟨0, 0, ⟨by omega, rfl⟩, w1⟩)
  intro d hd
  match d, hd with
  | 0, _ =>
    obtain ⟨-, -, k1, k2⟩ := key 0 0 1 0 ⟨by omega, rfl⟩ w0
    exact ⟨k1.trans a7, fun r => k2 0 0 r a6 a3⟩
  | 1, _ =>
    obtain ⟨-, -, k1, k2⟩ := key 1 0 0 0 ⟨by omega, rfl⟩ w1
    exact ⟨k1.trans b7, fun r => k2 0 0 r b6 b3⟩

set_option synthInstance.maxSize 100000 in
/-- A continuation with distinct readings of the clocks, in which dock 1 makes another call. -/
example : ∃ S, run (World.State.step worldC worldT sysH sysR []) (World.State.init worldT) (worldCross ++
      [.dock 1 (.call ⟨nameA, methM, [], true⟩ 79 none), .dock 1 (.dock (.store 1)), .dock 1 (.dock (.setReq 1)),
       .dock 1 (.dock (.commit 1)), .sys (.deliver 5), .dock 0 (.invoke 1)]) = some S ∧
    ((S.sys.dock 0).n, (S.sys.dock 1).n, (S.sys.dock 1).index 0, (S.sys.dock 1).index 1, (S.sys.dock 0).nx, (S.rest 0).served 1) =
      (1, 2, 77, 79, 2, some 2) := worldWitness (by decide +kernel)

end Verif.Props
