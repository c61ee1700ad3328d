import Verif.Hub.Shut

/-! # C105: closing a hub while packets are handled -/

namespace Verif.Props

open Verif Verif.HubShut

private theorem open_step (s : HubShut.State) (a : HubShut.Act) (s' : HubShut.State) (hA : a ≠ .nilDocks)
    (h : s.dead = false ∧ s.docks.isSome ∧ s.portsNil = false) (hs : s.step a = some s') :
    s'.dead = false ∧ s'.docks.isSome ∧ s'.portsNil = false := by
  obtain ⟨h1, h2, h3⟩ := h
  obtain ⟨t, ht⟩ := Option.isSome_iff_exists.mp h2
  unfold State.step at hs
  simp only [h1, h3, ht, Bool.false_eq_true, if_false] at hs
  cases a <;> simp only at hs
  case nilDocks => exact absurd rfl hA
  case nilPorts => simp at hs
  all_goals
    repeat' split at hs
    all_goals first
      | cases hs
        done
      | (cases hs
         refine ⟨by first | rfl | exact h1, by first | rfl | exact h2, by first | rfl | exact h3⟩)
      | (simp at hs)

/-- C105 (partial): until `Close` has got to line 48, no packet that is handled ends the process.
Missing: what happens afterwards, see `C105_register_refuted` and `C105_between_refuted`. -/
theorem C105_open_partial (as : List HubShut.Act) (s : HubShut.State) (h : run State.step State.init as = some s)
    (hn : .nilDocks ∉ as) : s.dead = false :=
  (run_inv_on (I := fun s => s.dead = false ∧ s.docks.isSome ∧ s.portsNil = false) (A := fun a => a ≠ .nilDocks)
    open_step as _ s (fun a ha e => hn (e ▸ ha)) ⟨rfl, rfl, rfl⟩ h).1

/-- A registration, a query that waits for the ready packet, and its answer. -/
example : ∃ s, run State.step State.init [.register 1 [7], .ask 0 7, .look 0, .readPort 1, .writePort 1, .lookup 1,
    .insert 1, .push 1, .respond 1, .look 0, .scan 0, .ready 1 7, .look 0, .scan 0] = some s ∧ s.query 0 = .answered :=
  ⟨_, rfl, by decide⟩

private theorem idle_step (s : HubShut.State) (a : HubShut.Act) (s' : HubShut.State) (hA : ∀ p ns, a ≠ .register p ns)
    (h : s.dead = false ∧ ∀ p, s.handler p = .idle) (hs : s.step a = some s') :
    s'.dead = false ∧ ∀ p, s'.handler p = .idle := by
  obtain ⟨h1, h2⟩ := h
  unfold State.step at hs
  simp only [h1, h2, Bool.false_eq_true, if_false] at hs
  cases a <;> simp only at hs
  case register p ns => exact absurd rfl (hA p ns)
  all_goals
    repeat' split at hs
    all_goals first
      | cases hs
        done
      | (cases hs
         exact ⟨by first | rfl | exact h1, h2⟩)

/-- C105 (partial): if no registration is being handled when `Close` gets to line 48 and none arrives afterwards, the
process goes on, whatever else arrives. -/
theorem C105_quiet_partial (pre post : List HubShut.Act) (t s : HubShut.State) (h : run State.step State.init pre = some t)
    (hn : .nilDocks ∉ pre) (ht : ∀ p, t.handler p = .idle) (h' : run State.step t post = some s)
    (hp : ∀ p ns, .register p ns ∉ post) : s.dead = false :=
  (run_inv_on (I := fun s => s.dead = false ∧ ∀ p, s.handler p = .idle) (A := fun a => ∀ p ns, a ≠ .register p ns)
    idle_step post t s (fun a ha p ns e => hp p ns (e ▸ ha)) ⟨C105_open_partial pre t h hn, ht⟩ h').1

example : ∃ t s, run State.step State.init [.register 1 [7], .readPort 1, .writePort 1, .lookup 1, .insert 1, .push 1,
    .respond 1] = some t ∧ (∀ p, t.handler p = .idle) ∧
    run State.step t [.ask 0 7, .look 0, .nilDocks, .ready 1 7, .scan 0, .look 0, .nilPorts] = some s := by
  refine ⟨_, _, rfl, fun p => ?_, rfl⟩
  by_cases e : p = 1 <;> simp [upd, State.init, e]

/-- C105 (refuted): after `Close`, every registration that is handled ends the process, at the latest when its own handler
goes on; it is never answered. -/
theorem C105_register_refuted (s : HubShut.State) (p : Nat) (ns : List Nat) (hd : s.dead = false) (hc : s.portsNil = true)
    (hi : s.handler p = .idle) (hl : s.portsLock = none) :
    ∃ s', s.step (.register p ns) = some s' ∧
      (∃ t, run State.step s' [.readPort p, .writePort p] = some t ∧ t.dead = true) ∧
      ∀ bs t, run State.step s' bs = some t → .respond p ∉ bs := by
  have h1 : s.step (.register p ns) = some { s with handler := upd s.handler p (.read ns), portsLock := some p } := by
    simp [State.step, hd, hi, hl]
  refine ⟨_, h1, ?_, ?_⟩
  · refine ⟨{ s with handler := upd (upd s.handler p (.read ns)) p (.write ns), portsLock := some p, dead := true }, ?_, rfl⟩
    simp [run, State.step, hd, hc]
  · intro bs t ht hmem
    have key : ∀ (bs : List HubShut.Act) (s0 t : HubShut.State), run State.step s0 bs = some t →
        (s0.portsNil = true ∧ (s0.handler p = .read ns ∨ s0.handler p = .write ns)) →
        t.portsNil = true ∧ (t.handler p = .read ns ∨ t.handler p = .write ns) := by
      intro bs s0 t hr h0
      refine run_inv (I := fun t => t.portsNil = true ∧ (t.handler p = .read ns ∨ t.handler p = .write ns)) ?_ bs s0 t h0 hr
      intro s a s' ⟨g1, g2⟩ hs
      unfold State.step at hs
      split at hs
      · cases hs
      cases a <;> simp only [g1, if_true] at hs
      case readPort k =>
        split at hs
        · rename_i x hx
          cases hs
          refine ⟨rfl, ?_⟩
          by_cases e : p = k
          · subst e
            simp only [upd_same, reduceCtorEq, Handler.write.injEq, false_or]
            rw [hx] at g2
            simpa using g2
          · simpa only [upd_other _ _ e] using g2
        · cases hs
      all_goals
        repeat' split at hs
        all_goals first
          | cases hs
            done
          | (cases hs
             refine ⟨by first | rfl | exact g1, ?_⟩
             first
              | exact g2
              | (simp only [upd]
                 split
                 · rename_i e; subst e; simp_all
                 · exact g2))
    obtain ⟨pre, post, rfl⟩ := List.append_of_mem hmem
    rw [run_append] at ht
    obtain ⟨u, g1, g2⟩ := Option.bind_eq_some_iff.mp ht
    have hu := (key pre _ u g1 ⟨hc, Or.inl (by simp)⟩).2
    simp only [run] at g2
    split at g2
    · cases g2
    · rename_i v hv
      unfold State.step at hv
      split at hv
      · cases hv
      · rcases hu with hu | hu <;> simp [hu] at hv

example : ∃ s, run State.step State.init [.nilDocks, .nilPorts] = some s ∧ s.dead = false ∧ s.portsNil = true ∧
    s.handler 1 = .idle ∧ s.portsLock = none := ⟨_, rfl, rfl, rfl, rfl, rfl⟩

/-- C105 (refuted): a registration that came before `Close` ends the process if `Close` comes between the lookup and the
write to the table, lines 74 and 77, even though the lookup saw the table. -/
theorem C105_between_refuted : ∃ as s, run State.step State.init as = some s ∧ s.dead = true ∧
    ∃ pre post, as = pre ++ .nilDocks :: post ∧ (∀ p ns, .register p ns ∉ post) ∧ .lookup 1 ∈ pre :=
  ⟨[.register 1 [7], .readPort 1, .writePort 1, .lookup 1, .nilDocks, .insert 1], _, rfl, rfl,
    [.register 1 [7], .readPort 1, .writePort 1, .lookup 1], [.insert 1], rfl, by simp, by decide⟩

/-- C105 (refuted): a query that is in its loop when the table is set to nil goes round for ever; its goroutine never
ends. -/
theorem C105_spin_refuted (s : HubShut.State) (q n : Nat) (hc : s.docks = none) (hq : s.query q = .top n)
    (bs : List HubShut.Act) (t : HubShut.State) (h : run State.step s bs = some t) : t.query q = .top n := by
  refine (run_inv (I := fun s => s.docks = none ∧ s.query q = .top n) ?_ bs s t ⟨hc, hq⟩ h).2
  intro s a s' ⟨h1, h2⟩ hs
  unfold State.step at hs
  split at hs
  · cases hs
  cases a <;> simp only [h1] at hs
  all_goals
    repeat' split at hs
    all_goals first
      | cases hs
        done
      | (cases hs
         refine ⟨by first | rfl | exact h1, ?_⟩
         first
          | exact h2
          | (simp only [upd]
             split
             · rename_i e; subst e; simp_all
             · exact h2))
      | (simp at hs)

example : ∃ s, run State.step State.init [.ask 0 7, .look 0, .nilDocks, .look 0] = some s ∧ s.docks = none ∧
    s.query 0 = .top 7 := ⟨_, rfl, rfl, rfl⟩

end Verif.Props
