import Verif.Props.Hub5

/-!
# C146: a hub that is started again

The ports given out are kept in memory only (hub.go:22-28).  A hub that is started again, or a second hub, begins with the
first port of every host, while docks that registered before go on listening.
-/

namespace Verif.Props

open Verif Verif.Proto Verif.Hub

/-- The hub has given this port to a dock on the host.  History of /repo/hub.go:66-91. -/
def GivenOn (R : Nat → Str) (s : State) (host : Str) (port : Nat) : Prop :=
  ∃ p slots, pickIP (R p) = host ∧ Ev.register p slots port ∈ s.log

/-- C146, with the black list that avoids the trouble: if the ports that the first hub `s` gave to docks on the host are in
the black list of the second hub `t`, then no port is given by both. -/
theorem C146_apart_partial (R R' : Nat → Str) (black' : List Int) (acts' : List Act) (s t : State)
    (ht : run (State.step R' black') .init acts' = some t)
    (host : Str) (hb : ∀ port, GivenOn R s host port → (port : Int) ∈ black') (port : Nat)
    (h1 : GivenOn R s host port) : ¬ GivenOn R' t host port := by
  intro h2
  exact ((C144_exact_partial R' black' acts' t ht host port).mp h2).2.2.1 (hb port h1)

private theorem least_free (black : List Int) : ∀ (n : Nat) (p : Nat), p ≤ n → Free black p →
    ∃ q, q ≤ p ∧ Free black q ∧ rank black q = 1 := by
  intro n
  induction n with
  | zero => intro p hp hf; have := hf.1; omega
  | succ n ih =>
    intro p hp hf
    by_cases h : ∃ r, r < p ∧ Free black r
    · obtain ⟨r, hr, hfr⟩ := h
      obtain ⟨q, h1, h2⟩ := ih r (by omega) hfr
      exact ⟨q, by omega, h2⟩
    · refine ⟨p, Nat.le_refl _, hf, ?_⟩
      cases p with
      | zero => have := hf.1; omega
      | succ p =>
        have h0 : rank black p = 0 := by
          unfold rank
          rw [List.length_eq_zero_iff, List.filter_eq_nil_iff]
          intro a ha hfa
          simp only [List.mem_range] at ha
          exact h ⟨a, ha, by simpa using hfa⟩
        rw [rank_succ, if_pos hf, h0]

/-- C146 fails always: whenever a dock on some host has registered with a hub, and a dock on the same host registers with the
hub after it was started again with the same black list, then there is a port that both hubs have given to docks on this
host. -/
theorem C146_always (R R' : Nat → Str) (black : List Int) (acts acts' : List Act) (s t : State)
    (hs : run (State.step R black) .init acts = some s) (ht : run (State.step R' black) .init acts' = some t)
    (host : Str) (port port' : Nat) (h1 : GivenOn R s host port) (h2 : GivenOn R' t host port') :
    ∃ q, GivenOn R s host q ∧ GivenOn R' t host q := by
  have e1 := (C144_exact_partial R black acts s hs host port).mp h1
  have e2 := (C144_exact_partial R' black acts' t ht host port').mp h2
  obtain ⟨q, g1, g2, g3⟩ := least_free black port port (Nat.le_refl _) ⟨e1.1, e1.2.2.1⟩
  have le : ∀ p, Free black p → 1 ≤ rank black p := by
    intro p hf
    cases p with
    | zero => have := hf.1; omega
    | succ p => rw [rank_succ, if_pos hf]; omega
  have l1 := Nat.le_trans (le port ⟨e1.1, e1.2.2.1⟩) e1.2.2.2
  have l2 := Nat.le_trans (le port' ⟨e2.1, e2.2.2.1⟩) e2.2.2.2
  have hq : rank black q ≤ 1 := Nat.le_of_eq g3
  have gq : 20000 < q ∧ q ≤ 49000 ∧ (q : Int) ∉ black := ⟨g2.1, by omega, g2.2⟩
  exact ⟨q, (C144_exact_partial R black acts s hs host q).mpr ⟨gq.1, gq.2.1, gq.2.2, Nat.le_trans hq l1⟩,
    (C144_exact_partial R' black acts' t ht host q).mpr ⟨gq.1, gq.2.1, gq.2.2, Nat.le_trans hq l2⟩⟩

private theorem given_of {R : Nat → Str} {black : List Int} {acts : List Act} {port : Nat}
    (h : (run (State.step R black) .init acts).map (fun s => grants (fun p => pickIP (R p) = pickIP (R 0)) s.log) = some [port]) :
    ∃ s, run (State.step R black) .init acts = some s ∧ GivenOn R s (pickIP (R 0)) port := by
  cases hr : run (State.step R black) .init acts with
  | none => rw [hr] at h; cases h
  | some s =>
    rw [hr] at h
    have h2 : grants (fun p => pickIP (R p) = pickIP (R 0)) s.log = [port] := Option.some.inj h
    refine ⟨s, rfl, ?_⟩
    have hm : port ∈ grants (fun p => pickIP (R p) = pickIP (R 0)) s.log := by rw [h2]; simp
    unfold grants at hm
    rw [List.mem_filterMap] at hm
    obtain ⟨e, hm, he⟩ := hm
    cases e with
    | register p ss n =>
      by_cases hp : pickIP (R p) = pickIP (R 0)
      · simp [hp] at he
        subst he
        exact ⟨p, ss, hp, hm⟩
      · simp [hp] at he
    | _ => simp at he

/-- C146 does not hold: the hub gives port 20001 to a dock on the host "a", is started again, and gives the same port to
another dock on this host. -/
theorem C146_refuted : ∃ s t, run (State.step (fun _ => [97, 58, 53]) []) .init (hubRegister 0) = some s ∧
    run (State.step (fun _ => [97, 58, 54]) []) .init (hubRegister 0) = some t ∧
    GivenOn (fun _ => [97, 58, 53]) s [97] 20001 ∧ GivenOn (fun _ => [97, 58, 54]) t [97] 20001 := by
  obtain ⟨s, h1, h2⟩ := given_of (R := fun _ => [97, 58, 53]) (black := []) (acts := hubRegister 0) (port := 20001)
    (by decide +kernel)
  obtain ⟨t, h3, h4⟩ := given_of (R := fun _ => [97, 58, 54]) (black := []) (acts := hubRegister 0) (port := 20001)
    (by decide +kernel)
  exact ⟨s, t, h1, h3, h2, h4⟩

/-- With this port in its black list the second hub gives another one. -/
example : ∃ s, run (State.step (fun _ => [97, 58, 53]) [20001]) .init (hubRegister 0) = some s ∧
    GivenOn (fun _ => [97, 58, 53]) s (pickIP [97, 58, 53]) 20002 := given_of (by decide +kernel)

end Verif.Props
