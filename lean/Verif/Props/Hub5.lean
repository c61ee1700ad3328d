import Verif.Props.System1

/-!
# C144: the hub's own port

The hub listens on a port of its host (hub.go:141-142) and gives the docks ports to listen on (hub.go:145-168,
dock.go:137-142).  Listening on a port of the host that is already in use ends the process (socket.go:29-33).  The hub
knows its own port, but does not look at it when it gives out ports; only the black list is looked at.
-/

namespace Verif.Props

open Verif Verif.Proto Verif.Hub

/-- C144: the hub gives its own port `own` to a dock on the host `host` exactly if this port is one that may be handed
out, and at least as many docks on the host have registered as there are such ports up to it. -/
theorem C144_exact_partial (R : Nat → Str) (black : List Int) (acts : List Act) (s : State)
    (h : run (State.step R black) .init acts = some s) (host : Str) (own : Nat) :
    (∃ p slots, pickIP (R p) = host ∧ Ev.register p slots own ∈ s.log) ↔
      20000 < own ∧ own ≤ 49000 ∧ (own : Int) ∉ black ∧
      ((List.range (own + 1)).filter fun r : Nat => 20000 < r ∧ (r : Int) ∉ black).length ≤
        (s.log.filter fun | .register p _ _ => pickIP (R p) = host | _ => false).length := by
  have I := portInv_run R black h
  have el : (s.log.filter fun | .register p _ _ => pickIP (R p) = host | _ => false).length
      = (grants (fun p => pickIP (R p) = host) s.log).length := by
    generalize s.log = l
    induction l with
    | nil => rfl
    | cons e l ih =>
      cases e with
      | register p ss n =>
        by_cases hp : pickIP (R p) = host
        · simpa [grants, hp] using ih
        · simpa [grants, hp] using ih
      | _ => simpa [grants] using ih
  have em : (∃ p slots, pickIP (R p) = host ∧ Ev.register p slots own ∈ s.log) ↔
      own ∈ grants (fun p => pickIP (R p) = host) s.log := by
    unfold grants
    rw [List.mem_filterMap]
    constructor
    · rintro ⟨p, ss, hp, hm⟩
      exact ⟨_, hm, by simp [hp]⟩
    · rintro ⟨e, hm, he⟩
      cases e with
      | register p ss n =>
        by_cases hp : pickIP (R p) = host
        · simp [hp] at he
          subst he
          exact ⟨p, ss, hp, hm⟩
        · simp [hp] at he
      | _ => simp at he
  rw [em, el]
  constructor
  · intro hm
    obtain ⟨n, hn⟩ := List.mem_iff_getElem?.mp hm
    obtain ⟨h1, h2, h3⟩ := I.granted host n own hn
    refine ⟨h1.1, h3, h1.2, ?_⟩
    have h4 : n < (grants (fun p => pickIP (R p) = host) s.log).length := by
      obtain ⟨h, _⟩ := List.getElem?_eq_some_iff.mp hn
      exact h
    show rank black own ≤ _
    omega
  · rintro ⟨h1, h2, h3, h4⟩
    replace h4 : rank black own ≤ (grants (fun p => pickIP (R p) = host) s.log).length := h4
    have hf : Free black own := ⟨h1, h3⟩
    have hpos : 0 < rank black own := by
      cases own with
      | zero => omega
      | succ o => rw [rank_succ, if_pos hf]; omega
    have hlt : rank black own - 1 < (grants (fun p => pickIP (R p) = host) s.log).length := by omega
    have hg := List.getElem?_eq_getElem hlt
    obtain ⟨g1, g2, _⟩ := I.granted host _ _ hg
    have := rank_inj black hf g1 (by omega)
    rw [this]
    exact List.getElem_mem hlt

/-- The hub listens on 20002, the first port is in the black list, and one dock has registered. -/
example : ∃ s, run (State.step (fun _ => [97, 58, 53]) [20001]) .init (hubRegister 0) = some s ∧
    20002 ∈ grants (fun _ => true) s.log := by
  cases hr : run (State.step (fun _ => [97, 58, 53]) [20001]) .init (hubRegister 0) with
  | none =>
    have h : (run (State.step (fun _ => [97, 58, 53]) [20001]) .init (hubRegister 0)).isSome = true := by decide +kernel
    rw [hr] at h; cases h
  | some s =>
    have h : (run (State.step (fun _ => [97, 58, 53]) [20001]) .init (hubRegister 0)).map
        (fun s => grants (fun _ => true) s.log) = some [20002] := by decide +kernel
    rw [hr] at h
    refine ⟨s, rfl, ?_⟩
    have h2 : grants (fun _ => true) s.log = [20002] := Option.some.inj h
    rw [h2]
    simp

/-- C144 for the whole system: if the hub's port is outside the range of the ports for docks, or in the black list, then
no dock is told to listen on it. -/
theorem C144_apart_partial (C : Nat → List Dock.Carried) (H : Nat → Str) (R : Nat → Str) (black : List Int)
    (acts : List System.Act) (S : System.State)
    (h : run (System.State.step C H R black) .init acts = some S) (own : Nat)
    (ho : own ≤ 20000 ∨ 49000 < own ∨ (own : Int) ∈ black) (d : Nat) (x : BitVec 64) (hx : x ∈ (S.dock d).ports) :
    x.toNat ≠ own := by
  intro e
  have I := System.inv_run C H R black h
  obtain ⟨p, hp⟩ := ((System.dock_inv I d).1.ports x).mp hx
  obtain ⟨_, _, h3, ss, n, h4, _, h5⟩ := port_registered I hp
  obtain ⟨as, hr⟩ := I.parts.hub
  obtain ⟨g1, g2, g3, _⟩ := (C144_exact_partial R black as _ hr (H d) n).mp ⟨_, ss, h3, h4⟩
  have en : n = own := by omega
  subst en
  rcases ho with ho | ho | ho
  · omega
  · omega
  · exact g3 ho

/-- The hub of the example listens on 55555, and two docks have got their ports. -/
example : ∃ S, run (System.State.step sysC (fun _ => [98]) (fun _ => [98, 58, 49]) []) .init twinActs = some S ∧
    ((S.dock 0).ports, (S.dock 1).ports, decide (49000 < 55555)) = ([20001], [20002], true) :=
  sysWitness (by decide +kernel)

/-- C144 does not hold: a hub listens on port 20002 of a host, two docks on the same host start, and the second one is
told to listen on port 20002.  (It cannot, and its process ends, socket.go:29-33.) -/
theorem C144_refuted : ∃ (own : BitVec 64) (S : System.State), own.toNat = 20002 ∧
    run (System.State.step sysC (fun _ => [98]) (fun _ => [98, 58, 49]) []) .init twinActs = some S ∧
    own ∈ (S.dock 1).ports := by
  obtain ⟨S, h1, h2⟩ : ∃ S, run (System.State.step sysC (fun _ => [98]) (fun _ => [98, 58, 49]) []) .init twinActs
      = some S ∧ (S.dock 1).ports = [20002] := sysWitness (by decide +kernel)
  exact ⟨20002, S, by decide, h1, by rw [h2]; simp⟩

end Verif.Props
