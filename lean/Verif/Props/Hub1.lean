import Verif.Hub.Hist

/-!
# C47 to C53: the hub
-/

namespace Verif.Props

open Verif Verif.Proto Verif.Hub

/-! ## A run used as an example

Peer 0 (at host a) registers "a", peer 1 (at host b) registers "a", peer 2 asks for "a". -/

/-- "a:5", "b:5", … -/
def hubAddrs (p : Nat) : Str := [BitVec.ofNat 8 (97 + p), 58, 53]

/-- The slot name "a". -/
def slotA : Str := [97]

/-- A dock registers feature `a` and the hub answers. -/
def hubRegister (p : Nat) : List Act := [.recv p (.registerRequest [slotA]), .work p, .work p]
/-- A dock reports feature `a` as ready. -/
def hubReady (p : Nat) : List Act := [.recv p (.ready [slotA]), .work p, .work p]
/-- A dock asks where feature `a` is. -/
def hubAsk (p : Nat) : Act := .recv p (.queryRequest slotA)

/-! ## C47 -/

theorem ports_unique (R : Nat → Str) (black : List Int) (acts : List Act) (s : State)
    (h : run (State.step R black) .init acts = some s)
    (pre mid post : List Ev) (p q : Nat) (slots slots' : List Str) (port port' : Nat)
    (e : s.log = pre ++ .register p slots port :: mid ++ .register q slots' port' :: post)
    (hh : pickIP (R q) = pickIP (R p)) : port ≠ port' := by
  have I := portInv_run R black h
  have eg : grants (fun r => pickIP (R r) = pickIP (R p)) s.log
      = grants (fun r => pickIP (R r) = pickIP (R p)) pre ++
        port :: (grants (fun r => pickIP (R r) = pickIP (R p)) mid ++
          port' :: grants (fun r => pickIP (R r) = pickIP (R p)) post) := by
    rw [e]; simp [grants, hh]
  have h1 := I.granted (pickIP (R p)) (grants (fun r => pickIP (R r) = pickIP (R p)) pre).length port (by
    rw [eg, List.getElem?_append_right (Nat.le_refl _)]; simp)
  have h2 := I.granted (pickIP (R p)) ((grants (fun r => pickIP (R r) = pickIP (R p)) pre).length + 1 +
      (grants (fun r => pickIP (R r) = pickIP (R p)) mid).length) port' (by
    rw [eg, List.getElem?_append_right (by omega)]
    have : ∀ a b : Nat, a + 1 + b - a = b + 1 := fun a b => by omega
    rw [this, List.getElem?_cons_succ, List.getElem?_append_right (Nat.le_refl _)]
    simp)
  intro e
  rw [e] at h1
  omega

/-- C47, first part: the ports given to two register requests of peers with the same host differ. -/
theorem C47_ports_unique (R : Nat → Str) (black : List Int) (acts : List Act) (s : State)
    (h : run (State.step R black) .init acts = some s)
    (pre mid post : List Ev) (p q : Nat) (slots slots' : List Str) (port port' : Nat)
    (e : s.log = pre ++ .register p slots port :: mid ++ .register q slots' port' :: post)
    (host x y : Str) (hp : R p = host ++ colon :: x) (hq : R q = host ++ colon :: y) : port ≠ port' := by
  refine ports_unique R black acts s h pre mid post p q slots slots' port port' e ?_
  unfold pickIP
  rw [hp, hq]
  exact firstSegment_host _ _ _

/-- C47, second part: the range of the ports. -/
theorem C47_ports_in_range (R : Nat → Str) (black : List Int) (acts : List Act) (s : State)
    (h : run (State.step R black) .init acts = some s) (p : Nat) (slots : List Str) (port : Nat)
    (e : Ev.register p slots port ∈ s.log) : 20000 < port ∧ port ≤ 49000 ∧ (port : Int) ∉ black := by
  have I := portInv_run R black h
  have : port ∈ grants (fun r => pickIP (R r) = pickIP (R p)) s.log := by
    unfold grants
    rw [List.mem_filterMap]
    exact ⟨_, e, by simp⟩
  obtain ⟨n, hn⟩ := List.mem_iff_getElem?.mp this
  obtain ⟨h1, _, h3⟩ := I.granted _ n port hn
  exact ⟨h1.1, h3, h1.2⟩

/-- Two docks on one host, with a black-listed port between theirs. -/
example : ∃ acts s, run (State.step (fun _ => [49, 58, 53]) [20002]) .init acts = some s ∧
    s.log[0]? = some (.register 0 [slotA] 20001) ∧ s.log[3]? = some (.register 1 [slotA] 20003) :=
  ⟨hubRegister 0 ++ hubRegister 1, _, rfl, rfl, rfl⟩

/-! ## C48 -/

/-- C48, first part: the `n`-th port given to a host (counting from 0) may be handed out, and exactly `n + 1` ports
up to it may be; so it is the next one.  `host` is the host as the hub sees it, see C53. -/
theorem C48_nth_free_port (R : Nat → Str) (black : List Int) (acts : List Act) (s : State)
    (h : run (State.step R black) .init acts = some s) (host : Str) (n port : Nat)
    (hn : (grants (fun p => pickIP (R p) = host) s.log)[n]? = some port) :
    20000 < port ∧ (port : Int) ∉ black ∧
      ((List.range (port + 1)).filter fun r : Nat => 20000 < r ∧ (r : Int) ∉ black).length = n + 1 := by
  obtain ⟨h1, h2, _⟩ := (portInv_run R black h).granted host n port hn
  refine ⟨h1.1, h1.2, ?_⟩
  rw [← h2]
  rfl

/-- C48, second part: the hub exits exactly when a register request arrives from a host that has been given all
ports up to 49000. -/
theorem C48_exit (R : Nat → Str) (black : List Int) (acts : List Act) (s : State)
    (h : run (State.step R black) .init acts = some s) (a : Act) (t : State) (ht : s.step R black a = some t) :
    t.dead = true ↔ ∃ p slots, ∃ port : Nat, a = .recv p (.registerRequest slots) ∧ 49000 < port ∧ (port : Int) ∉ black ∧
      ((List.range (port + 1)).filter fun r : Nat => 20000 < r ∧ (r : Int) ∉ black).length
        = (grants (fun q => pickIP (R q) = pickIP (R p)) s.log).length + 1 := by
  have I := portInv_run R black h
  unfold State.step at ht
  split at ht
  · cases ht
  rename_i hd
  have hd : s.dead = false := by simpa using hd
  cases a with
  | recv p pkt =>
    simp only at ht
    split at ht
    · split at ht
      · rename_i slots
        have sp := nextPort_spec black (s.ports (pickIP (R p))) (I.counter _)
        have hc := I.count (pickIP (R p))
        split at ht
        · rename_i hgt
          cases ht
          refine ⟨fun _ => ⟨p, slots, _, rfl, hgt, sp.1.2, ?_⟩, fun _ => rfl⟩
          rw [← hc, ← sp.2]
          rfl
        · rename_i hle
          cases ht
          constructor
          · intro e; exact absurd (hd ▸ e) (by simp)
          · rintro ⟨q, slots', port, e, h1, h2, h3⟩
            cases e
            exfalso
            have hf : Free black port := ⟨by omega, h2⟩
            have : port = nextPort black (s.ports (pickIP (R p))) := by
              refine rank_inj black hf sp.1 ?_
              rw [sp.2, hc]
              exact h3
            exact hle (this ▸ h1)
      all_goals
        cases ht
        constructor
        · intro e; exact absurd (hd ▸ e) (by simp)
        · rintro ⟨_, _, _, e, _⟩; simp_all
    · cases ht
  | _ =>
    simp only at ht
    repeat' split at ht
    all_goals
      cases ht
      try
        constructor
        · intro e; exact absurd (hd ▸ e) (by simp)
        · rintro ⟨_, _, _, e, _⟩; cases e

/-- Two hosts are served independently. -/
example : ∃ acts s, run (State.step hubAddrs [20001, 20003]) .init acts = some s ∧
    grants (fun p => pickIP (hubAddrs p) = pickIP (hubAddrs 0)) s.log = [20002, 20004] ∧
    grants (fun p => pickIP (hubAddrs p) = pickIP (hubAddrs 1)) s.log = [20002] :=
  ⟨hubRegister 0 ++ hubRegister 1 ++ hubRegister 0, _, rfl, rfl, rfl⟩

end Verif.Props
