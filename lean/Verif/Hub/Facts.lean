import Verif.Hub.Hub

/-!
# Facts about the hub: ports
-/

namespace Verif.Hub

open Verif Verif.Proto

/-- A port that may be handed out. -/
def Free (black : List Int) (p : Nat) : Prop := 20000 < p ∧ (p : Int) ∉ black

instance (black : List Int) (p : Nat) : Decidable (Free black p) := by unfold Free; infer_instance

/-- The number of ports up to `p` that may be handed out. -/
def rank (black : List Int) (p : Nat) : Nat := ((List.range (p + 1)).filter (Free black)).length

theorem rank_succ (black : List Int) (p : Nat) :
    rank black (p + 1) = rank black p + if Free black (p + 1) then 1 else 0 := by
  unfold rank
  rw [List.range_succ (n := p + 1), List.filter_append, List.length_append]
  by_cases h : Free black (p + 1) <;> simp [h]

theorem rank_origin (black : List Int) (p : Nat) (h : p ≤ 20000) : rank black p = 0 := by
  unfold rank
  rw [List.length_eq_zero_iff, List.filter_eq_nil_iff]
  intro a ha
  simp only [List.mem_range] at ha
  simp only [decide_eq_true_eq]
  intro hf
  have := hf.1
  omega

theorem rank_mono (black : List Int) {p q : Nat} (h : p ≤ q) : rank black p ≤ rank black q := by
  induction h with
  | refl => exact Nat.le_refl _
  | step _ ih => rw [rank_succ]; exact Nat.le_trans ih (Nat.le_add_right ..)

/-- The `n`-th port that may be handed out is determined by `n`. -/
theorem rank_inj (black : List Int) {p q : Nat} (hp : Free black p) (hq : Free black q)
    (h : rank black p = rank black q) : p = q := by
  have key : ∀ {p q : Nat}, Free black q → p < q → rank black p < rank black q := by
    intro p q hq hlt
    cases q with
    | zero => omega
    | succ q =>
      rw [rank_succ, if_pos hq]
      have := rank_mono black (Nat.le_of_lt_succ hlt)
      omega
  rcases Nat.lt_trichotomy p q with hlt | e | hlt
  · have := key hq hlt; omega
  · exact e
  · have := key hp hlt; omega

theorem rank_skip (black : List Int) (b : Nat) : ∀ d, 20000 ≤ b → (∀ r, b < r → r ≤ b + d → (r : Int) ∈ black) →
    rank black (b + d) = rank black b := by
  intro d
  induction d with
  | zero => intros; rfl
  | succ d ih =>
    intro hb h
    rw [← Nat.add_assoc, rank_succ, if_neg, ih hb fun r h1 h2 => h r h1 (by omega)]
    · rfl
    · intro hf
      exact hf.2 (h _ (by omega) (by omega))

/-- What the loop of `allocate` finds. -/
theorem nextPortAux_spec (black : List Int) : ∀ f (port : Nat), (port = 0 ∨ 20000 < port) →
    (black.filter (fun b => decide ((port : Int) < b))).length < f →
    let base := if port = 0 then 20000 else port
    let q := nextPortAux black f port
    base < q ∧ (q : Int) ∉ black ∧ ∀ r, base < r → r < q → (r : Int) ∈ black := by
  intro f
  induction f with
  | zero => intro port _ h; omega
  | succ f ih =>
    intro port hp hf
    dsimp only
    unfold nextPortAux
    dsimp only [cOriginPort]
    generalize hb : (if port = 0 then 20000 else port) = base
    have hpb : port ≤ base ∧ 20000 ≤ base := by split at hb <;> omega
    split
    · rename_i hm
      have hlen : (black.filter (fun b => decide (((base + 1 : Nat) : Int) < b))).length < f := by
        have : (black.filter (fun b => decide (((base + 1 : Nat) : Int) < b))).length
            < (black.filter (fun b => decide ((port : Int) < b))).length := by
          have hsub : (black.filter (fun b => decide (((base + 1 : Nat) : Int) < b)))
              = (black.filter (fun b => decide ((port : Int) < b))).filter
                (fun b => decide (((base + 1 : Nat) : Int) < b)) := by
            rw [List.filter_filter]
            apply List.filter_congr
            intro x _
            by_cases hx : ((base + 1 : Nat) : Int) < x
            · have : (port : Int) < x := by omega
              simp [hx, this]
            · simp [hx]; intro; omega
          rw [hsub, List.length_filter_lt_length_iff_exists]
          refine ⟨((base + 1 : Nat) : Int), ?_, by simp⟩
          rw [List.mem_filter]
          refine ⟨hm, ?_⟩
          have : (port : Int) < ((base + 1 : Nat) : Int) := by omega
          simpa using this
        omega
      have := ih (base + 1) (by omega) hlen
      dsimp only at this
      rw [if_neg (by omega)] at this
      obtain ⟨h1, h2, h3⟩ := this
      refine ⟨by omega, h2, ?_⟩
      intro r hr hr'
      by_cases e : r = base + 1
      · rw [e]; exact hm
      · exact h3 r (by omega) hr'
    · rename_i hm
      exact ⟨by omega, hm, fun r h1 h2 => by omega⟩

theorem nextPort_spec (black : List Int) (port : Nat) (h : port = 0 ∨ 20000 < port) :
    Free black (nextPort black port) ∧ rank black (nextPort black port) = rank black port + 1 := by
  have := nextPortAux_spec black (black.length + 1) port h
    (Nat.lt_succ_of_le (List.length_filter_le ..))
  dsimp only at this
  unfold nextPort
  generalize nextPortAux black (black.length + 1) port = q at *
  generalize hb : (if port = 0 then 20000 else port) = base at *
  obtain ⟨h1, h2, h3⟩ := this
  have hbase : 20000 ≤ base := by split at hb <;> omega
  have hf : Free black q := ⟨by omega, h2⟩
  refine ⟨hf, ?_⟩
  have hrb : rank black base = rank black port := by
    split at hb
    · subst hb; rename_i e; rw [e, rank_origin _ _ (Nat.le_refl _), rank_origin _ _ (Nat.zero_le _)]
    · rw [hb]
  obtain ⟨d, rfl⟩ : ∃ d, q = base + d + 1 := ⟨q - base - 1, by omega⟩
  rw [rank_succ, if_pos hf, rank_skip black base d hbase fun r a b => h3 r a (by omega), hrb]

/-- The ports allocated to the peers selected by `sel`, in order. -/
def grants (sel : Nat → Bool) (log : List Ev) : List Nat :=
  log.filterMap fun
    | .register p _ port => if sel p then some port else none
    | _ => none

@[simp] theorem grants_append (sel : Nat → Bool) (a b : List Ev) : grants sel (a ++ b) = grants sel a ++ grants sel b := by
  simp [grants]

/-- The port counters. -/
structure PortInv (R : Nat → Str) (black : List Int) (s : State) : Prop where
  counter : ∀ h, (s.ports h = 0 ∨ 20000 < s.ports h)
  count : ∀ h, rank black (s.ports h) = (grants (fun p => pickIP (R p) = h) s.log).length
  granted : ∀ h (n : Nat) (port : Nat), (grants (fun p => pickIP (R p) = h) s.log)[n]? = some port →
    Free black port ∧ rank black port = n + 1 ∧ port ≤ 49000

theorem portInv_same {R : Nat → Str} {black : List Int} {s t : State} (I : PortInv R black s)
    (h1 : t.ports = s.ports) (h2 : ∀ sel, grants sel t.log = grants sel s.log) : PortInv R black t := by
  constructor
  · rw [h1]; exact I.counter
  · intro h; rw [h1, h2]; exact I.count h
  · intro h n p e; rw [h2] at e; exact I.granted h n p e

theorem portInv_step (R : Nat → Str) (black : List Int) (s : State) (a : Act) (t : State) (I : PortInv R black s)
    (h : s.step R black a = some t) : PortInv R black t := by
  unfold State.step at h
  split at h
  · cases h
  cases a with
  | recv p pkt =>
    simp only at h
    split at h
    · split at h
      · split at h
        · cases h; exact portInv_same I rfl fun _ => rfl
        · rename_i slots hle
          cases h
          have sp := nextPort_spec black (s.ports (pickIP (R p))) (I.counter _)
          have hle' : nextPort black (s.ports (pickIP (R p))) ≤ 49000 := by
            simpa [cMaxPortRange] using hle
          constructor
          · intro h
            simp only [upd]
            split
            · exact .inr sp.1.1
            · exact I.counter h
          · intro h
            have hc := I.count h
            by_cases e : h = pickIP (R p)
            · subst e; simp [grants_append, upd]; rw [sp.2, hc]; simp [grants]
            · simp [grants_append, upd, e]; rw [hc]; simp [grants]; exact fun x => e x.symm
          · intro h n port hn
            simp only [grants_append] at hn
            have hc := I.count h
            by_cases e : h = pickIP (R p)
            · subst e
              rcases Nat.lt_or_ge n (grants (fun q => pickIP (R q) = pickIP (R p)) s.log).length with hlt | hge
              · rw [List.getElem?_append_left hlt] at hn
                exact I.granted _ n port hn
              · rw [List.getElem?_append_right hge] at hn
                simp only [grants, List.filterMap_cons, List.filterMap_nil, decide_true, if_true] at hn
                rw [List.getElem?_singleton] at hn
                split at hn
                · rename_i hz
                  cases hn
                  refine ⟨sp.1, ?_, hle'⟩
                  rw [sp.2, hc]
                  have : n = (grants (fun q => pickIP (R q) = pickIP (R p)) s.log).length :=
                    Nat.le_antisymm (Nat.sub_eq_zero_iff_le.mp hz) hge
                  omega
                · cases hn
            · have e' : ¬ pickIP (R p) = h := fun x => e x.symm
              have : grants (fun q => decide (pickIP (R q) = h))
                  [Ev.register p slots (nextPort black (s.ports (pickIP (R p))))] = [] := by
                simp [grants, e']
              rw [this, List.append_nil] at hn
              exact I.granted h n port hn
      all_goals (cases h; exact portInv_same I rfl fun _ => by simp [grants])
    · cases h
  | _ =>
    simp only at h
    repeat' split at h
    all_goals (cases h; try exact portInv_same I rfl fun _ => by simp [grants])

theorem portInv_run (R : Nat → Str) (black : List Int) {acts : List Act} {s : State}
    (h : run (State.step R black) .init acts = some s) : PortInv R black s :=
  run_inv (I := PortInv R black) (portInv_step R black) acts _ _
    ⟨fun _ => .inl rfl, fun _ => rank_origin _ _ (Nat.zero_le _),
      fun _ _ _ e => by simp [State.init, grants] at e⟩ h

end Verif.Hub
