import Verif.Props.System3
import Verif.Props.Dock6
import Verif.Props.Hub3

/-!
# C87: the start of the features in a system of unmodified processes
-/

namespace Verif.Props

open Verif Verif.Codec Verif.Proto Verif.System
open Verif.Dock (Carried LastNamed)

variable (C : Nat → List Carried) (H : Nat → Str) (R : Nat → Str) (black : List Int)

/-! ## A dock has one connection to the hub -/

theorem doCommit_peers (s : Dock.State) (i : Nat) : (s.doCommit i).peers = s.peers :=
  (Dock.doCommit_same s i).2.2.2.2.2.2.2.2.2.1

/-- What a step of a dock does to its peers. -/
theorem peers_step (cs : List Carried) (s : Dock.State) (a : Dock.Act) (t : Dock.State) (h : s.step cs a = some t) :
    t.peers = s.peers ∨ (∃ e, a = .dialHub e ∧ s.peers = [] ∧ t.peers = [(e, .hub)]) ∨
      ∃ e k, k ≠ .hub ∧ (∀ e', a ≠ .dialHub e') ∧ t.peers = s.peers ++ [(e, k)] := by
  unfold Dock.State.step at h
  split at h
  · cases h
  cases a with
  | dialHub e =>
    simp only [Dock.State.connected] at h
    split at h
    · rename_i hc
      cases h
      exact Or.inr (Or.inl ⟨e, rfl, hc.2.2, by simp [hc.2.2]⟩)
    · cases h
  | commit i =>
    simp only at h
    split at h
    · cases h; exact Or.inl (doCommit_peers s i)
    · cases h
  | work p order =>
    simp only [Dock.State.work] at h
    repeat' split at h
    all_goals cases h
    all_goals first
      | exact Or.inl rfl
      | exact Or.inl (doCommit_peers s _)
  | recv p pkt =>
    simp only [Dock.State.onPacket] at h
    repeat' split at h
    all_goals cases h
    all_goals exact Or.inl rfl
  | accept e port =>
    simp only [Dock.State.connected] at h
    split at h
    · cases h; exact Or.inr (Or.inr ⟨e, _, by simp, by simp, rfl⟩)
    · cases h
  | dialOK p e =>
    simp only [Dock.State.connected] at h
    repeat' split at h
    all_goals cases h
    exact Or.inr (Or.inr ⟨e, _, by simp, by simp, rfl⟩)
  | _ =>
    simp only at h
    repeat' split at h
    all_goals cases h
    all_goals exact Or.inl rfl

/-- At most one peer of a dock is on the socket that dialled the hub. -/
theorem one_hub (cs : List Carried) {s : Dock.State} (h : Reachable (Dock.State.step cs) .init s) (e e' : Nat)
    (h1 : (e, Dock.Sock.hub) ∈ s.peers) (h2 : (e', Dock.Sock.hub) ∈ s.peers) : e = e' := by
  obtain ⟨as, h⟩ := h
  revert e e'
  refine run_inv (I := fun s : Dock.State => ∀ e e', (e, Dock.Sock.hub) ∈ s.peers → (e', Dock.Sock.hub) ∈ s.peers → e = e')
    ?_ as _ _ (by simp [Dock.State.init]) h
  intro s a t I h e e' h1 h2
  rcases peers_step cs s a t h with hp | ⟨x, _, _, hp⟩ | ⟨x, k, hk, _, hp⟩
  · rw [hp] at h1 h2; exact I e e' h1 h2
  · rw [hp] at h1 h2
    simp at h1 h2
    rw [h1, h2]
  · rw [hp, List.mem_append] at h1 h2
    have aux : ∀ y, (y, Dock.Sock.hub) ∈ [(x, k)] → False := by
      intro y hy
      simp at hy
      exact hk hy.2.symm
    exact I e e' (h1.resolve_right (aux e)) (h2.resolve_right (aux e'))

/-- The ends of a dock that lead to the hub belong to the socket that dialled the hub. -/
def HubEnds (S : System.State) : Prop :=
  ∀ d e, S.owner e = some (.dock d) → S.owner (other e) = some .hub → (e, Dock.Sock.hub) ∈ (S.dock d).peers

theorem hubEnds_setDock {S : System.State} {d : Nat} {a : Dock.Act} {s : Dock.State} {cs : List Carried} (I : HubEnds S)
    (h : (S.dock d).step cs a = some s) : HubEnds (S.setDock d s) := by
  intro d' e h1 h2
  have := I d' e h1 h2
  simp only [System.State.setDock]
  by_cases e' : d' = d
  · subst e'
    rw [upd_same]
    rcases peers_step cs _ a s h with hp | ⟨x, _, hn, hp⟩ | ⟨x, k, _, _, hp⟩
    · rw [hp]; exact this
    · rw [hn] at this; cases this
    · rw [hp]; exact List.mem_append_left _ this
  · rw [upd_other _ _ e']; exact this

theorem hubEnds_same {S T : System.State} (I : HubEnds S) (ho : T.owner = S.owner) (hd : T.dock = S.dock) : HubEnds T := by
  intro d e h1 h2
  rw [ho] at h1 h2
  rw [hd]
  exact I d e h1 h2

/-- The ends of the new connection and the old ones. -/
theorem owner_connect {S : System.State} (hS : Shape H R S) (a b : Proc) (port : BitVec 64) (e : Nat) :
    ((S.connect a b port).owner e, (S.connect a b port).owner (other e)) =
      if e = 2 * S.n then (some a, some b) else if e = 2 * S.n + 1 then (some b, some a)
      else (S.owner e, S.owner (other e)) := by
  simp only [System.State.connect, upd]
  have h0 : other (2 * S.n) = 2 * S.n + 1 := by simp [other]
  have h1 : other (2 * S.n + 1) = 2 * S.n := by
    have := other_other (2 * S.n)
    rwa [h0] at this
  by_cases e1 : e = 2 * S.n
  · subst e1
    rw [h0]
    simp
  · by_cases e2 : e = 2 * S.n + 1
    · subst e2
      rw [h1]
      simp
    · have e3 : other e ≠ 2 * S.n := by
        intro h
        exact e2 (by rw [← other_other e, h, h0])
      have e4 : other e ≠ 2 * S.n + 1 := by
        intro h
        exact e1 (by rw [← other_other e, h, h1])
      simp [e1, e2, e3, e4]

theorem hubEnds_step (S : System.State) (a : System.Act) (T : System.State) (I : System.Inv C H R black S) (h : HubEnds S)
    (hs : S.step C H R black a = some T) : HubEnds T := by
  unfold System.State.step at hs
  cases a with
  | dock d a =>
    simp only at hs
    repeat' split at hs
    all_goals cases hs
    rename_i s h1
    exact hubEnds_setDock h h1
  | hub a =>
    simp only at hs
    repeat' split at hs
    all_goals cases hs
    exact hubEnds_same h rfl rfl
  | join d =>
    simp only at hs
    repeat' split at hs
    all_goals cases hs
    rename_i s h1
    intro d' e h2 h3
    have hc := owner_connect H R I.shape (.dock d) .hub 0 e
    have h2 : (S.connect (.dock d) .hub 0).owner e = _ := h2
    have h3 : (S.connect (.dock d) .hub 0).owner (other e) = _ := h3
    rw [h2, h3] at hc
    simp only [System.State.setDock, System.State.connect]
    split at hc
    · rename_i e1
      simp only [Prod.mk.injEq, Option.some.injEq, Proc.dock.injEq, and_true] at hc
      subst hc
      rw [upd_same, e1]
      rcases peers_step _ _ _ _ h1 with hp | ⟨x, hx, _, hp⟩ | ⟨x, k, _, hx, _⟩
      · exfalso
        unfold Dock.State.step at h1
        split at h1
        · cases h1
        simp only [Dock.State.connected] at h1
        split at h1
        · cases h1; simp at hp
        · cases h1
      · cases hx; rw [hp]; simp
      · exact absurd rfl (hx _)
    · split at hc
      · simp at hc
      · simp only [Prod.mk.injEq] at hc
        have := h d' e hc.1.symm hc.2.symm
        by_cases e' : d' = d
        · subst e'
          rw [upd_same]
          rcases peers_step _ _ _ _ h1 with hp | ⟨x, _, hn, hp⟩ | ⟨x, k, _, _, hp⟩
          · rw [hp]; exact this
          · rw [hn] at this; cases this
          · rw [hp]; exact List.mem_append_left _ this
        · rw [upd_other _ _ e']; exact this
  | dial d p d' port =>
    simp only at hs
    repeat' split at hs
    all_goals cases hs
    rename_i s h1
    refine hubEnds_setDock (S := S.connect (.dock d) (.dock d') port) ?_ h1
    intro d'' e h2 h3
    have hc := owner_connect H R I.shape (.dock d) (.dock d') port e
    rw [h2, h3] at hc
    split at hc
    · simp at hc
    · split at hc
      · simp at hc
      · simp only [Prod.mk.injEq] at hc
        exact h d'' e hc.1.symm hc.2.symm
  | accept e =>
    simp only at hs
    repeat' split at hs
    all_goals cases hs
    rename_i s h1
    exact hubEnds_setDock h h1
  | deliver e =>
    simp only [System.State.receive] at hs
    repeat' split at hs
    all_goals cases hs
    all_goals first
      | exact hubEnds_same h rfl rfl
      | (rename_i s h1; exact hubEnds_setDock (S := { S with queue := _, got := _ }) (hubEnds_same h rfl rfl) h1)
  | lose e k =>
    simp only at hs
    split at hs
    · cases hs; exact hubEnds_same h rfl rfl
    · cases hs
  | crash p =>
    simp only at hs
    cases hs; exact hubEnds_same h rfl rfl

theorem hubEnds_run {acts : List System.Act} {S : System.State} (h : run (System.State.step C H R black) .init acts = some S) :
    HubEnds S :=
  (run_inv (I := fun S => System.Inv C H R black S ∧ HubEnds S)
    (fun S a T I h => ⟨System.inv_step C H R black S a T I.1 h, hubEnds_step C H R black S a T I.1 I.2 h⟩) acts _ _
    ⟨System.Inv.init C H R black, by intro d e h; simp [System.State.init] at h⟩ h).2

/-! ## A dock is answered once -/

/-- The responses of the hub to registrations. -/
def isGrant : Proto → Bool
  | .registerResponse _ => true
  | _ => false

/-- Registrations. -/
def isRegister : Proto → Bool
  | .registerRequest _ => true
  | _ => false

/-- The register responses that a dock received all came from one peer. -/
theorem granted_at (e : Nat) (log : List Dock.Ev) (h : ∀ e' port, Dock.Ev.recv e' (.registerResponse port) ∈ log → e' = e) :
    granted log = (dockGot e log).countP isGrant := by
  induction log with
  | nil => rfl
  | cons a log ih =>
    have ih := ih fun e' port hm => h e' port (List.mem_cons_of_mem _ hm)
    have ha := fun e' port => h e' port
    unfold granted dockGot at ih ⊢
    rw [List.countP_cons, List.filterMap_cons, ih]
    cases a with
    | recv p pkt =>
      by_cases hp : p = e
      · cases pkt <;> simp [hp, isGrant, List.countP_cons]
      · cases pkt <;> simp [hp]
        rename_i port
        exact hp (h p port (List.mem_cons_self ..))
    | _ => simp

theorem portsSent_count (e : Nat) (log : List Hub.Ev) : (hubSent e log).countP isGrant = (portsSent e log).length := by
  induction log with
  | nil => rfl
  | cons a log ih =>
    unfold hubSent portsSent at ih ⊢
    rw [List.filterMap_cons, List.filterMap_cons]
    cases a with
    | sent p pkt => by_cases hp : p = e <;> cases pkt <;> simp [hp, isGrant, List.countP_cons, ih]
    | _ => simpa using ih

theorem portsOf_count (e : Nat) (log : List Hub.Ev) : (portsOf e log).length ≤ (hubGot e log).countP isRegister := by
  induction log with
  | nil => exact Nat.le_refl _
  | cons a log ih =>
    unfold portsOf hubGot at ih ⊢
    rw [List.filterMap_cons, List.filterMap_cons]
    cases a with
    | register p slots port => by_cases hp : p = e <;> simp [hp, isRegister, List.countP_cons, ih]
    | ready p slots => by_cases hp : p = e <;> simp [hp, isRegister, List.countP_cons, ih]
    | query p slot => by_cases hp : p = e <;> simp [hp, isRegister, List.countP_cons, ih]
    | _ => simpa using ih

theorem regsTo_count (e : Nat) (log : List Dock.Ev) : (dockSent e log).countP isRegister = (Dock.regsTo e log).length := by
  induction log with
  | nil => rfl
  | cons a log ih =>
    unfold dockSent Dock.regsTo at ih ⊢
    rw [List.filterMap_cons, List.filterMap_cons]
    cases a with
    | sent p pkt => by_cases hp : p = e <;> cases pkt <;> simp [hp, isRegister, List.countP_cons, ih]
    | _ => simpa using ih

/-- In a system of unmodified processes a dock receives at most one register response. -/
theorem granted_once {acts : List System.Act} {S : System.State}
    (h : run (System.State.step C H R black) .init acts = some S) (d : Nat) : granted (S.dock d).log ≤ 1 := by
  have I := inv_run C H R black h
  have E := hubEnds_run C H R black h
  by_cases hex : ∃ e port, Dock.Ev.recv e (.registerResponse port) ∈ (S.dock d).log
  · obtain ⟨e, port, he⟩ := hex
    obtain ⟨ho, hh, _⟩ := port_registered I he
    rw [granted_at e]
    · have h1 : dockGot e (S.dock d).log = S.got e := by rw [I.got.dock, if_pos ho]
      have h2 := countP_fate C H R black isGrant (by intro p; cases p <;> rfl) I e
      have h3 : S.sentBy (other e) = hubSent (other e) S.hub.log := by simp only [System.State.sentBy, hh]
      obtain ⟨as, hr⟩ := I.parts.hub
      have h4 := congrArg List.length (C74_register_responses R black as _ hr (other e))
      rw [List.length_append] at h4
      have h5 := portsOf_count (other e) S.hub.log
      have h6 := (I.got.hub (other e)).countP_le (p := isRegister)
      rw [if_pos hh] at h6
      have h7 := countP_fate C H R black isRegister (by intro p; cases p <;> rfl) I (other e)
      have h8 : S.sentBy (other (other e)) = dockSent e (S.dock d).log := by
        rw [other_other]; simp only [System.State.sentBy, ho]
      have h9 := (dock_inv I d).2.1.greet e
      rw [h3, portsSent_count] at h2
      rw [h8, regsTo_count] at h7
      rw [h1]
      split at h9 <;> split at h9 <;> omega
    · intro e' port' he'
      obtain ⟨ho', hh', _⟩ := port_registered I he'
      exact one_hub (C d) (I.parts.dock d) e' e (E d e' ho' hh') (E d e ho hh)
  · have : granted (S.dock d).log = 0 := by
      unfold granted
      rw [List.countP_eq_zero]
      intro a ha
      split
      · rename_i p port; exact fun _ => hex ⟨p, port, ha⟩
      · simp
    omega

/-- C87 (partial), in a system of unmodified processes: the features of a dock are started at most once.  Missing: a
modified peer can have them started again, see `C87_twice_refuted`. -/
theorem C87_once_honest_partial (acts : List System.Act) (S : System.State)
    (h : run (System.State.step C H R black) .init acts = some S) (d : Nat) : starts (S.dock d).log ≤ 1 := by
  obtain ⟨as, hr⟩ := (inv_run C H R black h).parts.dock d
  exact Nat.le_trans (C87_starts_partial (C d) as _ hr).1 (granted_once C H R black h d)

/-- Both docks have started their features. -/
example : ∃ S, run (System.State.step sysC sysH sysR []) .init sysSend = some S ∧
    (starts (S.dock 0).log, starts (S.dock 1).log, granted (S.dock 0).log) = (1, 1, 1) :=
  sysWitness (by decide +kernel)

end Verif.Props
