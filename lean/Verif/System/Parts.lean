import Verif.System.Live
import Verif.Fair

/-!
# What a step of the system is for its parts

A step of the system is a step of a dock or of the hub, or leaves them alone; and it adds what was sent to the queues.
-/

namespace Verif.System

open Verif Verif.Codec Verif.Proto

/-- What an action of the system is for dock `d`. -/
def State.dockAct (S : State) (a : Act) (d : Nat) : Option Dock.Act :=
  match a with
  | .dock d' x => if d' = d then some x else none
  | .join d' => if d' = d then some (.dialHub (2 * S.n)) else none
  | .dial d' p _ _ => if d' = d then some (.dialOK p (2 * S.n)) else none
  | .accept e => if S.owner e = some (.dock d) then some (.accept e (S.port e)) else none
  | .deliver e =>
    match S.queue e with
    | [] => none
    | pkt :: _ =>
      match fate pkt with
      | .arrives q => if S.owner e = some (.dock d) then some (.recv e q) else none
      | _ => none
  | _ => none

/-- What an action of the system is for the hub. -/
def State.hubAct (S : State) (a : Act) : Option Hub.Act :=
  match a with
  | .hub x => some x
  | .deliver e =>
    match S.queue e with
    | [] => none
    | pkt :: _ =>
      match fate pkt with
      | .arrives q => if S.owner e = some .hub then some (.recv e q) else none
      | _ => none
  | _ => none

section
variable {C : Nat → List Dock.Carried} {H : Nat → Str} {R : Nat → Str} {black : List Int} {S T : State} {a : Act}

/-- The dock takes the step. -/
theorem dock_part (h : S.step C H R black a = some T) (d : Nat) :
    match S.dockAct a d with
    | some x => (S.dock d).step (C d) x = some (T.dock d)
    | none => T.dock d = S.dock d := by
  unfold State.step at h
  cases a with
  | dock d' x =>
    simp only [State.dockAct] at h ⊢
    repeat' split at h
    all_goals cases h
    split
    · rename_i e
      split at e <;> cases e
      subst d'
      simpa [State.setDock]
    · rename_i e
      split at e <;> cases e
      exact upd_other _ _ fun x => by simp_all
  | hub x =>
    simp only [State.dockAct] at h ⊢
    repeat' split at h
    all_goals cases h
    rfl
  | join d' =>
    simp only [State.dockAct] at h ⊢
    repeat' split at h
    all_goals cases h
    split
    · rename_i e
      split at e <;> cases e
      subst d'
      simpa [State.setDock]
    · rename_i e
      split at e <;> cases e
      exact upd_other _ _ fun x => by simp_all
  | dial d' p d2 port =>
    simp only [State.dockAct] at h ⊢
    repeat' split at h
    all_goals cases h
    split
    · rename_i e
      split at e <;> cases e
      subst d'
      simpa [State.setDock]
    · rename_i e
      split at e <;> cases e
      exact upd_other _ _ fun x => by simp_all
  | accept e =>
    simp only [State.dockAct] at h ⊢
    repeat' split at h
    all_goals cases h
    rename_i d' ho _ _ hs
    split
    · rename_i e
      split at e <;> cases e
      simp_all [State.setDock]
    · rename_i e
      split at e <;> cases e
      exact upd_other _ _ fun x => by simp_all
  | deliver e =>
    simp only [State.dockAct, State.receive] at h ⊢
    split at h
    · cases h
    rename_i pkt rest hq
    simp only [hq]
    split at h
    · rename_i q hf
      simp only [hf]
      repeat' split at h
      all_goals cases h
      · split
        · rename_i e
          split at e <;> cases e
          simp_all [State.setDock]
        · rename_i e
          split at e <;> cases e
          exact upd_other _ _ fun x => by simp_all
      · split
        · rename_i e
          split at e <;> cases e
          simp_all
        · rfl
    · rename_i hf
      simp only [hf]
      split at h <;> cases h
      rfl
    · rename_i hf
      simp only [hf]
      split at h <;> cases h
      rfl
    · cases h
  | lose e k =>
    simp only [State.dockAct] at h ⊢
    repeat' split at h
    all_goals cases h
    rfl
  | crash p =>
    simp only [State.dockAct] at h ⊢
    cases h
    rfl

/-- The hub takes the step. -/
theorem hub_part (h : S.step C H R black a = some T) :
    match S.hubAct a with
    | some x => S.hub.step R black x = some T.hub
    | none => T.hub = S.hub := by
  unfold State.step at h
  cases a with
  | hub x =>
    simp only [State.hubAct] at h ⊢
    repeat' split at h
    all_goals cases h
    assumption
  | deliver e =>
    simp only [State.hubAct, State.receive] at h ⊢
    split at h
    · cases h
    rename_i pkt rest hq
    simp only [hq]
    split at h
    · rename_i q hf
      simp only [hf]
      repeat' split at h
      all_goals cases h
      · rename_i ho _ _ _ _
        rw [ho]
        simp only [reduceCtorEq, Option.some.injEq, if_false]
        rfl
      · rename_i ho _ _ _ hs
        rw [if_pos ho]
        exact hs
    · rename_i hf
      simp only [hf]
      split at h <;> cases h
      rfl
    · rename_i hf
      simp only [hf]
      split at h <;> cases h
      rfl
    · cases h
  | _ =>
    simp only [State.hubAct] at h ⊢
    repeat' split at h
    all_goals cases h
    all_goals rfl

theorem connect_owner (J : Shape H R S) {x y : Proc} {port : BitVec 64} {e : Nat} {p : Proc} (ho : S.owner e = some p) :
    (S.connect x y port).owner e = some p ∧ (S.connect x y port).port e = S.port e := by
  have : e < 2 * S.n := by
    rcases Nat.lt_or_ge e (2 * S.n) with h | h
    · exact h
    · rw [J.fresh e h] at ho; cases ho
  simp only [State.connect, upd]
  rw [if_neg (by omega), if_neg (by omega), if_neg (by omega)]
  exact ⟨ho, rfl⟩

/-- Ends keep their owners. -/
theorem owner_step (J : Shape H R S) (h : S.step C H R black a = some T) {e : Nat} {p : Proc} (ho : S.owner e = some p) :
    T.owner e = some p ∧ T.port e = S.port e := by
  unfold State.step at h
  cases a <;> simp only [State.receive] at h <;> repeat' split at h
  all_goals cases h
  all_goals first
    | exact ⟨ho, rfl⟩
    | exact connect_owner J ho

/-- What a step does to the packets on their way, if it loses none. -/
theorem queue_step (J : Shape H R S) (h : S.step C H R black a = some T) (hl : ∀ e k, a ≠ .lose e k) (e : Nat) :
    ∃ y z, T.queue e = y ++ z ∧ (a ≠ .deliver e → y = S.queue e) ∧ (a = .deliver e → y = (S.queue e).tail) ∧
      (∀ d l, S.owner (other e) = some (.dock d) → (T.dock d).log = (S.dock d).log ++ l → z = dockSent (other e) l) ∧
      (∀ l, S.owner (other e) = some .hub → T.hub.log = S.hub.log ++ l → z = hubSent (other e) l) := by
  have nil : ∀ {β : Type} {x l : List β}, x = x ++ l → l = [] := by
    intro β x l h
    have := congrArg List.length h
    simp at this
    exact this
  -- the step of a dock
  have set : ∀ (U : State) (d' : Nat) (s : Dock.State), U.dock = S.dock → U.hub = S.hub →
      (∀ p, S.owner (other e) = some p → U.owner (other e) = some p) →
      ∃ z, (U.setDock d' s).queue e = U.queue e ++ z ∧
      (∀ d l, S.owner (other e) = some (.dock d) → ((U.setDock d' s).dock d).log = (S.dock d).log ++ l →
        z = dockSent (other e) l) ∧
      (∀ l, S.owner (other e) = some .hub → (U.setDock d' s).hub.log = S.hub.log ++ l → z = hubSent (other e) l) := by
    intro U d' s hd hh ho
    refine ⟨_, rfl, ?_, ?_⟩
    · intro d l h1 h2
      rw [ho _ h1]
      by_cases x : d = d'
      · subst x
        simp only [State.setDock, upd_same] at h2
        rw [if_pos rfl, hd, h2, List.drop_left]
      · simp only [State.setDock, upd_other _ _ x] at h2
        rw [hd] at h2
        rw [if_neg (by simpa using x), nil h2]
        rfl
    · intro l h1 h2
      rw [ho _ h1, if_neg (by simp)]
      simp only [State.setDock] at h2
      rw [hh] at h2
      rw [nil h2]
      rfl
  have setH : ∀ (U : State) (s : Hub.State), U.dock = S.dock → U.hub = S.hub → U.owner = S.owner →
      ∃ z, (U.setHub s).queue e = U.queue e ++ z ∧
      (∀ d l, S.owner (other e) = some (.dock d) → ((U.setHub s).dock d).log = (S.dock d).log ++ l → z = dockSent (other e) l) ∧
      (∀ l, S.owner (other e) = some .hub → (U.setHub s).hub.log = S.hub.log ++ l → z = hubSent (other e) l) := by
    intro U s hd hh ho
    refine ⟨_, rfl, ?_, ?_⟩
    · intro d l h1 h2
      rw [ho, h1, if_neg (by simp)]
      simp only [State.setHub] at h2
      rw [hd] at h2
      rw [nil h2]
      rfl
    · intro l h1 h2
      rw [ho, h1, if_pos rfl]
      simp only [State.setHub] at h2
      rw [h2, hh, List.drop_left]
  have same : ∀ (U : State), U.dock = S.dock → U.hub = S.hub → ∃ z, U.queue e = U.queue e ++ z ∧
      (∀ d l, S.owner (other e) = some (.dock d) → (U.dock d).log = (S.dock d).log ++ l → z = dockSent (other e) l) ∧
      (∀ l, S.owner (other e) = some .hub → U.hub.log = S.hub.log ++ l → z = hubSent (other e) l) := by
    intro U hd hh
    refine ⟨[], (List.append_nil _).symm, ?_, ?_⟩
    · intro d l _ h
      rw [hd] at h
      rw [nil h]; rfl
    · intro l _ h
      rw [hh] at h
      rw [nil h]; rfl
  have took : ∀ (U : State) (y : List Proto), (a ≠ .deliver e → y = S.queue e) → (a = .deliver e → y = (S.queue e).tail) →
      (∃ z, U.queue e = y ++ z ∧
      (∀ d l, S.owner (other e) = some (.dock d) → (U.dock d).log = (S.dock d).log ++ l → z = dockSent (other e) l) ∧
      (∀ l, S.owner (other e) = some .hub → U.hub.log = S.hub.log ++ l → z = hubSent (other e) l)) →
      ∃ y z, U.queue e = y ++ z ∧ (a ≠ .deliver e → y = S.queue e) ∧ (a = .deliver e → y = (S.queue e).tail) ∧
      (∀ d l, S.owner (other e) = some (.dock d) → (U.dock d).log = (S.dock d).log ++ l → z = dockSent (other e) l) ∧
      (∀ l, S.owner (other e) = some .hub → U.hub.log = S.hub.log ++ l → z = hubSent (other e) l) :=
    fun U y h1 h2 ⟨z, h⟩ => ⟨y, z, h.1, h1, h2, h.2⟩
  have keep : ∀ (U : State), a ≠ .deliver e → (∃ z, U.queue e = S.queue e ++ z ∧
      (∀ d l, S.owner (other e) = some (.dock d) → (U.dock d).log = (S.dock d).log ++ l → z = dockSent (other e) l) ∧
      (∀ l, S.owner (other e) = some .hub → U.hub.log = S.hub.log ++ l → z = hubSent (other e) l)) →
      ∃ y z, U.queue e = y ++ z ∧ (a ≠ .deliver e → y = S.queue e) ∧ (a = .deliver e → y = (S.queue e).tail) ∧
      (∀ d l, S.owner (other e) = some (.dock d) → (U.dock d).log = (S.dock d).log ++ l → z = dockSent (other e) l) ∧
      (∀ l, S.owner (other e) = some .hub → U.hub.log = S.hub.log ++ l → z = hubSent (other e) l) :=
    fun U h => took U _ (fun _ => rfl) (fun x => absurd x h)
  unfold State.step at h
  cases a with
  | dock d x =>
    simp only at h
    repeat' split at h
    all_goals cases h
    refine keep _ (by simp) ?_
    exact set S d _ rfl rfl fun _ h => h
  | hub x =>
    simp only at h
    repeat' split at h
    all_goals cases h
    refine keep _ (by simp) ?_
    exact setH S _ rfl rfl rfl
  | join d =>
    simp only at h
    repeat' split at h
    all_goals cases h
    refine keep _ (by simp) ?_
    exact set (S.connect (.dock d) .hub 0) d _ rfl rfl fun _ h => (connect_owner J h).1
  | dial d p d2 port =>
    simp only at h
    repeat' split at h
    all_goals cases h
    refine keep _ (by simp) ?_
    exact set (S.connect (.dock d) (.dock d2) port) d _ rfl rfl fun _ h => (connect_owner J h).1
  | accept e' =>
    simp only at h
    repeat' split at h
    all_goals cases h
    refine keep _ (by simp) ?_
    exact set S _ _ rfl rfl fun _ h => h
  | deliver e' =>
    simp only [State.receive] at h
    split at h
    · cases h
    rename_i pkt rest hq
    refine took _ (upd S.queue e' rest e) (fun x => upd_other _ _ fun y => x (by rw [y])) (fun x => ?_) ?_
    · cases x
      rw [upd_same, hq]
      rfl
    repeat' split at h
    all_goals cases h
    · exact set { S with queue := upd S.queue e' rest, got := _ } _ _ rfl rfl fun _ h => h
    · exact setH { S with queue := upd S.queue e' rest, got := _ } _ rfl rfl rfl
    · exact same { S with queue := upd S.queue e' rest, down := _ } rfl rfl
    · exact same { S with queue := upd S.queue e' rest, down := _ } rfl rfl
  | lose e' k => exact absurd rfl (hl e' k)
  | crash p =>
    simp only at h
    cases h
    refine keep _ (by simp) ?_
    exact same _ rfl rfl

end

end Verif.System
