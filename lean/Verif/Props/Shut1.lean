import Verif.Dock.Shut

/-!
# C99: Calls on a dock that is closed

A call on a dock never ends the process, whether it is made before, during or after `Close`; after `Close` it returns, with
an error.
-/

namespace Verif.Props

open Verif Verif.Codec Verif.Shut

/-- The hub's socket is there and `Close` has not cleared the tables. -/
structure StillOpen (names : List Str) (s : Shut.State) : Prop where
  alive : s.dead = false
  hub : 0 < s.sockets
  close : s.close ≠ .done
  slots : (∀ k, s.close ≠ .sockets k) → s.slots = names

theorem stillOpen_step (names : List Str) (s : Shut.State) (a : Shut.Act) (t : Shut.State) (ha : a ≠ .truncate)
    (I : StillOpen names s) (h : s.step a = some t) : StillOpen names t := by
  obtain ⟨h1, h2, h3, h4⟩ := I
  unfold State.step at h
  rw [h1] at h
  simp only [Bool.false_eq_true, if_false] at h
  cases a with
  | append => cases h; exact ⟨rfl, by simp, h3, h4⟩
  | learn slot p => cases h; exact ⟨rfl, h2, h3, h4⟩
  | closeBegin order =>
    simp only at h
    split at h
    · rename_i hc
      cases h
      exact ⟨rfl, h2, by simp, fun _ => h4 (by simp [hc.1])⟩
    · cases h
  | destroy =>
    simp only at h
    split at h
    · rename_i hc
      cases h
      exact ⟨rfl, h2, by simp, fun _ => h4 (by simp [hc])⟩
    · cases h
  | clear =>
    simp only at h
    split at h
    · cases h
      exact ⟨rfl, h2, by simp, fun hk => absurd rfl (hk _)⟩
    · cases h
  | closeSocket =>
    simp only at h
    split at h
    · cases h
      exact ⟨rfl, h2, by simp, fun hk => absurd rfl (hk _)⟩
    · cases h
  | truncate => exact absurd rfl ha
  | look c name =>
    simp only at h
    split at h
    · cases h; exact ⟨rfl, h2, h3, h4⟩
    · cases h
  | commit c =>
    simp only at h
    split at h
    · split at h
      · cases h; exact ⟨rfl, h2, h3, h4⟩
      · split at h
        · omega
        · cases h; exact ⟨rfl, h2, h3, h4⟩
    · cases h
  | executed c =>
    simp only at h
    split at h
    · cases h; exact ⟨rfl, h2, h3, h4⟩
    · cases h
  | response c =>
    simp only at h
    split at h
    · cases h; exact ⟨rfl, h2, h3, h4⟩
    · cases h; exact ⟨rfl, h2, h3, h4⟩
    · cases h

/-- C99 (partial): from the moment the hub's socket is in the table until `Close` empties it, no call ends the process; and
until `Close` removes the features, a call of a feature of the dock is passed to this feature, and calls that have been made
can return.  Missing: the rest, which is refuted below. -/
theorem C99_open_partial (names : List Str) (acts : List Shut.Act) (s : Shut.State) (ha : .truncate ∉ acts)
    (h : run State.step (State.init names) (.append :: acts) = some s) :
    s.dead = false ∧ (.clear ∉ acts → ∀ c name,
      (s.call c = .idle → ∃ t, s.step (.look c name) = some t ∧ (t.call c = .inside name ↔ name ∈ names)) ∧
      (s.call c = .inside name → ∃ t, s.step (.executed c) = some t ∧ t.call c = .returned) ∧
      (s.call c = .outside name → ∃ t, run State.step s [.commit c, .response c] = some t ∧ t.call c = .returned)) := by
  have e : run State.step (State.init names) (.append :: acts) =
      run State.step { State.init names with sockets := 1 } acts := rfl
  rw [e] at h
  have I := run_inv_on (A := fun a => a ≠ .truncate) (I := StillOpen names) (stillOpen_step names) acts _ s
    (fun a hm => by rintro rfl; exact ha hm) ⟨rfl, by simp, by simp [State.init], fun _ => rfl⟩ h
  refine ⟨I.alive, fun hc c name => ?_⟩
  have J : (∀ k, s.close ≠ .sockets k) := by
    refine run_inv_on (step := State.step) (A := fun a => a ≠ .clear) (I := fun s => ∀ k, s.close ≠ .sockets k) ?_ acts _ s
      (fun a hm => by rintro rfl; exact hc hm) (by simp [State.init]) h
    intro s a t hne I h
    unfold State.step at h
    split at h
    · cases h
    · cases a <;> simp only at h
      case clear => exact absurd rfl hne
      case closeSocket =>
        split at h
        · rename_i k hk; exact absurd hk (I _)
        · cases h
      all_goals
        repeat' split at h
      all_goals
        first
        | cases h; done
        | (cases h; first | exact I | simp)
  refine ⟨fun hi => ⟨_, by simp only [State.step, I.alive, hi]; rfl, ?_⟩, fun hi => ?_, fun hi => ?_⟩
  · simp only [upd_same, I.slots J]
    split
    · rename_i hm; simp [hm]
    · rename_i hm; simp [hm]
  · exact ⟨_, by simp only [State.step, I.alive, hi]; rfl, upd_same ..⟩
  · have hd := I.close
    have h0 := I.hub
    cases hr : s.remote name with
    | none =>
      refine ⟨{ s with call := upd (upd s.call c (.asked name)) c .returned }, ?_, upd_same ..⟩
      simp [run, State.step, I.alive, hi, hr, hd, upd_same, show s.sockets ≠ 0 by omega]
    | some p =>
      refine ⟨{ s with call := upd (upd s.call c (.sent p)) c .returned }, ?_, upd_same ..⟩
      simp [run, State.step, I.alive, hi, hr, hd, upd_same]

/-- Two features, of which one is called during `Close`, and a third one of another dock. -/
example : ∃ s, run State.step (State.init [[97], [98]]) (.append :: [.append, .closeBegin [[98], [97]], .destroy,
      .look 0 [98], .look 1 [99], .commit 1, .executed 0]) = some s ∧
    s.call 0 = .returned ∧ s.call 1 = .asked [99] ∧ s.call 2 = .idle := ⟨_, rfl, rfl, rfl, rfl⟩

/-! ## After `Close` -/

theorem slots_gone (names : List Str) (acts : List Shut.Act) (s : Shut.State)
    (h : run State.step (State.init names) acts = some s) : (s.close = .done ∨ ∃ k, s.close = .sockets k) → s.slots = [] := by
  refine run_inv (step := State.step) (I := fun s => (s.close = .done ∨ ∃ k, s.close = .sockets k) → s.slots = []) ?_ acts _ s
    (by simp [State.init]) h
  intro s a t I h
  unfold State.step at h
  split at h
  · cases h
  · cases a <;> simp only at h
    case closeSocket =>
      split at h
      · rename_i k hk; cases h; exact fun _ => I (.inr ⟨_, hk⟩)
      · cases h
    case truncate =>
      split at h
      · rename_i hk; cases h; exact fun _ => I (.inr ⟨_, hk⟩)
      · cases h
    all_goals
      repeat' split at h
    all_goals
      first
      | cases h; done
      | (cases h; first | exact I | simp)

/-- What a call meets after `Close`, in every case: it is never passed to a feature of the dock.  Without a route the
process ends, unless a late handler has added a socket; with a route the call never returns. -/
theorem C99_closed (names : List Str) (acts : List Shut.Act) (s : Shut.State) (c : Nat) (name : Str)
    (h : run State.step (State.init names) acts = some s) (hd : s.dead = false) (hc : s.close = .done)
    (hi : s.call c = .idle) :
    ∃ t, run State.step s [.look c name, .commit c] = some t ∧
      (s.remote name = none → s.sockets = 0 → t.dead = true) ∧
      ((s.remote name).isSome ∨ s.sockets ≠ 0 → t.dead = false ∧
        ∀ more u, run State.step t more = some u → u.call c ≠ .returned) := by
  have hs := slots_gone names acts s h (.inl hc)
  have stay : ∀ t : Shut.State, ((∃ p, t.call c = .stale p) ∨ ∃ n, t.call c = .staleAsked n) →
      ∀ more u, run State.step t more = some u → u.call c ≠ .returned := by
    intro t ht more u hu
    have I := run_inv (step := State.step)
      (I := fun t => (∃ p, t.call c = .stale p) ∨ ∃ n, t.call c = .staleAsked n) ?_ more t u ht hu
    · rcases I with ⟨p, e⟩ | ⟨n, e⟩ <;> simp [e]
    · intro s a t I h
      have keep : ∀ (d : Nat) (x : CallPc), s.call d ≠ s.call c →
          ((∃ p, upd s.call d x c = .stale p) ∨ ∃ n, upd s.call d x c = .staleAsked n) := by
        intro d x hne
        have : c ≠ d := by rintro rfl; exact hne rfl
        rw [upd_other _ _ this]
        exact I
      unfold State.step at h
      split at h
      · cases h
      · cases a <;> simp only at h
        all_goals
          repeat' split at h
        all_goals
          first
          | cases h; done
          | (cases h; first
              | exact I
              | (refine keep _ _ ?_
                 intro e
                 rcases I with ⟨p, e'⟩ | ⟨n, e'⟩ <;> simp_all))
  cases hr : s.remote name with
  | some p =>
    refine ⟨{ s with call := upd (upd s.call c (.outside name)) c (.stale p) }, ?_, by simp, fun _ => ⟨hd, ?_⟩⟩
    · simp [run, State.step, hd, hi, hs, hr, hc]
    · exact stay _ (.inl ⟨p, by simp⟩)
  | none =>
    by_cases h0 : s.sockets = 0
    · refine ⟨{ s with call := upd s.call c (.outside name), dead := true }, ?_, by simp, by simp [h0]⟩
      simp [run, State.step, hd, hi, hs, hr, h0]
    · refine ⟨{ s with call := upd (upd s.call c (.outside name)) c (.staleAsked name) }, ?_, by simp [h0],
        fun _ => ⟨hd, ?_⟩⟩
      · simp [run, State.step, hd, hi, hs, hr, hc, h0]
      · exact stay _ (.inr ⟨name, by simp⟩)

/-- A dock with two features, closed: both tables are empty, one route is left. -/
def shutActs : List Shut.Act :=
  [.append, .append, .learn [99] 4, .closeBegin [[97], [98]], .destroy, .destroy, .clear, .closeSocket, .closeSocket,
    .truncate]

example : ∃ s, run State.step (State.init [[97], [98]]) shutActs = some s ∧ s.dead = false ∧ s.close = .done ∧
    s.call 0 = .idle ∧ s.remote [98] = none ∧ s.sockets = 0 ∧ s.remote [99] = some 4 :=
  ⟨_, rfl, rfl, rfl, rfl, rfl, rfl, rfl⟩

/-- C99 (refuted): after `Close` a goroutine of one feature calls another feature of the same dock.  The feature is not
found, so the hub is to be asked, and `d.sockets[0]` ends the process. -/
theorem C99_crash_refuted : ∃ s t, run State.step (State.init [[97], [98]]) shutActs = some s ∧ s.dead = false ∧
    run State.step s [.look 0 [98], .commit 0] = some t ∧ t.dead = true :=
  ⟨_, _, rfl, rfl, rfl, rfl⟩

/-- C99 (refuted): the same can happen to a call that began before `Close`. -/
theorem C99_race_refuted : ∃ pre s t, run State.step (State.init [[97], [98]]) pre = some s ∧ s.close = .none ∧
    s.call 0 = .outside [99] ∧
    run State.step s [.closeBegin [[97], [98]], .destroy, .destroy, .clear, .closeSocket, .truncate, .commit 0] = some t ∧
    t.dead = true :=
  ⟨[.append, .look 0 [99]], _, _, rfl, rfl, rfl, rfl, rfl⟩

/-- C99 (refuted): a call made after `Close`, for which there is a route, neither fails nor returns. -/
theorem C99_hangs_refuted : ∃ s t, run State.step (State.init [[97], [98]]) shutActs = some s ∧
    run State.step s [.look 0 [99], .commit 0] = some t ∧ t.dead = false ∧
    ∀ more u, run State.step t more = some u → u.call 0 ≠ .returned := by
  obtain ⟨t, h1, _, h2⟩ := C99_closed [[97], [98]] shutActs _ 0 [99] rfl rfl rfl rfl
  obtain ⟨h3, h4⟩ := h2 (.inl rfl)
  exact ⟨_, t, rfl, h1, h3, h4⟩

end Verif.Props
