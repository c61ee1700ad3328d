import Verif.Props.Net3

/-!
# The mock network, continued: C88 to C90
-/

namespace Verif.Props

open Verif Verif.Net.Mock

/-! ## C88: `Dial` returns -/

/-- The `Dial` of connection `i` has returned. -/
def returned (s : Net) (i : Nat) : Bool :=
  match (s.conns i).wait with
  | .returned _ => true
  | _ => false

/-- Nobody listens at the dialled address, and the dialling routine is looking for a listener. -/
private structure Lonely (i : Nat) (x : Str) (s : Net) : Prop where
  known : i < s.nConns
  stage : (s.conns i).stage = .polling
  wait : (s.conns i).wait = .waiting
  addr : ∃ a, (s.conns i).dialled = some a ∧ formatAddr a = x
  nobody : s.listeners x = none
  chan : ∀ l, s.lChan l ≠ some (some i)

private theorem lonely_step (i : Nat) (x : Str) (s : Net) (a : Act) (t : Net) (ha : ∀ b, a = .listen b → formatAddr b ≠ x)
    (I : Lonely i x s) (h : s.step a = some t) : Lonely i x t := by
  obtain ⟨h1, h2, h3, ⟨y, h4, h4'⟩, h5, h6⟩ := I
  unfold Net.step at h
  split at h
  · cases h
  cases a with
  | listen b =>
    have := ha b rfl
    cases h
    exact ⟨h1, h2, h3, ⟨y, h4, h4'⟩, by simp only [upd]; rw [if_neg (Ne.symm this)]; exact h5, h6⟩
  | _ =>
    simp only at h
    repeat' split at h
    all_goals cases h
    all_goals constructor <;> simp only [upd] <;> grind [noConn]

/-- **C88.**  A `Dial` of an address at which nobody listens does not return until somebody does: the limit of one second
only applies after a listener has been found. -/
theorem C88_waits (acts : List Act) (s : Net) (h : run Net.step Net.init acts = some s) (i : Nat) (a : Str)
    (hd : (s.conns i).dialled = some a) (hp : (s.conns i).stage = .polling) (hl : s.listeners (formatAddr a) = none)
    (acts' : List Act) (t : Net) (h' : run Net.step s acts' = some t)
    (hn : ∀ b, .listen b ∈ acts' → formatAddr b ≠ formatAddr a) : returned t i = false := by
  have J := pairInv_any acts s h
  have L : Lonely i (formatAddr a) s := by
    refine ⟨?_, hp, ?_, ⟨a, hd, rfl⟩, hl, ?_⟩
    · refine Nat.lt_of_not_le fun hle => ?_
      rw [J.1 i hle] at hd; cases hd
    · cases e : (s.conns i).wait with
      | waiting => rfl
      | _ => have := J.2.1 i (by rw [e]; simp); rw [hp] at this; cases this
    · intro l hc; have := J.2.2 l i hc; rw [hp] at this; cases this
  have := run_inv_on (A := fun a' => ∀ b, a' = .listen b → formatAddr b ≠ formatAddr a)
    (fun s a' t ha I hs => lonely_step i _ s a' t ha I hs) acts' s t (fun a' ha' b e => hn b (e ▸ ha')) L h'
  simp [returned, this.wait]

/-- **C88 (refuted).**  A `Dial` with nobody listening never returns. -/
theorem C88_no_listener_refuted : ∃ acts s i, run Net.step Net.init acts = some s ∧ i < s.nConns ∧
    ∀ acts' t, run Net.step s acts' = some t → (∀ b, Act.listen b ∉ acts') → returned t i = false :=
  ⟨[.dial [58, 53]], _, 0, rfl, by decide, fun acts' t h hn =>
    C88_waits [.dial [58, 53]] _ rfl 0 [58, 53] rfl rfl rfl acts' t h fun b hb => absurd hb (hn b)⟩

/-- The listener has stopped accepting, its channel is full, and the routine is about to send on it. -/
private structure Stuck (i l : Nat) (s : Net) : Prop where
  known : i < s.nConns ∧ l < s.nListeners
  stage : (s.conns i).stage = .named l
  wait : (s.conns i).wait = .waiting
  full : s.lChan l ≠ none
  over : s.accepting l = false

private theorem stuck_step (i l : Nat) (s : Net) (a : Act) (t : Net) (I : Stuck i l s) (h : s.step a = some t) :
    Stuck i l t := by
  obtain ⟨⟨h1, h1'⟩, h2, h3, h4, h5⟩ := I
  unfold Net.step at h
  split at h
  · cases h
  cases a <;> simp only at h <;> repeat' split at h
  all_goals cases h
  all_goals constructor <;> simp only [upd] <;> grind [noConn]

/-- **C88 (refuted).**  After a listener has been closed, it stays in the table: the first `Dial` of its address fails
after a second, and the next one never returns, whatever happens. -/
theorem C88_closed_listener_refuted : ∃ acts s i, run Net.step Net.init acts = some s ∧ i < s.nConns ∧
    ∀ acts' t, run Net.step s acts' = some t → returned t i = false := by
  refine ⟨[.listen [58, 53], .lclose 0, .lclear 0, .accept 0, .dial [58, 53], .bump 0, .name 0, .push 0, .expire 0,
    .giveUp 0, .ret 0, .dial [58, 53], .bump 1, .name 1], _, 1, rfl, by decide, ?_⟩
  intro acts' t h
  have := run_inv (I := Stuck 1 0) (stuck_step 1 0) acts' _ t ⟨by decide, rfl, rfl, by decide, rfl⟩ h
  simp [returned, this.wait]

/-- **C88 (partial).**  Once the connection has been handed to a listener, `Dial` can return by steps of its own, within
its second; and if the accept routine of the listener is waiting, the whole `Dial` can succeed.  Missing: the two cases
of `C88_no_listener_refuted` and `C88_closed_listener_refuted`. -/
theorem C88_returns_partial (acts : List Act) (s : Net) (h : run Net.step Net.init acts = some s) (hd : s.dead = false)
    (i : Nat) :
    ((s.conns i).stage = .pushed → ∃ acts' t, run Net.step s acts' = some t ∧ returned t i = true ∧
      ∀ a ∈ acts', a = .see i ∨ a = .expire i ∨ a = .giveUp i ∨ a = .ret i) ∧
    (∀ a l, (s.conns i).dialled = some a → (s.conns i).stage = .polling → s.listeners (formatAddr a) = some l →
      s.accepting l = true → s.recording l = false → s.lChan l = none →
      ∃ t, run Net.step s [.bump i, .name i, .push i, .accept l, .see i, .ret i] = some t ∧
        (t.conns i).wait = .returned true) := by
  constructor
  · intro hp
    have hs := offered_status acts s h i hp
    cases hw : (s.conns i).wait with
    | waiting =>
      by_cases h2 : (s.conns i).status = 2
      · refine ⟨[.see i, .ret i], _, by simp [run, Net.step, hd, hp, hw, h2, upd]; rfl, by simp [returned], by simp⟩
      · have h1 : (s.conns i).status = 1 := by
          rcases hs with e | e | e
          · exact e
          · exact absurd e h2
          · exact absurd hw (e.2)
        refine ⟨[.expire i, .giveUp i, .ret i], _, by simp [run, Net.step, hd, hp, hw, h1, upd]; rfl, by simp [returned],
          by simp⟩
    | expired =>
      exact ⟨[.giveUp i, .ret i], _, by simp [run, Net.step, hd, hw, upd]; rfl, by simp [returned], by simp⟩
    | leaving => exact ⟨[.ret i], _, by simp [run, Net.step, hd, hw, upd]; rfl, by simp [returned], by simp⟩
    | returned b => exact ⟨[], s, rfl, by simp [returned, hw], by simp⟩
  · intro a l h1 h2 h3 h4 h5 h6
    have J := pairInv_any acts s h
    have hi : i ≠ s.nConns := by
      intro e
      rw [J.1 i (Nat.le_of_eq e.symm)] at h1; cases h1
    have hw : (s.conns i).wait = .waiting := by
      cases e : (s.conns i).wait with
      | waiting => rfl
      | _ => have := J.2.1 i (by rw [e]; simp); rw [h2] at this; cases this
    refine ⟨_, by simp [run, Net.step, hd, h1, h2, h3, h4, h5, h6, hw, hi, upd]; rfl, by simp [hi]⟩

/-- A connection handed over and not accepted yet; a connection about to be dialled. -/
example : ∃ s, run Net.step Net.init [.listen [58, 53], .dial [49, 58, 53], .bump 0, .name 0, .push 0, .dial [58, 54],
      .listen [58, 54]] = some s ∧ s.dead = false ∧ (s.conns 0).stage = .pushed ∧ (s.conns 0).wait = .waiting ∧
    (s.conns 1).dialled = some [58, 54] ∧ (s.conns 1).stage = .polling ∧ s.listeners (formatAddr [58, 54]) = some 1 ∧
    s.accepting 1 = true ∧ s.recording 1 = false ∧ s.lChan 1 = none := ⟨_, rfl, rfl, rfl, rfl, rfl, rfl, rfl, rfl, rfl, rfl⟩

/-! ## C89: both ends agree on the outcome of `Dial` -/

/-- **C89 (refuted).**  `Dial` returns an error, yet the listener has accepted the connection and holds an end of it:
accepted between the last look at the clock and line 66, and accepted after `Dial` returned. -/
theorem C89_half_open_refuted :
    (∃ s j, run Net.step Net.init [.listen [58, 53], .dial [58, 53], .bump 0, .name 0, .push 0, .expire 0, .accept 0,
        .giveUp 0, .ret 0] = some s ∧ (s.conns 0).wait = .returned false ∧ j ≠ 0 ∧ (s.conns j).peer = some 0) ∧
    (∃ s j, run Net.step Net.init [.listen [58, 53], .dial [58, 53], .bump 0, .name 0, .push 0, .expire 0, .giveUp 0,
        .ret 0, .accept 0] = some s ∧ (s.conns 0).wait = .returned false ∧ j ≠ 0 ∧ (s.conns j).peer = some 0) :=
  ⟨⟨_, 1, rfl, rfl, by decide, rfl⟩, ⟨_, 1, rfl, rfl, by decide, rfl⟩⟩

/-- **C89 (partial).**  If `Dial` returns no error, the listener holds the other end; if the time of the routine does not
elapse, `Dial` does not return an error.  Missing: an error says nothing about the other side, see
`C89_half_open_refuted`. -/
theorem C89_outcome_partial (acts : List Act) (s : Net) (h : run Net.step Net.init acts = some s) (i : Nat) :
    (∀ a, (s.conns i).dialled = some a → (s.conns i).wait = .returned true → ∃ j, (s.conns i).peer = some j ∧ j ≠ i ∧
      (s.conns j).peer = some i) ∧
    (Act.expire i ∉ acts → (s.conns i).wait ≠ .returned false) := by
  constructor
  · intro a ha hr
    obtain ⟨j, _, h1, h2, h3, _⟩ := C34_paired acts s h i a ha (C34_dialled acts s h i hr)
    exact ⟨j, h1, h3, h2⟩
  · intro hn
    have : (s.conns i).wait ≠ .expired ∧ (s.conns i).wait ≠ .returned false ∧
        ((s.conns i).wait = .leaving → (s.conns i).status = 2) ∧
        ((s.conns i).wait ≠ .waiting → (s.conns i).stage = .pushed) := by
      refine run_inv_on (A := fun a => a ≠ .expire i) (I := fun s : Net => (s.conns i).wait ≠ .expired ∧
        (s.conns i).wait ≠ .returned false ∧ ((s.conns i).wait = .leaving → (s.conns i).status = 2) ∧
        ((s.conns i).wait ≠ .waiting → (s.conns i).stage = .pushed)) ?_ acts _ _
        (fun a ha e => hn (e ▸ ha)) (by simp [Net.init, noConn]) h
      intro s a t ha I h
      unfold Net.step at h
      split at h
      · cases h
      cases a <;> simp only at h <;> repeat' split at h
      all_goals cases h
      all_goals simp only [upd]
      all_goals grind [noConn]
    exact this.2.1

example : ∃ s, run Net.step Net.init [.listen [58, 53], .dial [49, 58, 53], .bump 0, .name 0, .push 0, .accept 0, .see 0,
    .ret 0, .record 0] = some s ∧ (s.conns 0).dialled = some [49, 58, 53] ∧ (s.conns 0).wait = .returned true ∧
    s.dead = false := ⟨_, rfl, rfl, rfl, rfl⟩

/-! ## C90: closing a mock listener -/

/-- **C90.**  After `Close` has sent its nil, no `Accept` of this listener yields a connection; the one that receives the
nil is the last. -/
theorem C90_no_accept (acts : List Act) (s s' : Net) (l : Nat) (h : run Net.step Net.init acts = some s)
    (hc : s.step (.lclose l) = some s') (acts' : List Act) (t u : Net) (h' : run Net.step s' acts' = some t)
    (ha : t.step (.accept l) = some u) :
    u.conns = t.conns ∧ u.nConns = t.nConns ∧
      ∀ acts'' v, run Net.step u acts'' = some v → v.step (.accept l) = none := by
  have I : l < t.nListeners ∧ (t.lChan l = some none ∨ t.accepting l = false) := by
    refine run_inv (I := fun t : Net => l < t.nListeners ∧ (t.lChan l = some none ∨ t.accepting l = false)) ?_ acts' s' t
      ?_ h'
    · intro s a t I h
      unfold Net.step at h
      split at h
      · cases h
      cases a <;> simp only at h <;> repeat' split at h
      all_goals cases h
      all_goals simp only [upd]
      all_goals grind
    · unfold Net.step at hc
      split at hc
      · cases hc
      simp only at hc
      repeat' split at hc
      all_goals cases hc
      rename_i hl _ _
      exact ⟨hl, Or.inl (by simp)⟩
  have J : u.conns = t.conns ∧ u.nConns = t.nConns ∧ l < u.nListeners ∧ u.accepting l = false := by
    unfold Net.step at ha
    split at ha
    · cases ha
    simp only at ha
    repeat' split at ha
    all_goals cases ha
    all_goals simp only [upd]
    all_goals grind
  refine ⟨J.1, J.2.1, ?_⟩
  intro acts'' v hv
  have K : l < v.nListeners ∧ v.accepting l = false := by
    refine run_inv (I := fun t : Net => l < t.nListeners ∧ t.accepting l = false) ?_ acts'' u v J.2.2 hv
    intro s a t I h
    unfold Net.step at h
    split at h
    · cases h
    cases a <;> simp only at h <;> repeat' split at h
    all_goals cases h
    all_goals simp only [upd]
    all_goals grind
  simp [Net.step, K.2]

example : ∃ s s' t u, run Net.step Net.init [.listen [58, 53], .dial [58, 53], .bump 0, .name 0] = some s ∧
    s.step (.lclose 0) = some s' ∧ run Net.step s' [.lclear 0] = some t ∧ t.step (.accept 0) = some u ∧
    u.accepting 0 = false := ⟨_, _, _, _, rfl, rfl, rfl, rfl, rfl⟩

/-- **C90 (refuted).**  A `Close` that overlaps with an `Accept` makes the accept routine write to a nil map, which ends
the process. -/
theorem C90_crash_refuted : ∃ acts s, run Net.step Net.init acts = some s ∧ s.dead = true :=
  ⟨[.listen [58, 53], .dial [58, 53], .bump 0, .name 0, .push 0, .accept 0, .lclose 0, .lclear 0, .record 0], _, rfl, rfl⟩

/-- **C90 (refuted).**  The third `Close` of a listener blocks for good, and so does the second one after a `Dial`. -/
theorem C90_blocks_refuted :
    (∃ s, run Net.step Net.init [.listen [58, 53], .lclose 0, .lclear 0, .accept 0, .lclose 0, .lclear 0] = some s ∧
      s.dead = false ∧ ∀ acts t, run Net.step s acts = some t → t.step (.lclose 0) = none) ∧
    (∃ s, run Net.step Net.init [.listen [58, 53], .lclose 0, .lclear 0, .accept 0, .dial [58, 53], .bump 0, .name 0,
        .push 0] = some s ∧
      s.dead = false ∧ ∀ acts t, run Net.step s acts = some t → t.step (.lclose 0) = none) := by
  have key : ∀ s : Net, 0 < s.nListeners → s.lChan 0 ≠ none → s.accepting 0 = false →
      ∀ acts t, run Net.step s acts = some t → t.step (.lclose 0) = none := by
    intro s h1 h2 h3 acts t h
    have I : 0 < t.nListeners ∧ t.lChan 0 ≠ none ∧ t.accepting 0 = false := by
      refine run_inv (I := fun t : Net => 0 < t.nListeners ∧ t.lChan 0 ≠ none ∧ t.accepting 0 = false) ?_ acts s t
        ⟨h1, h2, h3⟩ h
      intro s a t I h
      unfold Net.step at h
      split at h
      · cases h
      cases a <;> simp only at h <;> repeat' split at h
      all_goals cases h
      all_goals simp only [upd]
      all_goals grind
    cases e : t.lChan 0 with
    | none => exact absurd e I.2.1
    | some x => simp [Net.step, e]
  exact ⟨⟨_, rfl, rfl, key _ (by decide) (by decide) rfl⟩, ⟨_, rfl, rfl, key _ (by decide) (by decide) rfl⟩⟩

/-- **C90 (partial).**  If no `Close` drops the map while an `Accept` is between lines 104 and 117, the process does not
crash.  Missing: `C90_crash_refuted`,
`C90_blocks_refuted`. -/
theorem C90_safe_partial (acts : List Act) (s : Net) (h : run Net.step Net.init acts = some s)
    (hn : AllSteps Net.step Net.init acts fun s a => ∀ l, a = .lclear l → s.recording l = false) : s.dead = false := by
  have : s.dead = false ∧ ∀ l, (s.hasMap l = false → s.recording l = false) ∧
      (0 < s.closing l ∨ s.hasMap l = false → l < s.nListeners ∧ (s.lChan l = some none ∨ s.accepting l = false)) := by
    refine run_inv_steps (I := fun s : Net => s.dead = false ∧ ∀ l, (s.hasMap l = false → s.recording l = false) ∧
      (0 < s.closing l ∨ s.hasMap l = false → l < s.nListeners ∧ (s.lChan l = some none ∨ s.accepting l = false)))
      ?_ acts _ _ hn (by simp [Net.init]) h
    intro s a t hok I h
    unfold Net.step at h
    split at h
    · cases h
    cases a <;> simp only at h <;> repeat' split at h
    all_goals cases h
    all_goals simp only [upd]
    all_goals grind
  exact this.1

example : ∃ s, run Net.step Net.init [.listen [58, 53], .dial [58, 53], .bump 0, .name 0, .push 0, .accept 0, .lclose 0,
    .record 0, .lclear 0, .accept 0] = some s ∧ s.dead = false ∧ s.accepting 0 = false := ⟨_, rfl, rfl, rfl⟩

end Verif.Props
