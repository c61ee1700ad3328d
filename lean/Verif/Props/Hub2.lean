import Verif.Props.Hub1

/-!
# C49 to C53: queries, isolation, disconnections, addresses
-/

namespace Verif.Props

open Verif Verif.Proto Verif.Hub

/-! ## C49

`Offered R log p slot addr`: in the history `log` peer `p` registered `slot`, was given the address `addr`, and
afterwards sent a ready packet naming `slot`. -/

/-- C49, first part: the address in a response was offered for a slot that the receiver had asked for; for the very
slot of the query: see the next theorem. -/
theorem C49_response_was_offered (R : Nat → Str) (black : List Int) (acts : List Act) (s : State)
    (h : run (State.step R black) .init acts = some s) (pre post : List Ev) (c : Nat) (addr : Str)
    (e : s.log = pre ++ .sent c (.queryResponse addr) :: post) :
    ∃ slot p, Ev.query c slot ∈ pre ∧ Offered R pre p slot addr :=
  (hubInv_run R black h).ask.answered pre post c addr e

/-- C49, first part, by query. -/
theorem C49_answer_was_offered (R : Nat → Str) (black : List Int) (acts : List Act) (s : State)
    (h : run (State.step R black) .init acts = some s) (q : Nat) (addr : Str) (e : (s.query q).phase = .done addr) :
    ∃ p, Offered R s.log p (s.query q).slot addr := by
  obtain ⟨k, st, h1, h2, h3⟩ := (hubInv_run R black h).query.done q addr e
  exact ⟨st.peer, h3 ▸ (hubInv_run R black h).stub.offered _ st (List.mem_iff_getElem?.mpr ⟨k, h1⟩) h2⟩

/-- The search of a query that began in `s`, as seen from a later state `u`. -/
structure Searching (q : Nat) (s u : State) : Prop where
  grows : Grows s u
  slot : (u.query q).slot = (s.query q).slot
  range : ∀ k, (u.query q).phase = .seek k → k < (s.stubs (s.query q).slot).length ∧
    ∀ (j : Nat) (st : Stub), k < j → (s.stubs (s.query q).slot)[j]? = some st → st.ready = false
  found : ∀ k, (u.query q).phase = .chosen k → k < (s.stubs (s.query q).slot).length ∧
    ∀ (j : Nat) (st : Stub), k < j → (s.stubs (s.query q).slot)[j]? = some st → st.ready = false
  done : ∀ addr, (u.query q).phase = .done addr → ∃ (k : Nat) (st : Stub),
    (s.stubs (s.query q).slot)[k]? = some st ∧ st.addr = addr ∧
    ∀ (j : Nat) (st : Stub), k < j → (s.stubs (s.query q).slot)[j]? = some st → st.ready = false

theorem searching_same {q : Nat} {s u v : State} (I : Searching q s u) (g : Grows u v)
    (h : v.query q = u.query q) : Searching q s v :=
  ⟨I.grows.trans g, by rw [h]; exact I.slot, by rw [h]; exact I.range, by rw [h]; exact I.found, by rw [h]; exact I.done⟩

theorem searching_step (R : Nat → Str) (black : List Int) (q : Nat) (s u : State) (a : Act) (v : State)
    (ha : a ≠ .look q) (hn : q < u.n) (I : Searching q s u) (h : u.step R black a = some v) : Searching q s v := by
  have g := grows_step R black h
  unfold State.step at h
  split at h
  · cases h
  cases a with
  | recv p pkt =>
    simp only at h
    repeat' split at h
    all_goals cases h
    all_goals refine searching_same I g ?_
    all_goals first
      | rfl
      | (simp only [upd]; rw [if_neg (by omega)])
  | work p =>
    simp only at h
    repeat' split at h
    all_goals (cases h; try exact searching_same I g rfl)
  | close p => cases h; exact searching_same I g rfl
  | look r =>
    have hr : q ≠ r := fun e => ha (e ▸ rfl)
    simp only at h
    repeat' split at h
    all_goals (cases h; try exact searching_same I g (by simp [upd, hr]))
  | examine r =>
    by_cases hr : q = r
    · subst hr
      simp only at h
      split at h
      · rename_i k hk
        obtain ⟨h1, h2⟩ := I.range k hk
        split at h
        · rename_i st hst
          split at h
          · cases h
            refine ⟨I.grows.trans g, by simp [upd, I.slot], by simp [upd], ?_, by simp [upd]⟩
            intro k' e
            simp only [upd_same, Phase.chosen.injEq] at e
            subst e
            exact ⟨h1, h2⟩
          · rename_i hnr
            have hno : ∀ st', (s.stubs (s.query q).slot)[k]? = some st' → st'.ready = false := by
              intro st' e
              obtain ⟨st'', e1, _, _, e4⟩ := I.grows _ _ _ e
              rw [I.slot, e1] at hst
              cases hst
              cases hr' : st'.ready
              · rfl
              · exact absurd (e4 hr') hnr
            split at h
            · cases h
              exact ⟨I.grows.trans g, by simp [upd, I.slot], by simp [upd], by simp [upd], by simp [upd]⟩
            · rename_i k'
              cases h
              refine ⟨I.grows.trans g, by simp [upd, I.slot], ?_, by simp [upd], by simp [upd]⟩
              intro k'' e
              simp only [upd_same, Phase.seek.injEq] at e
              subst e
              refine ⟨by omega, fun j st' hj e => ?_⟩
              by_cases hj' : j = k' + 1
              · subst hj'; exact hno _ e
              · exact h2 j st' (by omega) e
        · cases h
      · cases h
    · simp only at h
      repeat' split at h
      all_goals (cases h; try exact searching_same I g (by simp [upd, hr]))
  | respond r =>
    by_cases hr : q = r
    · subst hr
      simp only at h
      split at h
      · rename_i k hk
        obtain ⟨h1, h2⟩ := I.found k hk
        split at h
        · rename_i st hst
          cases h
          refine ⟨I.grows.trans g, by simp [upd, I.slot], by simp [upd], by simp [upd], ?_⟩
          intro addr e
          simp only [upd_same, Phase.done.injEq] at e
          subst e
          obtain ⟨st', e1, e2, _⟩ := I.grows _ _ _ (List.getElem?_eq_getElem h1)
          rw [I.slot, e1] at hst
          cases hst
          exact ⟨k, _, List.getElem?_eq_getElem h1, e2.symm, h2⟩
        · cases h
      · cases h
    · simp only at h
      repeat' split at h
      all_goals (cases h; try exact searching_same I g (by simp [upd, hr]))

theorem n_step (R : Nat → Str) (black : List Int) {s : State} {a : Act} {t : State} (h : s.step R black a = some t) :
    s.n ≤ t.n := by
  unfold State.step at h
  split at h
  · cases h
  cases a <;> simp only at h <;> repeat' split at h
  all_goals (cases h; try first | exact Nat.le_refl _ | exact Nat.le_succ _)

theorem look_top (R : Nat → Str) (black : List Int) {s t : State} {q : Nat} (h : s.step R black (.look q) = some t) :
    (s.query q).phase = .top ∧ q < s.n ∧ s.stubs = t.stubs ∧ (t.query q).slot = (s.query q).slot ∧ t.n = s.n ∧
      (t.query q).phase = match (s.stubs (s.query q).slot).length with | 0 => .top | k + 1 => .seek k := by
  unfold State.step at h
  split at h
  · cases h
  simp only at h
  split at h
  · rename_i hn
    split at h
    · rename_i hp
      split at h
      · rename_i hl; cases h; exact ⟨hp, hn, rfl, rfl, rfl, by rw [hl]; exact hp⟩
      · rename_i hl; cases h; exact ⟨hp, hn, rfl, by simp, rfl, by rw [hl]; simp⟩
    · cases h
  · cases h

theorem searching_look (R : Nat → Str) (black : List Int) {s t : State} {q : Nat}
    (h : s.step R black (.look q) = some t) : Searching q s t := by
  have g := grows_step R black h
  obtain ⟨_, _, _, hs, _, hp⟩ := look_top R black h
  cases hl : (s.stubs (s.query q).slot).length with
  | zero =>
    rw [hl] at hp
    refine ⟨g, hs, ?_, ?_, ?_⟩ <;> simp [hp]
  | succ k =>
    rw [hl] at hp
    refine ⟨g, hs, ?_, ?_, ?_⟩
    · intro k' e
      rw [hp] at e
      simp only [Phase.seek.injEq] at e
      subst e
      refine ⟨by omega, fun j st hj e => ?_⟩
      have := (List.getElem?_eq_some_iff.mp e).1
      omega
    · simp [hp]
    · simp [hp]

/-- C49, second part: the address is that of the newest registration that was ready when the routine began the
search (the action `look`) it found it in: in the list of that time no later stub was ready.  Missing: the same for
the moment of the answer, which is `C49_newest_refuted`. -/
theorem C49_newest_partial (R : Nat → Str) (black : List Int) (s t u : State) (mid : List Act) (q : Nat) (addr : Str)
    (hl : s.step R black (.look q) = some t) (hm : Act.look q ∉ mid)
    (hr : run (State.step R black) t mid = some u) (hd : (u.query q).phase = .done addr) :
    ∃ (k : Nat) (st : Stub), (s.stubs (s.query q).slot)[k]? = some st ∧ st.addr = addr ∧
      ∀ (j : Nat) (st : Stub), k < j → (s.stubs (s.query q).slot)[j]? = some st → st.ready = false := by
  have I : Searching q s u ∧ q < u.n :=
    run_inv_on (A := fun a => a ≠ .look q) (I := fun u => Searching q s u ∧ q < u.n)
      (fun u a v ha I h => ⟨searching_step R black q s u a v ha I.2 I.1 h, Nat.lt_of_lt_of_le I.2 (n_step R black h)⟩)
      mid t u (fun a ha e => hm (e ▸ ha))
      ⟨searching_look R black hl, by have := look_top R black hl; omega⟩ hr
  exact I.1.done addr hd

/-- The state before the search of the example: two docks ready, the second one newer. -/
example : ∃ acts s, run (State.step hubAddrs []) .init acts = some s ∧
    (s.query 0).phase = .done (fullAddr [98] 20001) :=
  ⟨hubRegister 0 ++ hubRegister 1 ++ hubReady 0 ++ hubReady 1 ++ [hubAsk 2, .look 0, .examine 0, .respond 0],
    _, rfl, rfl⟩

/-- C49 in full is violated: the routine may pass the newest stub before it becomes ready, and answer with an older
one after it became ready. -/
theorem C49_newest_refuted : ∃ acts s t old new,
    run (State.step hubAddrs []) .init acts = some s ∧
    s.stubs slotA = [⟨old, 0, true⟩, ⟨new, 1, true⟩] ∧ old ≠ new ∧ (s.query 0).slot = slotA ∧
    run (State.step hubAddrs []) s [.examine 0, .respond 0] = some t ∧ (t.query 0).phase = .done old :=
  ⟨hubRegister 0 ++ hubRegister 1 ++ hubReady 0 ++ [hubAsk 2, .look 0, .examine 0] ++ hubReady 1, _, _,
    fullAddr [97] 20001, fullAddr [98] 20001, rfl, rfl, by simp [fullAddr], rfl, rfl, rfl⟩

/-! ## C50 -/

/-- C50, first part: an entry keeps its place, its address and its peer, and stays ready. -/
theorem C50_never_withdrawn (R : Nat → Str) (black : List Int) (s t : State) (acts : List Act)
    (h : run (State.step R black) s acts = some t) (slot : Str) (k : Nat) (st : Stub)
    (hk : (s.stubs slot)[k]? = some st) : ∃ st', (t.stubs slot)[k]? = some st' ∧ st'.addr = st.addr ∧
      st'.peer = st.peer ∧ (st.ready = true → st'.ready = true) :=
  grows_run R black h slot k st hk

/-- Something is ready once a dock has registered, reported ready, and the packet has been handled. -/
theorem offered_ready {R : Nat → Str} {s : State} (I : HubInv R s) {p : Nat} {slot addr : Str}
    (h : Offered R s.log p slot addr) (hi : s.task p = .idle) : ∃ st ∈ s.stubs slot, st.ready = true := by
  obtain ⟨pre, post, slots, e, hs, ss, po, hm, hs', _⟩ := h
  rcases I.effect.marked pre post p slots e slot hs ⟨ss, po, hm, hs'⟩ with ⟨st, h, _, hr⟩ | ⟨h, _⟩
  · exact ⟨st, h, hr⟩
  · rw [hi] at h; cases h

/-- How many steps the routine of query `q` has left at most. -/
def stepsLeft (ph : Phase) : Nat :=
  match ph with
  | .top => 0
  | .seek k => k + 2
  | .chosen _ => 1
  | .done _ => 0

/-- The query is past `look` and will find the entry `k0`. -/
structure Finding (q : Nat) (sl : Str) (k0 : Nat) (u : State) : Prop where
  slot : (u.query q).slot = sl
  ready : ∃ st : Stub, (u.stubs sl)[k0]? = some st ∧ st.ready = true
  notTop : (u.query q).phase ≠ .top
  above : ∀ k, (u.query q).phase = .seek k → k0 ≤ k ∧ k < (u.stubs sl).length
  chosen : ∀ k, (u.query q).phase = .chosen k → k < (u.stubs sl).length

theorem finding_same {q : Nat} {slot : Str} {k0 : Nat} {u v : State} (I : Finding q slot k0 u) (g : Grows u v)
    (h : v.query q = u.query q) : Finding q slot k0 v := by
  obtain ⟨h1, ⟨st, h2, h3⟩, h4, h5, h6⟩ := I
  obtain ⟨st', e1, _, _, e4⟩ := g _ _ _ h2
  refine ⟨by rw [h]; exact h1, ⟨st', e1, e4 h3⟩, by rw [h]; exact h4, ?_, ?_⟩
  · intro k e; rw [h] at e; exact ⟨(h5 k e).1, Nat.lt_of_lt_of_le (h5 k e).2 (g.length _)⟩
  · intro k e; rw [h] at e; exact Nat.lt_of_lt_of_le (h6 k e) (g.length _)

/-- An action of the routine of query `q`. -/
def ofQuery (q : Nat) (a : Act) : Bool := match a with
  | .look r => r = q
  | .examine r => r = q
  | .respond r => r = q
  | _ => false

theorem finding_step (R : Nat → Str) (black : List Int) (q : Nat) (slot : Str) (k0 : Nat) (u : State) (a : Act) (v : State)
    (hn : q < u.n) (I : Finding q slot k0 u) (h : u.step R black a = some v) : Finding q slot k0 v ∧
      stepsLeft (v.query q).phase + (if ofQuery q a then 1 else 0) ≤ stepsLeft (u.query q).phase := by
  have hlook : a ≠ .look q := fun e => I.notTop (look_top R black (e ▸ h)).1
  have g := grows_step R black h
  unfold State.step at h
  split at h
  · cases h
  cases a with
  | recv p pkt =>
    simp only at h
    repeat' split at h
    all_goals cases h
    all_goals first
      | exact ⟨finding_same I g rfl, by simp [ofQuery]⟩
      | exact ⟨finding_same I g (by simp only [upd]; rw [if_neg (by omega)]), by
          simp only [upd, ofQuery]; rw [if_neg (by omega)]; simp⟩
  | work p =>
    simp only at h
    repeat' split at h
    all_goals (cases h; try exact ⟨finding_same I g rfl, by simp [ofQuery]⟩)
  | close p => cases h; exact ⟨finding_same I g rfl, by simp [ofQuery]⟩
  | look r =>
    by_cases hr : q = r
    · subst hr
      exact absurd rfl hlook
    · have hr' : ¬ r = q := fun e => hr e.symm
      simp only at h
      repeat' split at h
      all_goals (cases h; try exact ⟨finding_same I g (by simp [upd, hr]), by simp [upd, hr, hr', ofQuery]⟩)
  | examine r =>
    by_cases hr : q = r
    · subst hr
      simp only at h
      split at h
      · rename_i k hk
        obtain ⟨h1, h2⟩ := I.above k hk
        split at h
        · rename_i st hst
          rw [I.slot] at hst
          obtain ⟨st0, hst0, hr0⟩ := I.ready
          split at h
          · cases h
            refine ⟨⟨by simp [upd, I.slot], ⟨st0, hst0, hr0⟩, by simp [upd], by simp [upd], ?_⟩, ?_⟩
            · intro k' e
              simp only [upd_same, Phase.chosen.injEq] at e
              subst e
              exact h2
            · simp [upd, hk, stepsLeft, ofQuery]
          · rename_i hnr
            have hne : k ≠ k0 := by
              rintro rfl
              rw [hst0] at hst
              cases hst
              exact hnr hr0
            split at h
            · omega
            · rename_i k'
              cases h
              refine ⟨⟨by simp [upd, I.slot], ⟨st0, hst0, hr0⟩, by simp [upd], ?_, by simp [upd]⟩, ?_⟩
              · intro k'' e
                simp only [upd_same, Phase.seek.injEq] at e
                subst e
                exact ⟨by omega, Nat.lt_of_succ_lt h2⟩
              · simp [upd, hk, stepsLeft, ofQuery]
        · cases h
      · cases h
    · have hr' : ¬ r = q := fun e => hr e.symm
      simp only at h
      repeat' split at h
      all_goals (cases h; try exact ⟨finding_same I g (by simp [upd, hr]), by simp [upd, hr, hr', ofQuery]⟩)
  | respond r =>
    by_cases hr : q = r
    · subst hr
      simp only at h
      split at h
      · rename_i k hk
        split at h
        · cases h
          obtain ⟨st0, hst0, hr0⟩ := I.ready
          exact ⟨⟨by simp [upd, I.slot], ⟨st0, hst0, hr0⟩, by simp [upd], by simp [upd], by simp [upd]⟩,
            by simp [upd, hk, stepsLeft, ofQuery]⟩
        · cases h
      · cases h
    · have hr' : ¬ r = q := fun e => hr e.symm
      simp only at h
      repeat' split at h
      all_goals (cases h; try exact ⟨finding_same I g (by simp [upd, hr]), by simp [upd, hr, hr', ofQuery]⟩)

theorem finding_run (R : Nat → Str) (black : List Int) (q : Nat) (slot : Str) (k0 : Nat) : ∀ (mid : List Act) (t u : State),
    q < t.n → Finding q slot k0 t → run (State.step R black) t mid = some u →
    Finding q slot k0 u ∧ stepsLeft (u.query q).phase + (mid.filter (ofQuery q)).length ≤ stepsLeft (t.query q).phase := by
  intro mid
  induction mid with
  | nil => intro t u _ I h; cases h; exact ⟨I, by simp⟩
  | cons a mid ih =>
    intro t u hn I h
    simp only [run] at h
    split at h
    · cases h
    · rename_i v hv
      obtain ⟨I', hle⟩ := finding_step R black q slot k0 t a v hn I hv
      obtain ⟨I'', hle'⟩ := ih v u (Nat.lt_of_lt_of_le hn (n_step R black hv)) I' h
      refine ⟨I'', ?_⟩
      rw [List.filter_cons]
      split <;> rename_i ho
      · rw [if_pos ho] at hle; rw [List.length_cons]; omega
      · rw [if_neg ho] at hle; omega

/-- C50, second part: once a dock has registered a slot and its ready packet has been handled, a routine of a pending
query for that slot that looks (the action `look`) never has to look again: in every continuation it takes at most as
many further steps as there were entries, plus one, and as long as it has not answered it can take the next one. -/
theorem C50_answered_at_next_look (R : Nat → Str) (black : List Int) (acts : List Act) (s t u : State) (mid : List Act)
    (h : run (State.step R black) .init acts = some s) (q p : Nat) (addr : Str)
    (ho : Offered R s.log p (s.query q).slot addr) (hi : s.task p = .idle)
    (hl : s.step R black (.look q) = some t) (hr : run (State.step R black) t mid = some u) :
    (u.query q).phase ≠ .top ∧
    (mid.filter (ofQuery q)).length ≤ (s.stubs (s.query q).slot).length + 1 ∧
    ((∃ a, (u.query q).phase = .done a) ∨ u.dead = true ∨
      (u.step R black (.examine q)).isSome ∨ (u.step R black (.respond q)).isSome) := by
  obtain ⟨st, hst, hready⟩ := offered_ready (hubInv_run R black h) ho hi
  obtain ⟨k0, hk0⟩ := List.mem_iff_getElem?.mp hst
  obtain ⟨_, hn, hstubs, hs, hn', hp⟩ := look_top R black hl
  have hlen := (List.getElem?_eq_some_iff.mp hk0).1
  obtain ⟨k, hk⟩ : ∃ k, (s.stubs (s.query q).slot).length = k + 1 := ⟨_, (Nat.succ_pred (by omega)).symm⟩
  rw [hk] at hp
  have F : Finding q (s.query q).slot k0 t := by
    refine ⟨hs, ⟨st, by rw [← hstubs]; exact hk0, hready⟩, by simp [hp], ?_, by simp [hp]⟩
    intro k' e
    rw [hp] at e
    simp only [Phase.seek.injEq] at e
    rw [← hstubs]
    omega
  obtain ⟨F', hle⟩ := finding_run R black q _ k0 mid t u (by omega) F hr
  rw [hp] at hle
  refine ⟨F'.notTop, by simp only [stepsLeft] at hle; omega, ?_⟩
  cases hph : (u.query q).phase with
  | top => exact absurd hph F'.notTop
  | done a => exact .inl ⟨a, rfl⟩
  | seek k' =>
    right
    cases hd : u.dead
    · right; left
      have hk' := (F'.above k' hph).2
      unfold State.step
      rw [if_neg (by simp [hd])]
      simp only [hph, F'.slot, List.getElem?_eq_getElem hk']
      split
      · rfl
      · cases k' <;> rfl
    · exact .inl rfl
  | chosen k' =>
    right
    cases hd : u.dead
    · right; right
      have hk' := F'.chosen k' hph
      unfold State.step
      rw [if_neg (by simp [hd])]
      simp [hph, F'.slot, List.getElem?_eq_getElem hk']
    · exact .inl rfl

/-- C50, third part: before a dock has registered the slot and reported ready, the query is not answered. -/
theorem C50_not_before (R : Nat → Str) (black : List Int) (acts : List Act) (s : State)
    (h : run (State.step R black) .init acts = some s) (q : Nat)
    (hno : ∀ p addr, ¬ Offered R s.log p (s.query q).slot addr) (addr : Str) : (s.query q).phase ≠ .done addr := by
  intro e
  obtain ⟨p, ho⟩ := C49_answer_was_offered R black acts s h q addr e
  exact hno p addr ho

/-- A query waits while the dock is registered but not ready, and is answered when it is. -/
example : ∃ acts s t, run (State.step hubAddrs []) .init acts = some s ∧ (s.query 0).phase = .top ∧ s.n = 1 ∧
    run (State.step hubAddrs []) s (hubReady 0 ++ [.look 0, .examine 0, .respond 0]) = some t ∧
    (t.query 0).phase = .done (fullAddr [97] 20001) :=
  ⟨hubAsk 2 :: .look 0 :: hubRegister 0 ++ [.look 0, .examine 0], _, _, rfl, rfl, rfl, rfl, rfl⟩

/-! ## C51 -/

theorem mark_filter (p : Nat) (l : List Stub) : (mark p l).filter (fun st => st.peer ≠ p) = l.filter (fun st => st.peer ≠ p) := by
  induction l with
  | nil => rfl
  | cons x l ih =>
    simp only [mark]
    split
    · rename_i e; simp [List.filter_cons, e]
    · rename_i e; rw [List.filter_cons, List.filter_cons, ih]

/-- C51: as long as no other peer's packets are handled, whatever `p` sends and whatever the routines of the queries
do, the entries of the other peers stay as they are and in the same order, and so do the port counters of the other
hosts. -/
theorem C51_isolated (R : Nat → Str) (black : List Int) (s t : State) (acts : List Act) (p : Nat)
    (h : run (State.step R black) s acts = some t)
    (ho : ∀ a ∈ acts, ∀ r, (∃ pkt, a = .recv r pkt) ∨ a = .work r → r = p) :
    (∀ slot, (t.stubs slot).filter (fun st => st.peer ≠ p) = (s.stubs slot).filter (fun st => st.peer ≠ p)) ∧
    ∀ host, host ≠ pickIP (R p) → t.ports host = s.ports host := by
  refine run_inv_on (A := fun a => ∀ r, (∃ pkt, a = .recv r pkt) ∨ a = .work r → r = p)
    (I := fun t => (∀ slot, (t.stubs slot).filter (fun st => st.peer ≠ p) = (s.stubs slot).filter (fun st => st.peer ≠ p)) ∧
      ∀ host, host ≠ pickIP (R p) → t.ports host = s.ports host) ?_ acts s t ho
    ⟨fun _ => rfl, fun _ _ => rfl⟩ h
  intro u a v hA I h
  unfold State.step at h
  split at h
  · cases h
  cases a with
  | recv r pkt =>
    have : r = p := hA r (.inl ⟨pkt, rfl⟩)
    subst this
    simp only at h
    repeat' split at h
    all_goals cases h
    · exact I
    · refine ⟨I.1, fun host hh => ?_⟩
      simp only [upd, if_neg hh]
      exact I.2 host hh
    all_goals exact I
  | work r =>
    have : r = p := hA r (.inr rfl)
    subst this
    simp only at h
    repeat' split at h
    all_goals cases h
    · refine ⟨fun slot => ?_, I.2⟩
      simp only [upd]
      split
      · rename_i e; subst e; rw [List.filter_append, I.1]; simp
      · exact I.1 slot
    · exact I
    · refine ⟨fun slot => ?_, I.2⟩
      simp only [upd]
      split
      · rename_i e; subst e; rw [mark_filter, I.1]
      · exact I.1 slot
    · exact I
  | _ =>
    simp only at h
    repeat' split at h
    all_goals (cases h; try exact I)

/-- Peer 1 registers, reports ready and asks; the entry of peer 0 stays not ready. -/
example : ∃ acts s t, run (State.step hubAddrs []) .init acts = some s ∧
    run (State.step hubAddrs []) s (hubRegister 1 ++ hubReady 1 ++ [hubAsk 1, .look 0]) = some t ∧
    s.stubs slotA = [⟨fullAddr [97] 20001, 0, false⟩] ∧
    t.stubs slotA = [⟨fullAddr [97] 20001, 0, false⟩, ⟨fullAddr [98] 20001, 1, true⟩] :=
  ⟨hubRegister 0, _, _, rfl, rfl, rfl, rfl⟩

/-! ## C52 -/

/-- C52 is violated: a query that arrives after the only dock has disconnected is answered with its address. -/
theorem C52_dead_dock_refuted : ∃ acts s, run (State.step hubAddrs []) .init acts = some s ∧ s.closed 0 = true ∧
    ∃ pre addr, s.log = pre ++ [.closed 0, .query 2 slotA, .sent 2 (.queryResponse addr)] ∧
      addr = fullAddr [97] 20001 ∧ Ev.added 0 slotA addr ∈ pre :=
  ⟨hubRegister 0 ++ hubReady 0 ++ [.close 0, hubAsk 2, .look 0, .examine 0, .respond 0], _, rfl, rfl,
    [.register 0 [slotA] 20001, .added 0 slotA (fullAddr [97] 20001), .sent 0 (.registerResponse 20001), .ready 0 [slotA]],
    _, rfl, rfl, .tail _ (.head _)⟩

/-- Why: the end of a connection changes neither the entries nor what queries find. -/
theorem C52_close_changes_nothing (R : Nat → Str) (black : List Int) (s t : State) (p : Nat)
    (h : s.step R black (.close p) = some t) : t.stubs = s.stubs ∧ t.query = s.query ∧ t.ports = s.ports ∧ t.task = s.task := by
  unfold State.step at h
  split at h
  · cases h
  · cases h; exact ⟨rfl, rfl, rfl, rfl⟩

/-! ## C53 -/

/-- C53: the host is right exactly if it contains no colon. -/
theorem C53_host_partial (host port : Str) : pickIP (host ++ colon :: port) = host ↔ colon ∉ host := by
  constructor
  · intro e he
    exact colon_notMem_firstSegment _ (show colon ∈ firstSegment (host ++ colon :: port) from by
      unfold pickIP at e; rw [e]; exact he)
  · exact firstSegment_append host port

/-- C53 for the address the hub records and hands out: the host of the remote address with the allocated port. -/
theorem C53_recorded_partial (R : Nat → Str) (black : List Int) (acts : List Act) (s : State)
    (h : run (State.step R black) .init acts = some s) (slot : Str) (st : Stub) (hst : st ∈ s.stubs slot)
    (host x : Str) (hR : R st.peer = host ++ colon :: x) (hc : colon ∉ host) :
    ∃ slots port, Ev.register st.peer slots port ∈ s.log ∧ slot ∈ slots ∧ st.addr = host ++ colon :: decimal port := by
  obtain ⟨slots, port, h1, h2, h3⟩ := (stubInv_run R black h).registered slot st hst
  refine ⟨slots, port, h1, h2, ?_⟩
  rw [h3, hR, fullAddr, (C53_host_partial host x).mpr hc]

/-- "127.0.0.1:80" -/
example : pickIP [49, 50, 55, 46, 48, 46, 48, 46, 49, 58, 56, 48] = [49, 50, 55, 46, 48, 46, 48, 46, 49] := by decide

/-- C53 is violated for IPv6: the host of "[::1]:80" becomes "[". -/
theorem C53_host_refuted : pickIP [91, 58, 58, 49, 93, 58, 56, 48] = [91] ∧
    ([91, 58, 58, 49, 93, 58, 56, 48] : Str) = [91, 58, 58, 49, 93] ++ colon :: [56, 48] := by decide

end Verif.Props
