import Verif.Hub.Stubs

/-!
# Facts about the hub: what the history implies about the state
-/

namespace Verif.Hub

open Verif Verif.Proto

theorem mark_first {p : Nat} {l : List Stub} (h : ∃ st ∈ l, st.peer = p) : ∃ st ∈ mark p l, st.peer = p ∧ st.ready = true := by
  induction l with
  | nil => simp at h
  | cons x l ih =>
    simp only [mark]
    split
    · rename_i e; exact ⟨_, List.mem_cons_self .., e, rfl⟩
    · rename_i e
      have : ∃ st ∈ l, st.peer = p := by
        obtain ⟨st, h, hp⟩ := h
        rcases List.mem_cons.mp h with rfl | h
        · exact absurd hp e
        · exact ⟨st, h, hp⟩
      obtain ⟨st, h, hp⟩ := ih this
      exact ⟨st, List.mem_cons_of_mem _ h, hp⟩

theorem Grows.mem {s t : State} (g : Grows s t) {slot : Str} {st : Stub} (h : st ∈ s.stubs slot) :
    ∃ st' ∈ t.stubs slot, st'.addr = st.addr ∧ st'.peer = st.peer ∧ (st.ready = true → st'.ready = true) := by
  obtain ⟨k, hk⟩ := List.mem_iff_getElem?.mp h
  obtain ⟨st', e1, e2⟩ := g slot k st hk
  exact ⟨st', List.mem_iff_getElem?.mpr ⟨k, e1⟩, e2⟩

/-- Which slots a goroutine still has to add, and mark. -/
def Task.toAdd : Task → List Str
  | .adding _ _ rest => rest
  | _ => []

def Task.toMark : Task → List Str
  | .marking rest => rest
  | _ => []

/-- Every registration and every report takes effect, at the latest when the goroutine is idle again. -/
structure EffectInv (s : State) : Prop where
  added : ∀ p slots port, Ev.register p slots port ∈ s.log → ∀ slot ∈ slots,
    (∃ st ∈ s.stubs slot, st.peer = p) ∨ slot ∈ (s.task p).toAdd
  marked : ∀ pre post p slots, s.log = pre ++ Ev.ready p slots :: post → ∀ slot ∈ slots,
    (∃ slots' port, Ev.register p slots' port ∈ pre ∧ slot ∈ slots') →
    (∃ st ∈ s.stubs slot, st.peer = p ∧ st.ready = true) ∨ (slot ∈ (s.task p).toMark ∧ ∃ st ∈ s.stubs slot, st.peer = p)

theorem split_append {α : Type} {l pre post : List α} {x y : α} (h : l ++ [y] = pre ++ x :: post) :
    (∃ post', l = pre ++ x :: post') ∨ (pre = l ∧ x = y ∧ post = []) := by
  rcases List.eq_nil_or_concat post with rfl | ⟨post', z, rfl⟩
  · right
    have := List.append_inj' h rfl
    exact ⟨this.1.symm, by simpa using this.2.symm, rfl⟩
  · left
    have : l ++ [y] = (pre ++ x :: post') ++ [z] := by simpa using h
    have := List.append_inj' this rfl
    exact ⟨post', this.1⟩

theorem effectInv_same {s t : State} (I : EffectInv s) (g : Grows s t) (l : List Ev) (h2 : t.log = s.log ++ l)
    (hl : l = [] ∨ ∃ e, l = [e] ∧ (∀ p ss po, e ≠ .register p ss po) ∧ (∀ p ss, e ≠ .ready p ss))
    (h3 : ∀ p, ((∀ x ∈ (s.task p).toAdd, x ∈ (t.task p).toAdd) ∧ (∀ x ∈ (s.task p).toMark, x ∈ (t.task p).toMark))) :
    EffectInv t := by
  constructor
  · intro p slots port h slot hs
    have h' : Ev.register p slots port ∈ s.log := by
      rw [h2] at h
      rcases List.mem_append.mp h with h | h
      · exact h
      · rcases hl with rfl | ⟨e, rfl, he, _⟩
        · cases h
        · rw [List.mem_singleton] at h; exact absurd h.symm (he _ _ _)
    rcases I.added p slots port h' slot hs with ⟨st, hst, hp⟩ | h
    · obtain ⟨st', h1, h2, h3, _⟩ := g.mem hst
      exact .inl ⟨st', h1, h3.trans hp⟩
    · exact .inr ((h3 p).1 _ h)
  · intro pre post p slots h slot hs hr
    have h' : ∃ post', s.log = pre ++ Ev.ready p slots :: post' := by
      rw [h2] at h
      rcases hl with rfl | ⟨e, rfl, _, he⟩
      · rw [List.append_nil] at h; exact ⟨_, h⟩
      · rcases split_append h with h | ⟨_, h, _⟩
        · exact h
        · exact absurd h.symm (he _ _)
    obtain ⟨post', h'⟩ := h'
    rcases I.marked pre post' p slots h' slot hs hr with ⟨st, hst, hp, hr⟩ | ⟨h, st, hst, hp⟩
    · obtain ⟨st', h1, h2, h3, h4⟩ := g.mem hst
      exact .inl ⟨st', h1, h3.trans hp, h4 hr⟩
    · obtain ⟨st', h1, h2, h4, _⟩ := g.mem hst
      exact .inr ⟨(h3 p).2 _ h, st', h1, h4.trans hp⟩

theorem effectInv_step (R : Nat → Str) (black : List Int) (s : State) (a : Act) (t : State) (I : EffectInv s)
    (h : s.step R black a = some t) : EffectInv t := by
  have g := grows_step R black h
  unfold State.step at h
  split at h
  · cases h
  cases a with
  | recv p pkt =>
    simp only at h
    split at h
    · rename_i hidle hopen
      split at h
      · split at h
        · cases h; exact effectInv_same I g [] (by simp) (.inl rfl) fun _ => ⟨fun _ => id, fun _ => id⟩
        · rename_i slots _
          cases h
          constructor
          · intro q slots' port h slot hs
            simp only [List.mem_append, List.mem_singleton] at h
            simp only [upd]
            split
            · rename_i e; subst e
              rcases h with h | h
              · rcases I.added q slots' port h slot hs with h | h
                · exact .inl h
                · rw [hidle] at h; cases h
              · cases h; exact .inr hs
            · rename_i e
              rcases h with h | h
              · exact I.added q slots' port h slot hs
              · cases h; exact absurd rfl e
          · intro pre post q slots' h slot hs hr
            rcases split_append h with ⟨post', h⟩ | ⟨_, h, _⟩
            · simp only [upd]
              have := I.marked pre post' q slots' h slot hs hr
              split
              · rename_i e; subst e
                rw [hidle] at this
                rcases this with h | ⟨h, _⟩
                · exact .inl h
                · cases h
              · exact this
            · cases h
      · rename_i slots
        cases h
        constructor
        · intro q slots' port h slot hs
          simp only [List.mem_append, List.mem_singleton] at h
          rcases h with h | h
          · simp only [upd]
            have := I.added q slots' port h slot hs
            split
            · rename_i e; subst e
              rw [hidle] at this
              rcases this with h | h
              · exact .inl h
              · cases h
            · exact this
          · cases h
        · intro pre post q slots' h slot hs hr
          rcases split_append h with ⟨post', h⟩ | ⟨h1, h2, h3⟩
          · simp only [upd]
            have := I.marked pre post' q slots' h slot hs hr
            split
            · rename_i e; subst e
              rw [hidle] at this
              rcases this with h | ⟨h, _⟩
              · exact .inl h
              · cases h
            · exact this
          · cases h2
            simp only [upd_same]
            right
            refine ⟨hs, ?_⟩
            obtain ⟨ss, po, hm, hsl⟩ := hr
            rw [h1] at hm
            rcases I.added _ ss po hm slot hsl with h | h
            · exact h
            · rw [hidle] at h; cases h
      · cases h
        exact effectInv_same I g _ rfl (.inr ⟨_, rfl, by simp, by simp⟩) fun _ => ⟨fun _ => id, fun _ => id⟩
      · cases h; exact effectInv_same I g [] (by simp) (.inl rfl) fun _ => ⟨fun _ => id, fun _ => id⟩
    · cases h
  | work p =>
    simp only at h
    split at h
    · cases h
    · rename_i addr port slot rest ht
      cases h
      constructor
      · intro q slots port' h sl hs
        simp only [List.mem_append, List.mem_singleton, reduceCtorEq, or_false] at h
        rcases I.added q slots port' h sl hs with ⟨st, hst, hp⟩ | hm
        · obtain ⟨st', h1, h2, h3, _⟩ := g.mem hst
          exact .inl ⟨st', h1, h3.trans hp⟩
        · by_cases e : q = p
          · subst e
            rw [ht] at hm
            rcases List.mem_cons.mp hm with rfl | hm
            · left; simp
            · right; simp only [upd_same]; exact hm
          · right; simp only [upd, if_neg e]; exact hm
      · intro pre post q slots h sl hs hr
        rcases split_append h with ⟨post', h⟩ | ⟨_, h, _⟩
        · rcases I.marked pre post' q slots h sl hs hr with ⟨st, hst, hp, hr⟩ | ⟨hm, st, hst, hp⟩
          · obtain ⟨st', h1, h2, h3, h4⟩ := g.mem hst
            exact .inl ⟨st', h1, h3.trans hp, h4 hr⟩
          · obtain ⟨st', h1, h2, h4, _⟩ := g.mem hst
            refine .inr ⟨?_, st', h1, h4.trans hp⟩
            by_cases e : q = p
            · subst e; rw [ht] at hm; cases hm
            · simp only [upd, if_neg e]; assumption
        · cases h
    · rename_i ht
      cases h
      refine effectInv_same I g _ rfl (.inr ⟨_, rfl, by simp, by simp⟩) fun q => ?_
      simp only [upd]
      split
      · rename_i e; subst e; rw [ht]; exact ⟨fun _ => id, fun _ => id⟩
      · exact ⟨fun _ => id, fun _ => id⟩
    · rename_i slot rest ht
      cases h
      constructor
      · intro q slots port' h sl hs
        rcases I.added q slots port' h sl hs with ⟨st, hst, hp⟩ | hm
        · obtain ⟨st', h1, h2, h3, _⟩ := g.mem hst
          exact .inl ⟨st', h1, h3.trans hp⟩
        · by_cases e : q = p
          · subst e; rw [ht] at hm; cases hm
          · right; simp only [upd, if_neg e]; exact hm
      · intro pre post q slots h sl hs hr
        rcases I.marked pre post q slots h sl hs hr with ⟨st, hst, hp, hr⟩ | ⟨hm, st, hst, hp⟩
        · obtain ⟨st', h1, h2, h3, h4⟩ := g.mem hst
          exact .inl ⟨st', h1, h3.trans hp, h4 hr⟩
        · by_cases e : q = p
          · subst e
            rw [ht] at hm
            rcases List.mem_cons.mp hm with rfl | hm
            · left
              simp only [upd_same]
              exact mark_first ⟨st, hst, hp⟩
            · obtain ⟨st', h1, h2, h4, _⟩ := g.mem hst
              refine .inr ⟨?_, st', h1, h4.trans hp⟩
              simp only [upd_same]
              exact hm
          · obtain ⟨st', h1, h2, h4, _⟩ := g.mem hst
            refine .inr ⟨?_, st', h1, h4.trans hp⟩
            simp only [upd, if_neg e]
            exact hm
    · rename_i ht
      cases h
      refine effectInv_same I g [] (by simp) (.inl rfl) fun q => ?_
      simp only [upd]
      split
      · rename_i e; subst e; rw [ht]; exact ⟨fun _ => id, fun _ => id⟩
      · exact ⟨fun _ => id, fun _ => id⟩
  | look q =>
    simp only at h
    repeat' split at h
    all_goals (cases h; try exact effectInv_same I g [] (by simp) (.inl rfl) fun _ => ⟨fun _ => id, fun _ => id⟩)
  | examine q =>
    simp only at h
    repeat' split at h
    all_goals (cases h; try exact effectInv_same I g [] (by simp) (.inl rfl) fun _ => ⟨fun _ => id, fun _ => id⟩)
  | respond q =>
    simp only at h
    repeat' split at h
    all_goals (cases h; try exact effectInv_same I g _ rfl (.inr ⟨_, rfl, by simp, by simp⟩) fun _ => ⟨fun _ => id, fun _ => id⟩)
  | close p =>
    cases h; exact effectInv_same I g _ rfl (.inr ⟨_, rfl, by simp, by simp⟩) fun _ => ⟨fun _ => id, fun _ => id⟩

theorem effectInv_run (R : Nat → Str) (black : List Int) {acts : List Act} {s : State}
    (h : run (State.step R black) .init acts = some s) : EffectInv s :=
  run_inv (I := EffectInv) (effectInv_step R black) acts _ _
    (by constructor <;> simp [State.init]) h

/-- The queries are those of the history, and the responses those of the queries. -/
structure AskInv (R : Nat → Str) (s : State) : Prop where
  asked : ∀ q, q < s.n → Ev.query (s.query q).peer (s.query q).slot ∈ s.log
  answered : ∀ pre post c addr, s.log = pre ++ Ev.sent c (.queryResponse addr) :: post →
    ∃ slot p, Ev.query c slot ∈ pre ∧ Offered R pre p slot addr

theorem askInv_same {R : Nat → Str} {s t : State} (I : AskInv R s) (l : List Ev) (h2 : t.log = s.log ++ l)
    (hl : l = [] ∨ ∃ e, l = [e] ∧ (∀ p addr, e ≠ .sent p (.queryResponse addr)))
    (h3 : t.n = s.n) (h4 : ∀ q, (t.query q).peer = (s.query q).peer ∧ (t.query q).slot = (s.query q).slot) : AskInv R t := by
  constructor
  · intro q hq
    rw [(h4 q).1, (h4 q).2, h2]
    exact List.mem_append_left _ (I.asked q (h3 ▸ hq))
  · intro pre post c addr h
    rw [h2] at h
    rcases hl with rfl | ⟨e, rfl, he⟩
    · rw [List.append_nil] at h; exact I.answered pre post c addr h
    · rcases split_append h with ⟨post', h⟩ | ⟨_, h, _⟩
      · exact I.answered pre post' c addr h
      · exact absurd h.symm (he _ _)

theorem askInv_step (R : Nat → Str) (black : List Int) (s : State) (a : Act) (t : State) (I : AskInv R s)
    (S : StubInv R s) (Q : QueryInv s) (h : s.step R black a = some t) : AskInv R t := by
  unfold State.step at h
  split at h
  · cases h
  cases a with
  | recv p pkt =>
    simp only at h
    split at h
    · split at h
      · split at h
        · cases h; exact askInv_same I [] (by simp) (.inl rfl) rfl fun _ => ⟨rfl, rfl⟩
        · cases h; exact askInv_same I _ rfl (.inr ⟨_, rfl, by simp⟩) rfl fun _ => ⟨rfl, rfl⟩
      · cases h; exact askInv_same I _ rfl (.inr ⟨_, rfl, by simp⟩) rfl fun _ => ⟨rfl, rfl⟩
      · rename_i slot
        cases h
        constructor
        · intro q hq
          simp only [upd]
          split
          · simp
          · exact List.mem_append_left _ (I.asked q (by simp only at hq; omega))
        · intro pre post c addr h
          rcases split_append h with ⟨post', h⟩ | ⟨_, h, _⟩
          · exact I.answered pre post' c addr h
          · cases h
      · cases h; exact askInv_same I [] (by simp) (.inl rfl) rfl fun _ => ⟨rfl, rfl⟩
    · cases h
  | work p =>
    simp only at h
    repeat' split at h
    all_goals cases h
    · exact askInv_same I _ rfl (.inr ⟨_, rfl, by simp⟩) rfl fun _ => ⟨rfl, rfl⟩
    · exact askInv_same I _ rfl (.inr ⟨_, rfl, by simp⟩) rfl fun _ => ⟨rfl, rfl⟩
    · exact askInv_same I [] (by simp) (.inl rfl) rfl fun _ => ⟨rfl, rfl⟩
    · exact askInv_same I [] (by simp) (.inl rfl) rfl fun _ => ⟨rfl, rfl⟩
  | look q =>
    simp only at h
    repeat' split at h
    all_goals cases h
    · exact I
    · exact askInv_same I [] (by simp) (.inl rfl) rfl fun r => by simp only [upd]; split <;> simp_all
  | examine q =>
    simp only at h
    repeat' split at h
    all_goals cases h
    all_goals exact askInv_same I [] (by simp) (.inl rfl) rfl fun r => by simp only [upd]; split <;> simp_all
  | respond q =>
    simp only at h
    split at h
    · rename_i k hk
      split at h
      · rename_i st hst
        cases h
        have hq : q < s.n := by
          rcases Nat.lt_or_ge q s.n with h | h
          · exact h
          · have := Q.fresh q h; rw [hk] at this; cases this
        constructor
        · intro r hr
          have := I.asked r hr
          simp only [upd]
          split
          · rename_i e; subst e; exact List.mem_append_left _ this
          · exact List.mem_append_left _ this
        · intro pre post c addr h
          rcases split_append h with ⟨post', h⟩ | ⟨h1, h, _⟩
          · exact I.answered pre post' c addr h
          · cases h
            refine ⟨(s.query q).slot, st.peer, h1 ▸ I.asked q hq, ?_⟩
            obtain ⟨st', e, hr⟩ := Q.chosen q k hk
            rw [hst] at e
            cases e
            rw [h1]
            exact S.offered _ st (List.mem_iff_getElem?.mpr ⟨k, hst⟩) hr
      · cases h
    · cases h
  | close p =>
    cases h; exact askInv_same I _ rfl (.inr ⟨_, rfl, by simp⟩) rfl fun _ => ⟨rfl, rfl⟩

/-- All of it. -/
structure HubInv (R : Nat → Str) (s : State) : Prop where
  stub : StubInv R s
  query : QueryInv s
  effect : EffectInv s
  ask : AskInv R s

theorem hubInv_run (R : Nat → Str) (black : List Int) {acts : List Act} {s : State}
    (h : run (State.step R black) .init acts = some s) : HubInv R s :=
  run_inv (I := HubInv R)
    (fun s a t I h => ⟨stubInv_step R black s a t I.stub h, queryInv_step R black s a t I.query h,
      effectInv_step R black s a t I.effect h, askInv_step R black s a t I.ask I.stub I.query h⟩) acts _ _
    ⟨by constructor <;> simp [State.init], by constructor <;> simp [State.init], by constructor <;> simp [State.init],
      by constructor <;> simp [State.init]⟩ h

end Verif.Hub
