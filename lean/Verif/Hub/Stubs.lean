import Verif.Hub.Facts

/-!
# Facts about the hub: stubs and queries
-/

namespace Verif.Hub

open Verif Verif.Proto

/-- According to the history, peer `p` registered the slot and was given the address. -/
def Registered (R : Nat → Str) (log : List Ev) (p : Nat) (slot addr : Str) : Prop :=
  ∃ slots port, Ev.register p slots port ∈ log ∧ slot ∈ slots ∧ addr = fullAddr (pickIP (R p)) port

/-- According to the history, peer `p` registered the slot, was given the address, and afterwards reported ready. -/
def Offered (R : Nat → Str) (log : List Ev) (p : Nat) (slot addr : Str) : Prop :=
  ∃ pre post slots, log = pre ++ Ev.ready p slots :: post ∧ slot ∈ slots ∧ Registered R pre p slot addr

theorem Registered.append {R : Nat → Str} {log : List Ev} {p : Nat} {slot addr : Str} (h : Registered R log p slot addr)
    (l : List Ev) : Registered R (log ++ l) p slot addr := by
  obtain ⟨ss, po, h1, h2, h3⟩ := h
  exact ⟨ss, po, List.mem_append_left _ h1, h2, h3⟩

theorem Offered.append {R : Nat → Str} {log : List Ev} {p : Nat} {slot addr : Str} (h : Offered R log p slot addr)
    (l : List Ev) : Offered R (log ++ l) p slot addr := by
  obtain ⟨a, b, ss, h1, h2, h3⟩ := h
  exact ⟨a, b ++ l, ss, by simp [h1], h2, h3⟩

theorem mark_mem {p : Nat} {l : List Stub} {st : Stub} (h : st ∈ mark p l) :
    st ∈ l ∨ ∃ st' ∈ l, st'.peer = p ∧ st = { st' with ready := true } := by
  induction l with
  | nil => cases h
  | cons x l ih =>
    simp only [mark] at h
    split at h
    · rename_i e
      rcases List.mem_cons.mp h with rfl | h
      · exact .inr ⟨x, List.mem_cons_self .., e, rfl⟩
      · exact .inl (List.mem_cons_of_mem _ h)
    · rcases List.mem_cons.mp h with rfl | h
      · exact .inl (List.mem_cons_self ..)
      · rcases ih h with h | ⟨st', h, h'⟩
        · exact .inl (List.mem_cons_of_mem _ h)
        · exact .inr ⟨st', List.mem_cons_of_mem _ h, h'⟩

theorem mark_length (p : Nat) (l : List Stub) : (mark p l).length = l.length := by
  induction l with
  | nil => rfl
  | cons x l ih => simp only [mark]; split <;> simp [ih]

theorem mark_map (p : Nat) (l : List Stub) : (mark p l).map (fun s => (s.peer, s.addr)) = l.map (fun s => (s.peer, s.addr)) := by
  induction l with
  | nil => rfl
  | cons x l ih => simp only [mark]; split <;> simp [ih]

/-- Marking changes nothing but the flag, which it only sets. -/
theorem mark_get {p : Nat} {l : List Stub} {k : Nat} {st : Stub} (h : l[k]? = some st) :
    ∃ st', (mark p l)[k]? = some st' ∧ st'.addr = st.addr ∧ st'.peer = st.peer ∧ (st.ready = true → st'.ready = true) ∧
      (st.peer ≠ p → st' = st) := by
  induction l generalizing k with
  | nil => simp at h
  | cons x l ih =>
    simp only [mark]
    split
    · cases k with
      | zero =>
        simp only [List.getElem?_cons_zero, Option.some.injEq] at h
        subst h
        rename_i e
        exact ⟨{ x with ready := true }, by simp, rfl, rfl, fun _ => rfl, fun n => absurd e n⟩
      | succ k =>
        simp only [List.getElem?_cons_succ] at h ⊢
        exact ⟨st, h, rfl, rfl, id, fun _ => rfl⟩
    · cases k with
      | zero =>
        simp only [List.getElem?_cons_zero, Option.some.injEq] at h
        subst h
        exact ⟨x, by simp, rfl, rfl, id, fun _ => rfl⟩
      | succ k =>
        simp only [List.getElem?_cons_succ] at h ⊢
        exact ih h

/-- What stands where in the table of stubs. -/
def At (s : State) (slot : Str) (k : Nat) (addr : Str) : Prop :=
  ∃ st, (s.stubs slot)[k]? = some st ∧ st.addr = addr ∧ st.ready = true

/-- The stubs, the goroutines of the peers and the queries agree with the history. -/
structure StubInv (R : Nat → Str) (s : State) : Prop where
  registered : ∀ slot, ∀ st ∈ s.stubs slot, Registered R s.log st.peer slot st.addr
  offered : ∀ slot, ∀ st ∈ s.stubs slot, st.ready = true → Offered R s.log st.peer slot st.addr
  adding : ∀ p addr port rest, s.task p = .adding addr port rest →
    ∀ slot ∈ rest, Registered R s.log p slot addr
  marking : ∀ p rest, s.task p = .marking rest →
    ∃ pre post slots, s.log = pre ++ Ev.ready p slots :: post ∧ (∀ x ∈ rest, x ∈ slots) ∧
      ∀ slot, ∀ st ∈ s.stubs slot, st.peer = p → Registered R pre p slot st.addr

theorem stubInv_same {R : Nat → Str} {s t : State} (I : StubInv R s) (l : List Ev)
    (h1 : t.stubs = s.stubs) (h2 : t.log = s.log ++ l) (h3 : ∀ p, t.task p = s.task p ∨ t.task p = .idle) : StubInv R t := by
  constructor
  · intro slot st h; rw [h1] at h; rw [h2]; exact (I.registered slot st h).append l
  · intro slot st h hr; rw [h1] at h; rw [h2]; exact (I.offered slot st h hr).append l
  · intro p addr port rest h slot hs
    rcases h3 p with e | e <;> rw [e] at h
    · rw [h2]; exact (I.adding p addr port rest h slot hs).append l
    · cases h
  · intro p rest h
    rcases h3 p with e | e <;> rw [e] at h
    · obtain ⟨a, b, ss, e1, e2, e3⟩ := I.marking p rest h
      exact ⟨a, b ++ l, ss, by simp [h2, e1], e2, by rw [h1]; exact e3⟩
    · cases h

theorem stubInv_step (R : Nat → Str) (black : List Int) (s : State) (a : Act) (t : State) (I : StubInv R s)
    (h : s.step R black a = some t) : StubInv R t := by
  unfold State.step at h
  split at h
  · cases h
  cases a with
  | recv p pkt =>
    simp only at h
    split at h
    · split at h
      · split at h
        · cases h; exact stubInv_same I [] rfl (by simp) fun _ => .inl rfl
        · rename_i slots _
          cases h
          generalize hport : nextPort black (s.ports (pickIP (R p))) = port
          constructor
          · intro slot st h; exact (I.registered slot st h).append _
          · intro slot st h hr; exact (I.offered slot st h hr).append _
          · intro q addr port' rest h slot hs
            simp only [upd] at h
            split at h
            · rename_i e
              cases h
              subst e
              exact ⟨slots, port, by simp, hs, rfl⟩
            · exact (I.adding q addr port' rest h slot hs).append _
          · intro q rest h
            simp only [upd] at h
            split at h
            · cases h
            · obtain ⟨a, b, ss, e1, e2, e3⟩ := I.marking q rest h
              exact ⟨a, b ++ [.register p slots port], ss, by simp [e1], e2, e3⟩
      · rename_i slots
        cases h
        constructor
        · intro slot st h; exact (I.registered slot st h).append _
        · intro slot st h hr; exact (I.offered slot st h hr).append _
        · intro q addr port' rest h slot hs
          simp only [upd] at h
          split at h
          · cases h
          · exact (I.adding q addr port' rest h slot hs).append _
        · intro q rest h
          simp only [upd] at h
          split at h
          · rename_i e
            cases h
            subst e
            exact ⟨s.log, [], slots, rfl, fun _ h => h, fun slot st h e => e ▸ I.registered slot st h⟩
          · obtain ⟨a, b, ss, e1, e2, e3⟩ := I.marking q rest h
            exact ⟨a, b ++ [.ready p slots], ss, by simp [e1], e2, e3⟩
      · cases h; exact stubInv_same I _ rfl rfl fun _ => .inl rfl
      · cases h; exact stubInv_same I [] rfl (by simp) fun _ => .inl rfl
    · cases h
  | work p =>
    simp only at h
    split at h
    · cases h
    · rename_i addr port slot rest ht
      cases h
      have hreg := I.adding p addr port _ ht slot (List.mem_cons_self ..)
      constructor
      · intro sl st h
        simp only [upd] at h
        split at h
        · rename_i e; subst e
          rcases List.mem_append.mp h with h | h
          · exact (I.registered _ st h).append _
          · rw [List.mem_singleton] at h; subst h; exact hreg.append _
        · exact (I.registered _ st h).append _
      · intro sl st h hr
        simp only [upd] at h
        split at h
        · rename_i e; subst e
          rcases List.mem_append.mp h with h | h
          · exact (I.offered _ st h hr).append _
          · rw [List.mem_singleton] at h; subst h; cases hr
        · exact (I.offered _ st h hr).append _
      · intro q addr' port' rest' h sl hs
        simp only [upd] at h
        split at h
        · rename_i e; subst e; cases h
          exact (I.adding q addr port _ ht sl (List.mem_cons_of_mem _ hs)).append _
        · exact (I.adding q addr' port' rest' h sl hs).append _
      · intro q rest' h
        simp only [upd] at h
        split at h
        · cases h
        · rename_i hq
          obtain ⟨a, b, ss, e1, e2, e3⟩ := I.marking q rest' h
          refine ⟨a, b ++ [.added p slot addr], ss, by simp [e1], e2, ?_⟩
          intro sl st hst hp
          simp only [upd] at hst
          split at hst
          · rename_i e; subst e
            rcases List.mem_append.mp hst with h | h
            · exact e3 _ st h hp
            · rw [List.mem_singleton] at h; subst h; exact absurd hp.symm hq
          · exact e3 _ st hst hp
    · cases h
      refine stubInv_same I _ rfl rfl fun q => ?_
      simp only [upd]
      split <;> simp
    · rename_i slot rest ht
      cases h
      obtain ⟨pre, post, ss, e1, e2, e3⟩ := I.marking p _ ht
      constructor
      · intro sl st h
        simp only [upd] at h
        split at h
        · rename_i e; subst e
          rcases mark_mem h with h | ⟨st', h', _, rfl⟩
          · exact I.registered _ st h
          · exact I.registered _ st' h'
        · exact I.registered _ st h
      · intro sl st h hr
        simp only [upd] at h
        split at h
        · rename_i e; subst e
          rcases mark_mem h with h | ⟨st', h', hp, rfl⟩
          · exact I.offered _ st h hr
          · exact ⟨pre, post, ss, hp ▸ e1, e2 _ (List.mem_cons_self ..), hp ▸ e3 _ st' h' hp⟩
        · exact I.offered _ st h hr
      · intro q addr' port' rest' h sl hs
        simp only [upd] at h
        split at h
        · cases h
        · exact I.adding q addr' port' rest' h sl hs
      · intro q rest' h
        have hst : ∀ sl st, st ∈ upd s.stubs slot (mark p (s.stubs slot)) sl → ∃ st' ∈ s.stubs sl, st'.peer = st.peer ∧ st'.addr = st.addr := by
          intro sl st h
          simp only [upd] at h
          split at h
          · rename_i e; subst e
            rcases mark_mem h with h | ⟨st', h', _, rfl⟩
            · exact ⟨st, h, rfl, rfl⟩
            · exact ⟨st', h', rfl, rfl⟩
          · exact ⟨st, h, rfl, rfl⟩
        simp only [upd] at h
        split at h
        · rename_i e; subst e; cases h
          refine ⟨pre, post, ss, e1, fun x hx => e2 x (List.mem_cons_of_mem _ hx), ?_⟩
          intro sl st h hp
          obtain ⟨st', h', e4, e5⟩ := hst sl st h
          exact e5 ▸ e3 sl st' h' (e4.trans hp)
        · obtain ⟨pre, post, ss, e1, e2, e3⟩ := I.marking q _ h
          refine ⟨pre, post, ss, e1, e2, ?_⟩
          intro sl st h hp
          obtain ⟨st', h', e4, e5⟩ := hst sl st h
          exact e5 ▸ e3 sl st' h' (e4.trans hp)
    · cases h
      refine stubInv_same I [] rfl (by simp) fun q => ?_
      simp only [upd]
      split <;> simp
  | look q =>
    simp only at h
    repeat' split at h
    all_goals (cases h; try exact stubInv_same I [] rfl (by simp) fun _ => .inl rfl)
  | examine q =>
    simp only at h
    repeat' split at h
    all_goals (cases h; try exact stubInv_same I [] rfl (by simp) fun _ => .inl rfl)
  | respond q =>
    simp only at h
    repeat' split at h
    all_goals (cases h; try exact stubInv_same I _ rfl rfl fun _ => .inl rfl)
  | close p =>
    cases h; exact stubInv_same I _ rfl rfl fun _ => .inl rfl

theorem stubInv_run (R : Nat → Str) (black : List Int) {acts : List Act} {s : State}
    (h : run (State.step R black) .init acts = some s) : StubInv R s :=
  run_inv (I := StubInv R) (stubInv_step R black) acts _ _
    (by constructor <;> simp [State.init]) h

/-- Stubs stay where they are, keep peer and address, and stay ready. -/
def Grows (s t : State) : Prop :=
  ∀ slot (k : Nat) (st : Stub), (s.stubs slot)[k]? = some st →
    ∃ st' : Stub, (t.stubs slot)[k]? = some st' ∧ st'.addr = st.addr ∧ st'.peer = st.peer ∧ (st.ready = true → st'.ready = true)

theorem Grows.refl (s : State) : Grows s s := fun _ _ st h => ⟨st, h, rfl, rfl, id⟩

theorem Grows.of_eq {s t : State} (h : t.stubs = s.stubs) : Grows s t :=
  fun _ _ st e => ⟨st, by rw [h]; exact e, rfl, rfl, id⟩

theorem Grows.trans {s t u : State} (h : Grows s t) (h' : Grows t u) : Grows s u := by
  intro slot k st e
  obtain ⟨st', e1, e2, e3, e4⟩ := h slot k st e
  obtain ⟨st'', f1, f2, f3, f4⟩ := h' slot k st' e1
  exact ⟨st'', f1, f2.trans e2, f3.trans e3, fun x => f4 (e4 x)⟩

theorem Grows.length {s t : State} (h : Grows s t) (slot : Str) : (s.stubs slot).length ≤ (t.stubs slot).length := by
  rcases Nat.lt_or_ge (t.stubs slot).length (s.stubs slot).length with hlt | hge
  · obtain ⟨st', e, _⟩ := h slot (t.stubs slot).length ((s.stubs slot)[(t.stubs slot).length]) (by simp)
    simp at e
  · exact hge

theorem grows_step (R : Nat → Str) (black : List Int) {s : State} {a : Act} {t : State}
    (h : s.step R black a = some t) : Grows s t := by
  unfold State.step at h
  split at h
  · cases h
  cases a with
  | work p =>
    simp only at h
    repeat' split at h
    all_goals cases h
    · intro slot k st e
      simp only [upd]
      split
      · rename_i hs; subst hs
        have hk : k < (s.stubs slot).length := by
          rw [List.getElem?_eq_some_iff] at e; exact e.1
        exact ⟨st, by rw [List.getElem?_append_left hk]; exact e, rfl, rfl, id⟩
      · exact ⟨st, e, rfl, rfl, id⟩
    · exact .of_eq rfl
    · intro slot k st e
      simp only [upd]
      split
      · rename_i hs; subst hs
        obtain ⟨st', e1, e2, e3, e4, _⟩ := mark_get (p := p) e
        exact ⟨st', e1, e2, e3, e4⟩
      · exact ⟨st, e, rfl, rfl, id⟩
    · exact .of_eq rfl
  | _ =>
    simp only at h
    repeat' split at h
    all_goals (cases h; try exact .of_eq rfl)

theorem grows_run (R : Nat → Str) (black : List Int) {acts : List Act} {s t : State}
    (h : run (State.step R black) s acts = some t) : Grows s t :=
  run_inv (I := Grows s) (fun _ _ _ g h => g.trans (grows_step R black h)) acts _ _ (.refl s) h

/-- The queries. -/
structure QueryInv (s : State) : Prop where
  fresh : ∀ q, s.n ≤ q → (s.query q).phase = .top
  cursor : ∀ q k, (s.query q).phase = .seek k → k < (s.stubs (s.query q).slot).length
  chosen : ∀ q k, (s.query q).phase = .chosen k → ∃ st : Stub, (s.stubs (s.query q).slot)[k]? = some st ∧ st.ready = true
  done : ∀ q addr, (s.query q).phase = .done addr →
    ∃ (k : Nat) (st : Stub), (s.stubs (s.query q).slot)[k]? = some st ∧ st.ready = true ∧ st.addr = addr

theorem queryInv_grows {s t : State} (I : QueryInv s) (g : Grows s t) (hq : t.query = s.query) (hn : s.n ≤ t.n) : QueryInv t := by
  constructor
  · intro q h; rw [hq]; exact I.fresh q (by omega)
  · intro q k h; rw [hq] at h ⊢; exact Nat.lt_of_lt_of_le (I.cursor q k h) (g.length _)
  · intro q k h; rw [hq] at h ⊢
    obtain ⟨st, e, r⟩ := I.chosen q k h
    obtain ⟨st', e1, _, _, e4⟩ := g _ _ _ e
    exact ⟨st', e1, e4 r⟩
  · intro q addr h; rw [hq] at h ⊢
    obtain ⟨k, st, e, r, ea⟩ := I.done q addr h
    obtain ⟨st', e1, e2, _, e4⟩ := g _ _ _ e
    exact ⟨k, st', e1, e4 r, e2.trans ea⟩

theorem queryInv_step (R : Nat → Str) (black : List Int) (s : State) (a : Act) (t : State) (I : QueryInv s)
    (h : s.step R black a = some t) : QueryInv t := by
  have g := grows_step R black h
  obtain ⟨h1, h2, h3, h4⟩ := I
  unfold State.step at h
  split at h
  · cases h
  cases a with
  | recv p pkt =>
    simp only at h
    repeat' split at h
    all_goals cases h
    all_goals first
      | exact queryInv_grows ⟨h1, h2, h3, h4⟩ g rfl (Nat.le_refl _)
      | (constructor <;> simp only [upd] <;> grind)
  | look q =>
    simp only at h
    repeat' split at h
    all_goals cases h
    all_goals first
      | exact ⟨h1, h2, h3, h4⟩
      | (constructor <;> simp only [upd] <;> grind)
  | examine q =>
    simp only at h
    repeat' split at h
    all_goals cases h
    all_goals (constructor <;> simp only [upd] <;> grind)
  | respond q =>
    simp only at h
    repeat' split at h
    all_goals cases h
    all_goals (constructor <;> simp only [upd] <;> grind)
  | work p =>
    simp only at h
    repeat' split at h
    all_goals (cases h; try exact queryInv_grows ⟨h1, h2, h3, h4⟩ g rfl (Nat.le_refl _))
  | close p =>
    cases h; exact queryInv_grows ⟨h1, h2, h3, h4⟩ g rfl (Nat.le_refl _)

theorem queryInv_run (R : Nat → Str) (black : List Int) {acts : List Act} {s : State}
    (h : run (State.step R black) .init acts = some s) : QueryInv s :=
  run_inv (I := QueryInv) (queryInv_step R black) acts _ _
    (by constructor <;> simp [State.init]) h

end Verif.Hub
