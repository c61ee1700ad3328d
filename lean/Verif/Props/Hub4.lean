import Verif.Props.Hub2

/-! # What holds of C52: a dock that is handed out was connected when it reported ready -/

namespace Verif.Props

open Verif Verif.Proto Verif.Hub

/-- Packets of a peer are not handled after the end of its connection. -/
structure CloseInv (s : State) : Prop where
  closed : ∀ p, Ev.closed p ∈ s.log → s.closed p = true
  ready : ∀ pre post p slots, s.log = pre ++ .ready p slots :: post → Ev.closed p ∉ pre
  register : ∀ pre post p slots port, s.log = pre ++ .register p slots port :: post → Ev.closed p ∉ pre

private theorem split_last {α : Type} {l pre post : List α} {x y : α} (h : l ++ [y] = pre ++ x :: post) :
    (pre = l ∧ x = y) ∨ ∃ post', l = pre ++ x :: post' := by
  rcases List.eq_nil_or_concat post with rfl | ⟨post', z, rfl⟩
  · have := List.append_inj' h rfl
    exact Or.inl ⟨this.1.symm, (List.cons.inj this.2).1.symm⟩
  · rw [List.concat_eq_append, ← List.cons_append, ← List.append_assoc] at h
    exact Or.inr ⟨post', (List.append_inj' h rfl).1⟩

private theorem closeInv_same {s t : State} (I : CloseInv s) (h1 : t.log = s.log) (h2 : t.closed = s.closed) :
    CloseInv t := by
  obtain ⟨a, b, c⟩ := I
  constructor
  · rw [h1, h2]; exact a
  · rw [h1]; exact b
  · rw [h1]; exact c

private theorem closeInv_add {s t : State} (I : CloseInv s) (e : Ev) (h1 : t.log = s.log ++ [e])
    (h2 : ∀ p, s.closed p = true → t.closed p = true) (h3 : ∀ p, e = .closed p → t.closed p = true)
    (h4 : ∀ p slots, e = .ready p slots → s.closed p = false)
    (h5 : ∀ p slots port, e = .register p slots port → s.closed p = false) : CloseInv t := by
  obtain ⟨a, b, c⟩ := I
  have key : ∀ p, s.closed p = false → Ev.closed p ∉ s.log := by
    intro p hp hm
    have := a p hm
    rw [hp] at this; cases this
  constructor
  · intro p hp
    rw [h1, List.mem_append, List.mem_singleton] at hp
    rcases hp with hp | hp
    · exact h2 p (a p hp)
    · exact h3 p hp.symm
  · intro pre post p slots h
    rw [h1] at h
    rcases split_last h with ⟨rfl, rfl⟩ | ⟨post', h⟩
    · exact key p (h4 p slots rfl)
    · exact b pre post' p slots h
  · intro pre post p slots port h
    rw [h1] at h
    rcases split_last h with ⟨rfl, rfl⟩ | ⟨post', h⟩
    · exact key p (h5 p slots port rfl)
    · exact c pre post' p slots port h

theorem closeInv_step (R : Nat → Str) (black : List Int) (s : State) (a : Act) (t : State) (I : CloseInv s)
    (h : s.step R black a = some t) : CloseInv t := by
  unfold State.step at h
  split at h
  · cases h
  cases a with
  | recv p pkt =>
    simp only at h
    split at h
    · rename_i hc
      cases pkt with
      | registerRequest slots =>
        simp only at h
        split at h
        · cases h; exact closeInv_same I rfl rfl
        · cases h
          exact closeInv_add I _ rfl (fun _ h => h) (fun _ h => (by cases h)) (fun _ _ h => (by cases h))
            (fun _ _ _ h => by cases h; exact hc)
      | ready slots =>
        cases h
        exact closeInv_add I _ rfl (fun _ h => h) (fun _ h => (by cases h)) (fun _ _ h => by cases h; exact hc)
          (fun _ _ _ h => (by cases h))
      | queryRequest slot =>
        cases h
        exact closeInv_add I _ rfl (fun _ h => h) (fun _ h => (by cases h)) (fun _ _ h => (by cases h))
          (fun _ _ _ h => (by cases h))
      | _ => cases h; exact I
    · cases h
  | work p =>
    simp only at h
    split at h
    · cases h
    · cases h
      exact closeInv_add I _ rfl (fun _ h => h) (fun _ h => (by cases h)) (fun _ _ h => (by cases h))
        (fun _ _ _ h => (by cases h))
    · cases h
      exact closeInv_add I _ rfl (fun _ h => h) (fun _ h => (by cases h)) (fun _ _ h => (by cases h))
        (fun _ _ _ h => (by cases h))
    · cases h; exact closeInv_same I rfl rfl
    · cases h; exact closeInv_same I rfl rfl
  | close p =>
    cases h
    refine closeInv_add I _ rfl (fun q hq => ?_) (fun q h => ?_) (fun _ _ h => (by cases h)) (fun _ _ _ h => (by cases h))
    · by_cases e : q = p
      · subst e; exact upd_same _ _ _
      · rw [← hq]; exact upd_other _ _ e
    · cases h; exact upd_same _ _ _
  | respond q =>
    simp only at h
    split at h
    · split at h
      · cases h
        exact closeInv_add I _ rfl (fun _ h => h) (fun _ h => (by cases h)) (fun _ _ h => (by cases h))
          (fun _ _ _ h => (by cases h))
      · cases h
    · cases h
  | _ =>
    simp only at h
    repeat' split at h
    all_goals first
      | (cases h; done)
      | (cases h; exact closeInv_same I rfl rfl)

/-- C52, what holds: the address in a query response belongs to a dock whose connection had not closed when it
registered the slot, nor when it reported ready afterwards.  Full statement: nor when the response is sent. -/
theorem C52_alive_when_ready_partial (R : Nat → Str) (black : List Int) (acts : List Act) (s : State)
    (h : run (State.step R black) .init acts = some s) (pre post : List Ev) (c : Nat) (addr : Str)
    (e : s.log = pre ++ .sent c (.queryResponse addr) :: post) :
    ∃ p slot slots slots' port a b d, Ev.query c slot ∈ pre ∧
      pre = a ++ .register p slots port :: (b ++ .ready p slots' :: d) ∧ slot ∈ slots ∧ slot ∈ slots' ∧
      addr = fullAddr (pickIP (R p)) port ∧
      Ev.closed p ∉ a ++ .register p slots port :: b := by
  obtain ⟨slot, p, hq, x, y, slots', e1, hs', slots, port, hr, hs, ha⟩ :=
    C49_response_was_offered R black acts s h pre post c addr e
  obtain ⟨a, b, e2⟩ := List.append_of_mem hr
  have I : CloseInv s := run_inv (closeInv_step R black) acts _ _ (by constructor <;> simp [State.init]) h
  refine ⟨p, slot, slots, slots', port, a, b, y, hq, by rw [e1, e2]; simp, hs, hs', ha, ?_⟩
  rw [← e2]
  exact I.ready x (y ++ .sent c (.queryResponse addr) :: post) p slots' (by rw [e, e1]; simp)

/-- The dock of peer 0 disconnects before it is ready: the query is answered with the other one although peer 0
registered later. -/
example : ∃ acts s, run (State.step hubAddrs []) .init acts = some s ∧ s.closed 0 = true ∧
    (s.query 0).phase = .done (fullAddr [98] 20001) :=
  ⟨hubRegister 1 ++ hubReady 1 ++ hubRegister 0 ++ [.close 0, hubAsk 2, .look 0, .examine 0, .examine 0, .respond 0],
    _, rfl, rfl, rfl⟩

end Verif.Props
