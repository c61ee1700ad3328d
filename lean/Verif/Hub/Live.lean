import Verif.Hub.Hub

/-! # What the goroutine of a query can do when nobody disturbs it -/

namespace Verif.Hub

open Verif Verif.Proto

/-- The goroutine of query `q` is somewhere else. -/
def State.put (s : State) (q : Nat) (ph : Phase) : State := { s with query := upd s.query q { s.query q with phase := ph } }

/-- What is left when query `q` has been answered. -/
def State.responded (s : State) (q : Nat) (addr : Str) : State :=
  { s.put q (.done addr) with log := s.log ++ [.sent (s.query q).peer (.queryResponse addr)] }

theorem upd_upd {ι : Type} [DecidableEq ι] {β : Type} (f : ι → β) (i : ι) (x y : β) : upd (upd f i x) i y = upd f i y := by
  funext j
  by_cases h : j = i
  · subst h; simp
  · rw [upd_other _ _ h, upd_other _ _ h, upd_other _ _ h]

section
variable {R : Nat → Str} {black : List Int}

/-- The loop over the stubs, from a stub at or behind the newest ready one. -/
theorem seek_ready (s : State) (q j : Nat) (st : Stub) (hd : s.dead = false) (hj : (s.stubs (s.query q).slot)[j]? = some st)
    (hr : st.ready = true) (k : Nat) (hk : j ≤ k) (hl : k < (s.stubs (s.query q).slot).length)
    (hn : ∀ m st', j < m → (s.stubs (s.query q).slot)[m]? = some st' → st'.ready = false) :
    ∃ as, (∀ a ∈ as, a = .examine q) ∧ run (State.step R black) (s.put q (.seek k)) as = some (s.put q (.chosen j)) := by
  induction k with
  | zero =>
    have : j = 0 := by omega
    subst this
    refine ⟨[.examine q], by simp, ?_⟩
    simp [run, State.step, State.put, hd, hj, hr, upd_upd]
  | succ k ih =>
    by_cases e : j = k + 1
    · subst e
      refine ⟨[.examine q], by simp, ?_⟩
      simp [run, State.step, State.put, hd, hj, hr, upd_upd]
    · obtain ⟨as, h1, h2⟩ := ih (by omega) (by omega)
      refine ⟨.examine q :: as, ?_, ?_⟩
      · intro a ha
        rcases List.mem_cons.mp ha with rfl | ha
        · rfl
        · exact h1 a ha
      · have h3 : (s.stubs (s.query q).slot)[k + 1]? = some (s.stubs (s.query q).slot)[k + 1] := List.getElem?_eq_getElem hl
        have h4 := hn (k + 1) _ (by omega) h3
        have h5 : (s.put q (.seek (k + 1))).step R black (.examine q) = some (s.put q (.seek k)) := by
          simp only [State.step, State.put, hd, upd_same, h3]
          rw [if_neg (by simp), if_neg (by rw [h4]; simp), upd_upd]
        simp only [run, h5]
        exact h2

/-- The goroutine of a query answers it with the newest ready stub. -/
theorem query_ready (s : State) (q j : Nat) (st : Stub) (hd : s.dead = false) (hq : q < s.n)
    (ht : (s.query q).phase = .top) (hj : (s.stubs (s.query q).slot)[j]? = some st) (hr : st.ready = true)
    (hn : ∀ m st', j < m → (s.stubs (s.query q).slot)[m]? = some st' → st'.ready = false) :
    ∃ as, (∀ a ∈ as, a = .look q ∨ a = .examine q ∨ a = .respond q) ∧
      run (State.step R black) s as = some (s.responded q st.addr) := by
  have hlt := (List.getElem?_eq_some_iff.mp hj).1
  obtain ⟨k, hk⟩ : ∃ k, (s.stubs (s.query q).slot).length = k + 1 := ⟨_, (Nat.succ_pred (by omega)).symm⟩
  obtain ⟨as, h1, h2⟩ := seek_ready (R := R) (black := black) s q j st hd hj hr k (by omega) (by omega) hn
  refine ⟨.look q :: (as ++ [.respond q]), ?_, ?_⟩
  · intro a ha
    rcases List.mem_cons.mp ha with rfl | ha
    · exact Or.inl rfl
    · rcases List.mem_append.mp ha with ha | ha
      · exact Or.inr (Or.inl (h1 a ha))
      · exact Or.inr (Or.inr (List.mem_singleton.mp ha))
  · have h5 : s.step R black (.look q) = some (s.put q (.seek k)) := by
      simp only [State.step, State.put, hd, ht, hk]
      rw [if_neg (by simp), if_pos hq]
    simp only [run, h5]
    rw [run_append, h2]
    simp [run, State.step, State.put, hd, hj, upd_upd, State.responded]

end

end Verif.Hub
