import Verif.Net.Pair
import Verif.Props.Net8

/-! # C139: closing a mock connection -/

namespace Verif.Props

open Verif Verif.Net.Pair

/-- C139, the process.  It crashes exactly if line 171 of a `Close` is executed (`drop g`) while another goroutine `h` is
between lines 161 and 162 of a `Write` of the same end, or of the `Write` in another `Close`, and `h` then goes on, whatever
else happens in between. -/
theorem C139_crash_exact_partial (acts : List Act) (s : State) (hr : run State.step .init acts = some s) :
    s.crashed = true ↔ ∃ pre t g h e b mid, acts = pre ++ .drop g :: (mid ++ [.load h]) ∧
      run State.step .init pre = some t ∧ t.pc g = .written e ∧ t.pc h = .tested e b ∧ ∀ a ∈ mid, a.by ≠ some h := by
  rw [crash_iff hr]
  constructor
  · rintro ⟨t, pre, g, h, e, b, h1, h2, h3, mid, h4, h5⟩
    exact ⟨pre, t, g, h, e, b, mid, h4, h1, h2, h3, h5⟩
  · rintro ⟨pre, t, g, h, e, b, mid, h4, h1, h2, h3, h5⟩
    exact ⟨t, pre, g, h, e, b, h1, h2, h3, mid, h4, h5⟩

/-- C139 refuted: one goroutine writes, as the send routine does, while another closes the connection, and the process
crashes.  Nobody else does anything. -/
theorem C139_crash_refuted : ∃ s, run State.step .init
    [.write 0 false [1], .close 1 false, .load 1, .enter 1, .drop 1, .load 0] = some s ∧ s.crashed = true :=
  ⟨_, rfl, rfl⟩

/-- C139, what holds.  In every fair execution (`Fair`: goroutines go on if they can, and what arrives at the other end is
read until a read fails) in which only `g` closes the end `e`: if `g` is in `Close`, then `Close` returns and leaves no
peer behind, and a read of the other end fails; or the process crashes, as above. -/
theorem C139_close_partial {T : Trace State.step} {g : Nat} {e : Bool} (F : Fair (!e) T)
    (hs : ∀ n k, T.act n = some (.close k e) → k = g) (n : Nat) (h : Closing (T.st n) g e)
    (hc : ∀ m, (T.st m).crashed = false) :
    ∃ m, n ≤ m ∧ (T.st m).pc g = .idle ∧ (T.st m).linked e = false ∧ ∃ m', m ≤ m' ∧ none ∈ (T.st m').taken (!e) := by
  obtain ⟨m, h1, h2, h3⟩ := F.returns hs (fun m _ => hc m) h
  obtain ⟨m', h4, h5⟩ := F.told (n := m) (fun m _ => hc m) h3
  exact ⟨m, h1, h2, h3, m', h4, h5⟩

/-- C139, what was written before.  In every execution, what the reads of an end have got is, in order, what entered its
channel, except for at most one slice that is still in it; and when the other end has been closed, a nil slice has entered,
so that a read that gets it fails. -/
theorem C139_order_partial (acts : List Act) (s : State) (hr : run State.step .init acts = some s) (e : Bool) :
    s.put e = s.taken e ++ (s.chan e).toList ∧ (s.linked e = false → none ∈ s.put (!e)) := by
  have I : Inv s := run_inv (fun _ _ _ => inv_step) acts _ _ inv_init hr
  exact ⟨I.put e, I.unlinked e⟩

/-- C139 refuted for its return: the other end does not read any more, as when its receive routine has ended, and one slice
is in the channel.  Then `Close` does not return, whatever else happens, and the field `peer` remains. -/
theorem C139_blocked_refuted : ∃ s, run State.step .init
    [.write 0 false [1], .load 0, .enter 0, .close 1 false, .load 1] = some s ∧ s.pc 0 = .idle ∧
    ∀ acts t, .read true ∉ acts → run State.step s acts = some t → t.pc 1 = .waiting false none := by
  refine ⟨_, rfl, rfl, fun acts t h ht => ?_⟩
  exact (waits (e := false) acts _ t (fun a ha e => h ((show a = .read true from e) ▸ ha)) rfl (by intro h; cases h) ht).1

/-- C139 refuted for reads that come later: the second read after `Close` does not fail, it blocks, whatever else happens. -/
theorem C139_second_read_refuted : ∃ s, run State.step .init
    [.close 1 false, .load 1, .enter 1, .drop 1, .read true] = some s ∧ s.linked false = false ∧ s.taken true = [none] ∧
    s.chan true = none ∧
    ∀ acts t, run State.step s acts = some t → t.chan true = none := by
  refine ⟨_, rfl, rfl, rfl, rfl, fun acts t ht => ?_⟩
  have hI := run_inv (step := State.step)
    (I := fun s => s.linked false = false ∧ s.chan true = none ∧ ∀ g b, s.pc g ≠ .waiting false b)
    (by
      intro s a t hI hs
      obtain ⟨h1, h2, h3⟩ := hI
      have hl := unlinked_step h1 hs
      refine ⟨hl, ?_⟩
      unfold State.step at hs
      split at hs
      · cases hs
      cases a with
      | write g e b =>
        simp only at hs
        split at hs
        · split at hs
          · cases hs
            refine ⟨h2, fun k b' hk => ?_⟩
            simp only [upd] at hk
            split at hk
            · cases hk
            · exact h3 k b' hk
          · cases hs; exact ⟨h2, h3⟩
        · cases hs
      | close g e =>
        simp only at hs
        split at hs
        · cases hs
          refine ⟨h2, fun k b' hk => ?_⟩
          simp only [upd] at hk
          split at hk
          · split at hk <;> cases hk
          · exact h3 k b' hk
        · cases hs
      | load g =>
        simp only at hs
        split at hs
        · split at hs
          · rename_i hle
            cases hs
            refine ⟨h2, fun k b' hk => ?_⟩
            simp only [upd] at hk
            split at hk
            · cases hk; rw [h1] at hle; cases hle
            · exact h3 k b' hk
          · cases hs; exact ⟨h2, h3⟩
        · cases hs
      | enter g =>
        simp only at hs
        split at hs
        · rename_i e b hp
          split at hs
          · cases hs
            cases e with
            | false => exact absurd hp (h3 g b)
            | true =>
              refine ⟨by simpa [upd] using h2, fun k b' hk => ?_⟩
              simp only [upd] at hk
              split at hk
              · split at hk <;> cases hk
              · exact h3 k b' hk
          · cases hs
        · cases hs
      | drop g =>
        simp only at hs
        split at hs
        · cases hs
          refine ⟨h2, fun k b' hk => ?_⟩
          simp only [upd] at hk
          split at hk
          · cases hk
          · exact h3 k b' hk
        · cases hs
      | read e =>
        simp only at hs
        split at hs
        · cases hs
          refine ⟨?_, h3⟩
          simp only [upd]
          split
          · rfl
          · exact h2
        · cases hs)
    acts _ t ⟨rfl, rfl, fun g b h => by
      rcases g with _ | _ | g <;> cases h⟩ ht
  exact hI.2.1

/-! ## An execution -/

/-- Something is written and read, and then the end is closed while something else is under way. -/
def closeActs : List Act :=
  [.write 0 false [1], .load 0, .enter 0, .close 1 false, .load 1, .read true, .enter 1, .read true, .drop 1]

private theorem close_runs (n : Nat) : run State.step .init (closeActs.take n) ≠ none := by
  have h : run State.step .init closeActs ≠ none := by
    intro h; cases (show some _ = none from h)
  intro hn
  rw [← List.take_append_drop n closeActs, run_append, hn] at h
  exact h rfl

/-- It is the beginning of a fair execution, which `C139_close_partial` is about. -/
example : ∃ T : Trace State.step, Fair true T ∧ (∀ n k, T.act n = some (.close k false) → k = 1) ∧
    Closing (T.st 4) 1 false ∧ (T.st 4).chan true = some (some [1]) ∧ (∀ m, (T.st m).crashed = false) ∧
    (T.st 9).taken true = [some [1], none] := by
  let T := restTrace State.step .init closeActs close_runs
  have rest : ∀ n, 9 ≤ n → T.st n = (run State.step .init closeActs).getD .init := by
    intro n hn
    show (run State.step .init (closeActs.take n)).getD .init = _
    rw [List.take_of_length_le (by simpa [closeActs] using hn)]
  have idle : ∀ n, 9 ≤ n → (∀ g, (T.st n).pc g = .idle) ∧ (∀ e, (T.st n).chan e = none) := by
    intro n hn
    rw [rest n hn]
    refine ⟨fun g => ?_, fun e => by cases e <;> rfl⟩
    rcases g with _ | _ | g <;> rfl
  refine ⟨T, ⟨rfl, ?_, ?_⟩, ?_, .inl rfl, rfl, ?_, rfl⟩
  · rintro K (⟨g, rfl⟩ | rfl) n h
    · obtain ⟨a, hk, ha⟩ := h (n + 9) (by omega)
      have := (idle (n + 9) (by omega)).1 g
      rcases hk with rfl | rfl <;> simp [State.step, this] at ha
    · obtain ⟨a, hk, ha⟩ := h (n + 9) (by omega)
      have := (idle (n + 9) (by omega)).2 true
      obtain ⟨rfl, _⟩ := hk
      simp [State.step, this] at ha
  · rintro K ⟨g, rfl⟩ n h
    obtain ⟨m, a, hm, hk, ha⟩ := h (n + 9) (by omega)
    have := (idle m (by omega)).1 g
    cases hk
    simp [State.step, this] at ha
  · intro n k h
    have h : closeActs[n]? = some (.close k false) := h
    have hm := List.mem_of_getElem? h
    simp [closeActs] at hm
    exact hm
  · intro m
    by_cases hm : 9 ≤ m
    · rw [rest m hm]; rfl
    · have : m < 9 := by omega
      rcases m with _ | _ | _ | _ | _ | _ | _ | _ | _ | m <;> first | rfl | omega

/-- The crash of `C139_crash_refuted` in the terms of `C139_crash_exact_partial`. -/
example : ∃ t, run State.step .init [.write 0 false [1], .close 1 false, .load 1, .enter 1] = some t ∧
    t.pc 1 = .written false ∧ t.pc 0 = .tested false (some [1]) := ⟨_, rfl, rfl, rfl⟩

/-- An execution with a `Close` that overlaps with a `Write` and does not crash: the hypothesis of `C139_order_partial`. -/
example : ∃ s, run State.step .init closeActs = some s ∧ s.crashed = false ∧ s.linked false = false ∧
    s.put true = [some [1], none] := ⟨_, rfl, rfl, rfl, rfl⟩

end Verif.Props
