import Verif.Dock.Dock

/-!
# Facts about the features of a dock
-/

namespace Verif.Dock

open Verif

/-- `f` is the last feature carried under the name `n`. -/
def LastNamed (cs : List Carried) (n : Str) (f : Carried) : Prop :=
  ∃ pre post, cs = pre ++ f :: post ∧ f.name = n ∧ ∀ g ∈ post, g.name ≠ n

theorem slotsOf_append (cs : List Carried) (c : Carried) :
    slotsOf (cs ++ [c]) = upd (slotsOf cs) c.name (some c) := by
  simp [slotsOf, List.foldl_append]

theorem foldl_slots (cs : List Carried) (t : Str → Option Carried) (n : Str) :
    cs.foldl (fun t c => upd t c.name (some c)) t n = (slotsOf cs n).or (t n) := by
  induction cs generalizing t with
  | nil => simp [slotsOf]
  | cons c cs ih =>
    simp only [slotsOf, List.foldl_cons]
    rw [ih, ih (upd (fun _ => none) c.name (some c))]
    by_cases e : n = c.name
    · subst e
      cases h : slotsOf cs c.name <;> simp
    · cases h : slotsOf cs n <;> simp [upd, e]

theorem slotsOf_cons (c : Carried) (cs : List Carried) (n : Str) :
    slotsOf (c :: cs) n = (slotsOf cs n).or (if c.name = n then some c else none) := by
  rw [slotsOf, List.foldl_cons, foldl_slots]
  by_cases e : n = c.name
  · subst e; simp
  · have e' : ¬ c.name = n := fun h => e h.symm
    simp [upd, e, e']

theorem slotsOf_none (cs : List Carried) (n : Str) : slotsOf cs n = none ↔ ∀ c ∈ cs, c.name ≠ n := by
  induction cs with
  | nil => simp [slotsOf]
  | cons c cs ih =>
    rw [slotsOf_cons]
    by_cases e : c.name = n
    · simp [e]
    · simp [e, ih]

theorem slotsOf_some (cs : List Carried) (n : Str) (f : Carried) : slotsOf cs n = some f ↔ LastNamed cs n f := by
  induction cs with
  | nil => simp [slotsOf, LastNamed]
  | cons c cs ih =>
    rw [slotsOf_cons]
    constructor
    · intro h
      cases hc : slotsOf cs n with
      | some g =>
        rw [hc] at h
        simp only [Option.some_or, Option.some.injEq] at h
        subst h
        obtain ⟨pre, post, e, hn, hp⟩ := ih.mp hc
        exact ⟨c :: pre, post, by simp [e], hn, hp⟩
      | none =>
        rw [hc] at h
        simp only [Option.none_or, Option.ite_none_right_eq_some, Option.some.injEq] at h
        obtain ⟨hn, rfl⟩ := h
        exact ⟨[], cs, rfl, hn, (slotsOf_none cs n).mp hc⟩
    · rintro ⟨pre, post, e, hn, hp⟩
      cases pre with
      | nil =>
        simp only [List.nil_append, List.cons.injEq] at e
        obtain ⟨rfl, rfl⟩ := e
        rw [(slotsOf_none cs n).mpr hp]
        simp [hn]
      | cons d pre =>
        simp only [List.cons_append, List.cons.injEq] at e
        rw [ih.mpr ⟨pre, post, e.2, hn, hp⟩]
        rfl

theorem LastNamed.unique {cs : List Carried} {n : Str} {f g : Carried} (hf : LastNamed cs n f)
    (hg : LastNamed cs n g) : f = g := by
  have := (slotsOf_some cs n f).mpr hf
  rw [(slotsOf_some cs n g).mpr hg] at this
  exact (Option.some.inj this).symm

theorem mem_collectOf (cs : List Carried) (n : Str) :
    n ∈ collectOf cs ↔ ∃ f, LastNamed cs n f ∧ f.discoverable = true := by
  unfold collectOf keysOf
  rw [List.mem_filter]
  constructor
  · rintro ⟨_, h⟩
    split at h
    · rename_i c hc
      exact ⟨c, (slotsOf_some cs n c).mp hc, h⟩
    · cases h
  · rintro ⟨f, hf, hd⟩
    refine ⟨?_, ?_⟩
    · obtain ⟨pre, post, e, hn, _⟩ := hf
      rw [List.mem_eraseDups]
      exact List.mem_map.mpr ⟨f, by simp [e], hn⟩
    · rw [(slotsOf_some cs n f).mpr hf]; exact hd

theorem nodup_eraseDups (l : List Str) : l.eraseDups.Nodup := by
  induction h : l.length using Nat.strongRecOn generalizing l with
  | _ k ih =>
    cases l with
    | nil => simp
    | cons a l =>
      rw [List.eraseDups_cons, List.nodup_cons]
      refine ⟨by simp [List.mem_eraseDups], ih _ ?_ _ rfl⟩
      have := List.length_filter_le (fun b => !b == a) l
      simp only [List.length_cons] at h
      omega

theorem nodup_collectOf (cs : List Carried) : (collectOf cs).Nodup := by
  unfold collectOf keysOf
  exact List.Pairwise.filter _ (nodup_eraseDups _)

/-- What `collect` may return. -/
theorem isPerm_collect {cs : List Carried} {order : List Str} (h : order.isPerm (collectOf cs) = true) :
    order.Nodup ∧ ∀ n, n ∈ order ↔ ∃ f, LastNamed cs n f ∧ f.discoverable = true := by
  have hp : order.Perm (collectOf cs) := List.isPerm_iff.mp h
  exact ⟨hp.nodup_iff.mpr (nodup_collectOf cs), fun n => by rw [hp.mem_iff, mem_collectOf]⟩

end Verif.Dock
