import Verif.Codec.Grammar

/-! # Which inputs `Decode` accepts, rejects and crashes on

C07 made exact, and C111. -/

namespace Verif.Props

open Verif Verif.Codec

/-- C07 made exact: `Decode` panics on exactly the inputs with `Crash`, a grammar on tags and lengths: a float
tag before an acceptable item that is not an unsigned integer of the width of the float, or an array or a map
as key of a map whose value is acceptable, possibly inside other items.  Full statement of C07: it survives
every input. -/
theorem C07_crash_exact_partial (s : List Byte) :
    ((decode s).Survives ↔ ¬ Crash s) ∧ (decode s = .panic ↔ Crash s) := by
  have h := decode_agrees s
  cases hd : decode s with
  | ok p => rw [hd] at h; exact ⟨⟨fun _ => h.2.1, fun _ => trivial⟩, fun x => (by cases x), fun x => absurd x h.2.1⟩
  | err e => rw [hd] at h; exact ⟨⟨fun _ => h.2, fun _ => trivial⟩, fun x => (by cases x), fun x => absurd x h.2⟩
  | panic => rw [hd] at h; exact ⟨⟨fun x => x.elim, fun x => absurd h.2 x⟩, fun _ => h.2, fun _ => rfl⟩
  | fatal => rw [hd] at h; exact h.elim
  | diverge => rw [hd] at h; exact h.elim

/-- A map with one entry whose key is the array [nil]; inside an array behind the value true. -/
example : Crash [0xdd, 0, 0, 0, 2, 0xc3, 0xdf, 0, 0, 0, 1, 0xdd, 0, 0, 0, 1, 0xc0, 0xc2] := by
  refine .arr _ (by simp) (.later 1 _ [0xdf, 0, 0, 0, 1, 0xdd, 0, 0, 0, 1, 0xc0, 0xc2] ?_ (.here 0 _ ?_))
  · exact .fixed 0xc3 0 _ (by decide) (Or.inl rfl)
  · refine .map _ (by simp) (.unhashable 0 _ [0xc2] [] ?_ ?_ (Or.inl rfl))
    · exact .arr _ _ (by simp) (.more 0 _ [0xc2] _ (.fixed 0xc0 0 _ (by decide) (Or.inl rfl)) (.none _))
    · exact .fixed 0xc2 0 _ (by decide) (Or.inl rfl)

/-- A truncated array header claims elements that are not there: rejected, so no crash. -/
example : ¬ Crash [0xdd, 0, 0, 1] := by
  refine (C07_crash_exact_partial _).1.mp ?_
  rw [show decode [0xdd, 0, 0, 1] = .err .eof by decide +kernel]
  trivial

/-- C111: `Decode` accepts an input, leaving `t`, exactly if an item of the grammar stands at its front and `t`
follows it; what it leaves is unique; and what it neither accepts nor crashes on it rejects with an error. -/
theorem C111_accepted (s : List Byte) :
    (∀ t, (∃ v, decode s = .ok (v, t)) ↔ Item s t) ∧
    (∀ t t', Item s t → Item s t' → t = t') ∧
    ((∃ e, decode s = .err e) ↔ (∀ t, ¬ Item s t) ∧ ¬ Crash s) := by
  have h := decode_agrees s
  cases hd : decode s with
  | ok p =>
    obtain ⟨v, u⟩ := p
    rw [hd] at h
    obtain ⟨a, b, -⟩ := h
    refine ⟨fun t => ⟨?_, fun x => ⟨v, by rw [(a t).mp x]⟩⟩,
      fun t t' x y => ((a t).mp x).trans ((a t').mp y).symm, ?_, ?_⟩
    · rintro ⟨v', e⟩
      cases e
      exact (a _).mpr rfl
    · rintro ⟨e, x⟩
      cases x
    · rintro ⟨x, -⟩
      exact absurd ((a u).mpr rfl) (x u)
  | err e =>
    rw [hd] at h
    exact ⟨fun t => ⟨fun ⟨v, x⟩ => (by cases x), fun x => absurd x (h.1 t)⟩, fun t _ x => absurd x (h.1 t),
      fun _ => h, fun _ => ⟨e, rfl⟩⟩
  | panic =>
    rw [hd] at h
    exact ⟨fun t => ⟨fun ⟨v, x⟩ => (by cases x), fun x => absurd x (h.1 t)⟩, fun t _ x => absurd x (h.1 t),
      fun ⟨e, x⟩ => (by cases x), fun x => absurd h.2 x.2⟩
  | fatal => rw [hd] at h; exact h.elim
  | diverge => rw [hd] at h; exact h.elim

/-- A map from "A" to the float 1.0, followed by another item. -/
example : Item [0xdf, 0, 0, 0, 1, 0xdb, 0, 0, 0, 1, 0x41, 0xcb, 0xcf, 0x3f, 0xf0, 0, 0, 0, 0, 0, 0, 0xc0] [0xc0] := by
  refine .map _ _ (by simp) (.more 0 _ [0xcb, 0xcf, 0x3f, 0xf0, 0, 0, 0, 0, 0, 0, 0xc0] [0xc0] _ ?_ (by decide) (by decide)
    ?_ (.none _))
  · exact .str [0, 0, 0, 1, 0x41, 0xcb, 0xcf, 0x3f, 0xf0, 0, 0, 0, 0, 0, 0, 0xc0] (by simp) (Or.inr (by simp))
  · exact .f64 _ _ rfl (.fixed 0xcf 8 [0x3f, 0xf0, 0, 0, 0, 0, 0, 0, 0xc0] (by decide) (Or.inr (by simp)))

end Verif.Props
