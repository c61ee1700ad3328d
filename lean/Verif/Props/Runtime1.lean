import Verif.Dock.Runtime

/-! # C103 and C104: instances that are started at the same time, and the end of `Startup` and `Serve` -/

namespace Verif.Props

open Verif Verif.Runtime

/-- The call of `wait` for this instance has assigned `insts`. -/
def entered : Phase → Prop
  | .stored | .subscribed _ | .returned => True
  | _ => False

/-- No `append` is under way. -/
def quiet (s : Runtime.State) : Prop := ∀ j h, s.phase j ≠ .loaded h ∧ s.phase j ≠ .written h

/-- An `append` begins when no other one is under way, and neither is `Close`; `Close` begins when no `append` is. -/
def apart (s : Runtime.State) (a : Runtime.Act) : Prop :=
  (∀ i, a = .load i → quiet s ∧ s.loop = none) ∧ (a = .close → quiet s)

/-- Instances `ids` are the first ones of a slice. -/
private def Holds (s : Runtime.State) (h : Hdr) (ids : List Nat) : Prop :=
  ids.length ≤ h.len ∧ ∀ k (hk : k < ids.length), s.heap h.arr k = some ids[k]

/-- The slice of instances holds the docks that were created and not closed, each once. -/
private structure RtInv (s : Runtime.State) (ids : List Nat) : Prop where
  fresh : s.insts.arr < s.next
  holds : Holds s s.insts ids
  open_ : s.loop = none → ids.length = s.insts.len
  closing : ∀ k, s.loop = some k → ids.length = k
  cap : s.insts.len ≤ s.cap s.insts.arr
  nodup : (ids ++ s.closed).Nodup
  ent : ∀ i, entered (s.phase i) ↔ i ∈ ids ∨ i ∈ s.closed
  loaded : ∀ j h, s.phase j = .loaded h → h = s.insts ∧ s.loop = none ∧
    ∀ i h', i ≠ j → s.phase i ≠ .loaded h' ∧ s.phase i ≠ .written h'
  written : ∀ j h, s.phase j = .written h → s.loop = none ∧ h.arr < s.next ∧ h.len = s.insts.len + 1 ∧
    h.len ≤ s.cap h.arr ∧ Holds s h (ids ++ [j]) ∧
    ∀ i h', i ≠ j → s.phase i ≠ .loaded h' ∧ s.phase i ≠ .written h'
  alive : s.dead = true → s.notified = false

private theorem entered_upd {p : Nat → Phase} {i : Nat} {q : Phase} (h : entered q ↔ entered (p i)) (j : Nat) :
    entered (upd p i q j) ↔ entered (p j) := by
  by_cases e : j = i
  · subst e; rw [upd_same]; exact h
  · rw [upd_other _ _ e]

private theorem rtInv_step (s : Runtime.State) (a : Runtime.Act) (s' : Runtime.State) (ok : apart s a)
    (h : ∃ ids, RtInv s ids) (hs : s.step a = some s') : ∃ ids, RtInv s' ids := by
  obtain ⟨ids, hI⟩ := h
  unfold State.step at hs
  split at hs
  · cases hs
  rename_i hdead
  cases a with
  | load i =>
    simp only at hs
    split at hs
    · rename_i hp
      cases hs
      obtain ⟨hq, hl⟩ := ok.1 i rfl
      refine ⟨ids, hI.fresh, hI.holds, hI.open_, hI.closing, hI.cap, hI.nodup, ?_, ?_, ?_, hI.alive⟩
      · intro j
        rw [← hI.ent j]
        exact entered_upd (by rw [hp]; exact Iff.rfl) j
      · intro j h hj
        by_cases e : j = i
        · subst e
          simp only [upd_same, Phase.loaded.injEq] at hj
          refine ⟨hj.symm, hl, fun k h' hk => ?_⟩
          simp only [upd_other _ _ hk]
          exact hq k h'
        · simp only [upd_other _ _ e] at hj
          exact absurd hj (hq j h).1
      · intro j h hj
        by_cases e : j = i
        · subst e
          simp only [upd_same, reduceCtorEq] at hj
        · simp only [upd_other _ _ e] at hj
          exact absurd hj (hq j h).2
    · cases hs
  | write i size =>
    simp only at hs
    split at hs
    · rename_i h hp
      obtain ⟨rfl, hl, hq⟩ := hI.loaded i h hp
      have hlen := hI.open_ hl
      have others : ∀ (q : Phase) (k : Nat) (h' : Hdr), k ≠ i →
          upd s.phase i q k ≠ .loaded h' ∧ upd s.phase i q k ≠ .written h' := by
        intro q k h' hk
        rw [upd_other _ _ hk]
        exact hq k h' hk
      split at hs
      · rename_i hc
        cases hs
        have keep : ∀ k, k < ids.length → upd s.heap s.insts.arr (upd (s.heap s.insts.arr) s.insts.len (some i))
            s.insts.arr k = s.heap s.insts.arr k := by
          intro k hk
          rw [upd_same, upd_other _ _ (by omega)]
        refine ⟨ids, hI.fresh, ⟨hI.holds.1, fun k hk => ?_⟩, hI.open_, hI.closing, hI.cap, hI.nodup, ?_, ?_, ?_, hI.alive⟩
        · simp only
          rw [keep k hk]
          exact hI.holds.2 k hk
        · intro j
          rw [← hI.ent j]
          exact entered_upd (by rw [hp]; exact Iff.rfl) j
        · intro j h hj
          by_cases e : j = i
          · subst e
            simp only [upd_same, reduceCtorEq] at hj
          · exact absurd hj (others _ j h e).1
        · intro j h hj
          by_cases e : j = i
          · subst e
            simp only [upd_same, Phase.written.injEq] at hj
            subst hj
            refine ⟨hl, hI.fresh, rfl, hc, ⟨by simp only [List.length_append, List.length_singleton]; omega, ?_⟩,
              fun k h' hk => others _ k h' hk⟩
            intro k hk
            simp only [List.length_append, List.length_singleton] at hk
            simp only
            by_cases hk' : k < ids.length
            · rw [keep k hk', List.getElem_append_left hk']
              exact hI.holds.2 k hk'
            · have : k = s.insts.len := by omega
              subst this
              rw [upd_same, upd_same]
              simp [hlen]
          · exact absurd hj (others _ j h e).2
      · split at hs
        · rename_i hc hsz
          cases hs
          have keep : ∀ k, upd s.heap s.next (fun k => if k < s.insts.len then s.heap s.insts.arr k
              else if k = s.insts.len then some i else none) s.insts.arr k = s.heap s.insts.arr k := by
            intro k
            rw [upd_other _ _ (Nat.ne_of_lt hI.fresh)]
          refine ⟨ids, Nat.lt_succ_of_lt hI.fresh, ⟨hI.holds.1, fun k hk => ?_⟩, hI.open_, hI.closing, ?_, hI.nodup, ?_, ?_,
            ?_, hI.alive⟩
          · simp only
            rw [keep k]
            exact hI.holds.2 k hk
          · simp only
            rw [upd_other _ _ (Nat.ne_of_lt hI.fresh)]
            exact hI.cap
          · intro j
            rw [← hI.ent j]
            exact entered_upd (by rw [hp]; exact Iff.rfl) j
          · intro j h hj
            by_cases e : j = i
            · subst e
              simp only [upd_same, reduceCtorEq] at hj
            · exact absurd hj (others _ j h e).1
          · intro j h hj
            by_cases e : j = i
            · subst e
              simp only [upd_same, Phase.written.injEq] at hj
              subst hj
              refine ⟨hl, Nat.lt_succ_self _, rfl, ?_, ⟨by simp only [List.length_append, List.length_singleton]; omega, ?_⟩,
                fun k h' hk => others _ k h' hk⟩
              · simp only [upd_same]; exact hsz
              · intro k hk
                simp only [List.length_append, List.length_singleton] at hk
                simp only [upd_same]
                by_cases hk' : k < ids.length
                · rw [if_pos (by omega), List.getElem_append_left hk']
                  exact hI.holds.2 k hk'
                · have : k = s.insts.len := by omega
                  subst this
                  simp [hlen]
            · exact absurd hj (others _ j h e).2
        · cases hs
    · cases hs
  | store i =>
    simp only at hs
    split at hs
    · rename_i h hp
      cases hs
      obtain ⟨hl, h1, h2, h3, h4, hq⟩ := hI.written i h hp
      have hlen := hI.open_ hl
      have hni : ¬ (i ∈ ids ∨ i ∈ s.closed) := by
        rw [← hI.ent i, hp]; exact id
      refine ⟨ids ++ [i], h1, h4, fun _ => by simp [hlen, h2], fun k hk => ?_, h3, ?_, ?_, ?_, ?_, hI.alive⟩
      · simp only at hk; rw [hl] at hk; cases hk
      · simp only [List.append_assoc]
        have := hI.nodup
        rw [List.nodup_append] at this ⊢
        simp only [not_or] at hni
        refine ⟨this.1, ?_, ?_⟩
        · simp only [List.singleton_append, List.nodup_cons]
          exact ⟨hni.2, this.2.1⟩
        · intro x hx y hy
          simp only [List.singleton_append, List.mem_cons] at hy
          rcases hy with rfl | hy
          · rintro rfl; exact hni.1 hx
          · exact this.2.2 x hx y hy
      · intro j
        by_cases e : j = i
        · subst e; simp [entered]
        · simp only [upd_other _ _ e]
          rw [hI.ent j]
          simp [e]
      · intro j h' hj
        by_cases e : j = i
        · subst e; simp only [upd_same, reduceCtorEq] at hj
        · simp only [upd_other _ _ e] at hj
          exact absurd hj (hq j h' e).1
      · intro j h' hj
        by_cases e : j = i
        · subst e; simp only [upd_same, reduceCtorEq] at hj
        · simp only [upd_other _ _ e] at hj
          exact absurd hj (hq j h' e).2
    · cases hs
  | notify i =>
    simp only at hs
    split at hs
    · rename_i hp
      cases hs
      have pl : ∀ j h, upd s.phase i (.subscribed false) j = .loaded h → s.phase j = .loaded h := by
        intro j h hj
        by_cases e : j = i
        · subst e; simp only [upd_same, reduceCtorEq] at hj
        · simpa only [upd_other _ _ e] using hj
      have pw : ∀ j h, upd s.phase i (.subscribed false) j = .written h → s.phase j = .written h := by
        intro j h hj
        by_cases e : j = i
        · subst e; simp only [upd_same, reduceCtorEq] at hj
        · simpa only [upd_other _ _ e] using hj
      refine ⟨ids, hI.fresh, hI.holds, hI.open_, hI.closing, hI.cap, hI.nodup, ?_, ?_, ?_, ?_⟩
      · intro j
        rw [← hI.ent j]
        exact entered_upd (by rw [hp]; exact Iff.rfl) j
      · intro j h hj
        obtain ⟨a, b, c⟩ := hI.loaded j h (pl j h hj)
        exact ⟨a, b, fun k h' hk => ⟨fun e => (c k h' hk).1 (pl k h' e), fun e => (c k h' hk).2 (pw k h' e)⟩⟩
      · intro j h hj
        obtain ⟨a, b, b1, b2, b3, c⟩ := hI.written j h (pw j h hj)
        exact ⟨a, b, b1, b2, b3, fun k h' hk => ⟨fun e => (c k h' hk).1 (pl k h' e), fun e => (c k h' hk).2 (pw k h' e)⟩⟩
      · intro e; exact absurd e hdead
    · cases hs
  | signal =>
    simp only at hs
    split at hs
    · cases hs
      have pl : ∀ j h, deliver s.phase j = .loaded h → s.phase j = .loaded h := by
        intro j h hj
        unfold deliver at hj
        split at hj
        · cases hj
        · exact hj
      have pw : ∀ j h, deliver s.phase j = .written h → s.phase j = .written h := by
        intro j h hj
        unfold deliver at hj
        split at hj
        · cases hj
        · exact hj
      refine ⟨ids, hI.fresh, hI.holds, hI.open_, hI.closing, hI.cap, hI.nodup, ?_, ?_, ?_, hI.alive⟩
      · intro j
        rw [← hI.ent j]
        simp only [deliver]
        split
        · rename_i e; rw [e]; exact Iff.rfl
        · exact Iff.rfl
      · intro j h hj
        obtain ⟨a, b, c⟩ := hI.loaded j h (pl j h hj)
        exact ⟨a, b, fun k h' hk => ⟨fun e => (c k h' hk).1 (pl k h' e), fun e => (c k h' hk).2 (pw k h' e)⟩⟩
      · intro j h hj
        obtain ⟨a, b, b1, b2, b3, c⟩ := hI.written j h (pw j h hj)
        exact ⟨a, b, b1, b2, b3, fun k h' hk => ⟨fun e => (c k h' hk).1 (pl k h' e), fun e => (c k h' hk).2 (pw k h' e)⟩⟩
    · rename_i hn
      cases hs
      exact ⟨ids, hI.fresh, hI.holds, hI.open_, hI.closing, hI.cap, hI.nodup, hI.ent, hI.loaded, hI.written,
        fun _ => by simpa using hn⟩
  | ret i =>
    simp only at hs
    split at hs
    · rename_i hp
      cases hs
      have pl : ∀ j h, upd s.phase i .returned j = .loaded h → s.phase j = .loaded h := by
        intro j h hj
        by_cases e : j = i
        · subst e; simp only [upd_same, reduceCtorEq] at hj
        · simpa only [upd_other _ _ e] using hj
      have pw : ∀ j h, upd s.phase i .returned j = .written h → s.phase j = .written h := by
        intro j h hj
        by_cases e : j = i
        · subst e; simp only [upd_same, reduceCtorEq] at hj
        · simpa only [upd_other _ _ e] using hj
      refine ⟨ids, hI.fresh, hI.holds, hI.open_, hI.closing, hI.cap, hI.nodup, ?_, ?_, ?_, hI.alive⟩
      · intro j
        rw [← hI.ent j]
        exact entered_upd (by rw [hp]; exact Iff.rfl) j
      · intro j h hj
        obtain ⟨a, b, c⟩ := hI.loaded j h (pl j h hj)
        exact ⟨a, b, fun k h' hk => ⟨fun e => (c k h' hk).1 (pl k h' e), fun e => (c k h' hk).2 (pw k h' e)⟩⟩
      · intro j h hj
        obtain ⟨a, b, b1, b2, b3, c⟩ := hI.written j h (pw j h hj)
        exact ⟨a, b, b1, b2, b3, fun k h' hk => ⟨fun e => (c k h' hk).1 (pl k h' e), fun e => (c k h' hk).2 (pw k h' e)⟩⟩
    · cases hs
  | close =>
    simp only at hs
    split at hs
    · rename_i hl
      cases hs
      have hq := ok.2 rfl
      refine ⟨ids, hI.fresh, hI.holds, fun e => (by cases e), fun k hk => ?_, hI.cap, hI.nodup, hI.ent, ?_, ?_, hI.alive⟩
      · cases hk; exact hI.open_ hl
      · intro j h hj; exact absurd hj (hq j h).1
      · intro j h hj; exact absurd hj (hq j h).2
    · cases hs
  | round =>
    simp only at hs
    split at hs
    · rename_i k hl
      have hk := hI.closing _ hl
      have hlt : k < ids.length := by omega
      have hh := hI.holds.2 k hlt
      have hle := hI.holds.1
      rw [if_pos (by omega), hh] at hs
      simp only [Option.some.injEq] at hs
      subst hs
      have hlast : ids = ids.take k ++ [ids[k]] := by
        rw [← List.take_succ_eq_append_getElem hlt, List.take_of_length_le (by omega)]
      have hm : ∀ j, j ∈ ids ↔ j ∈ ids.take k ∨ j = ids[k] := by
        intro j
        have : (j ∈ ids) = (j ∈ ids.take k ++ [ids[k]]) := congrArg (j ∈ ·) hlast
        rw [this, List.mem_append, List.mem_singleton]
      refine ⟨ids.take k, hI.fresh, ⟨by simp only [List.length_take]; omega, fun j hj => ?_⟩, fun e => (by cases e), fun j hj => ?_, hI.cap,
        ?_, ?_, ?_, ?_, hI.alive⟩
      · simp only [List.length_take] at hj
        rw [List.getElem_take]
        exact hI.holds.2 j (by omega)
      · cases hj; simp only [List.length_take]; omega
      · have hn := hI.nodup
        rw [hlast, List.append_assoc] at hn
        have hp : (ids.take k ++ ([ids[k]] ++ s.closed)).Perm (ids.take k ++ (s.closed ++ [ids[k]])) :=
          List.Perm.append_left _ List.perm_append_comm
        exact hp.nodup_iff.mp hn
      · intro j
        rw [hI.ent j]
        rw [hm j]
        simp only [List.mem_append, List.mem_singleton]
        constructor
        · rintro ((a | a) | a)
          · exact Or.inl a
          · exact Or.inr (Or.inr a)
          · exact Or.inr (Or.inl a)
        · rintro (a | a | a)
          · exact Or.inl (Or.inl a)
          · exact Or.inr a
          · exact Or.inl (Or.inr a)
      · intro j h hj
        have := (hI.loaded j h hj).2.1
        rw [hl] at this; cases this
      · intro j h hj
        have := (hI.written j h hj).1
        rw [hl] at this; cases this
    · cases hs
  | reset =>
    simp only at hs
    split at hs
    · rename_i hl
      cases hs
      have h0 := hI.closing _ hl
      have : ids = [] := List.length_eq_zero_iff.mp h0
      subst this
      refine ⟨[], hI.fresh, ⟨Nat.le_refl _, fun k hk => absurd hk (Nat.not_lt_zero _)⟩, fun _ => rfl, fun k hk => (by cases hk),
        Nat.zero_le _, hI.nodup, hI.ent, ?_, ?_, hI.alive⟩
      · intro j h hj
        have := (hI.loaded j h hj).2.1
        rw [hl] at this; cases this
      · intro j h hj
        have := (hI.written j h hj).1
        rw [hl] at this; cases this
    · cases hs

private theorem entered_step {i : Nat} (s : Runtime.State) (a : Runtime.Act) (s' : Runtime.State)
    (h : entered (s.phase i)) (hs : s.step a = some s') : entered (s'.phase i) := by
  have other : ∀ (k : Nat) (q : Phase), (k = i → entered q) → entered (upd s.phase k q i) := by
    intro k q hq
    by_cases e : i = k
    · subst e; rw [upd_same]; exact hq rfl
    · rw [upd_other _ _ e]; exact h
  unfold State.step at hs
  split at hs
  · cases hs
  cases a <;> simp only at hs
  case load k =>
    split at hs
    · rename_i hp
      cases hs
      exact other _ _ fun e => by subst e; rw [hp] at h; exact h.elim
    · cases hs
  case write k size =>
    split at hs
    · rename_i hp
      split at hs
      · cases hs
        exact other _ _ fun e => by subst e; rw [hp] at h; exact h.elim
      · split at hs
        · cases hs
          exact other _ _ fun e => by subst e; rw [hp] at h; exact h.elim
        · cases hs
    · cases hs
  case store k =>
    split at hs
    · cases hs; exact other _ _ fun _ => trivial
    · cases hs
  case notify k =>
    split at hs
    · cases hs; exact other _ _ fun _ => trivial
    · cases hs
  case signal =>
    split at hs
    · cases hs
      simp only [deliver]
      split
      · trivial
      · exact h
    · cases hs; exact h
  case ret k =>
    split at hs
    · cases hs; exact other _ _ fun _ => trivial
    · cases hs
  case close => split at hs <;> cases hs; exact h
  case round =>
    split at hs
    · split at hs
      · split at hs <;> cases hs <;> exact h
      · cases hs; exact h
    · cases hs
  case reset => split at hs <;> cases hs; exact h

private theorem entered_of_store {as : List Runtime.Act} {s0 s : Runtime.State} {i : Nat}
    (h : run State.step s0 as = some s) (hi : .store i ∈ as) : entered (s.phase i) := by
  obtain ⟨pre, post, rfl⟩ := List.append_of_mem hi
  rw [run_append] at h
  obtain ⟨t, h1, h2⟩ := Option.bind_eq_some_iff.mp h
  simp only [run] at h2
  split at h2
  · cases h2
  · rename_i u hu
    refine run_inv (I := fun s => entered (s.phase i)) entered_step post u s ?_ h2
    unfold State.step at hu
    split at hu
    · cases hu
    · simp only at hu
      split at hu
      · cases hu; simp [entered]
      · cases hu

private theorem not_entered {as : List Runtime.Act} {s : Runtime.State} {i : Nat}
    (h : run State.step State.init as = some s) (hi : .store i ∉ as) : ¬ entered (s.phase i) := by
  refine run_inv_on (I := fun s => ¬ entered (s.phase i)) (A := fun a => a ≠ .store i) ?_ as _ s
    (fun a ha e => hi (e ▸ ha)) id h
  intro s a s' hA h hs
  have other : ∀ (k : Nat) (q : Phase), (k = i → ¬ entered q) → ¬ entered (upd s.phase k q i) := by
    intro k q hq
    by_cases e : i = k
    · subst e; rw [upd_same]; exact hq rfl
    · rw [upd_other _ _ e]; exact h
  unfold State.step at hs
  split at hs
  · cases hs
  cases a <;> simp only at hs
  case load k =>
    split at hs
    · cases hs
      exact other _ _ fun _ => id
    · cases hs
  case write k size =>
    split at hs
    · split at hs
      · cases hs
        exact other _ _ fun _ => id
      · split at hs
        · cases hs
          exact other _ _ fun _ => id
        · cases hs
    · cases hs
  case store k =>
    split at hs
    · cases hs
      refine other _ _ fun e => absurd (by rw [e]) hA
    · cases hs
  case notify k =>
    split at hs
    · rename_i hp
      cases hs
      exact other _ _ fun e => by subst e; rw [hp] at h; exact absurd trivial h
    · cases hs
  case signal =>
    split at hs
    · cases hs
      simp only [deliver]
      split
      · rename_i hp; rw [hp] at h; exact absurd trivial h
      · exact h
    · cases hs; exact h
  case ret k =>
    split at hs
    · rename_i hp
      cases hs
      exact other _ _ fun e => by subst e; rw [hp] at h; exact absurd trivial h
    · cases hs
  case close => split at hs <;> cases hs; exact h
  case round =>
    split at hs
    · split at hs
      · split at hs <;> cases hs <;> exact h
      · cases hs; exact h
    · cases hs
  case reset => split at hs <;> cases hs; exact h

private theorem notified_of_notify {as : List Runtime.Act} {s0 s : Runtime.State} {i : Nat}
    (h : run State.step s0 as = some s) (hi : .notify i ∈ as) : s.notified = true := by
  obtain ⟨pre, post, rfl⟩ := List.append_of_mem hi
  rw [run_append] at h
  obtain ⟨t, h1, h2⟩ := Option.bind_eq_some_iff.mp h
  simp only [run] at h2
  split at h2
  · cases h2
  · rename_i u hu
    refine run_inv (I := fun s => s.notified = true) ?_ post u s ?_ h2
    · intro s a s' hI hs
      unfold State.step at hs
      split at hs
      · cases hs
      cases a <;> simp only at hs
      case write =>
        split at hs
        · split at hs
          · cases hs; exact hI
          · split at hs <;> cases hs; exact hI
        · cases hs
      case round =>
        split at hs
        · split at hs
          · split at hs <;> cases hs <;> exact hI
          · cases hs; exact hI
        · cases hs
      case notify => split at hs <;> cases hs; rfl
      case signal => rw [hI] at hs; cases hs; rfl
      all_goals (split at hs <;> cases hs; exact hI)
    · unfold State.step at hu
      split at hu
      · cases hu
      · simp only at hu
        split at hu <;> cases hu; rfl

private theorem rtInv_init : RtInv State.init [] := by
  refine ⟨Nat.zero_lt_one, ⟨Nat.le_refl _, fun k hk => absurd hk (Nat.not_lt_zero _)⟩, fun _ => rfl, fun k hk => (by cases hk),
    Nat.le_refl _, List.nodup_nil, fun i => by simp [State.init, entered], fun j h hj => (by cases hj),
    fun j h hj => (by cases hj), fun e => (by cases e)⟩

private theorem allSteps_and {ok : Runtime.State → Runtime.Act → Prop} {A : Runtime.Act → Prop} :
    ∀ (as : List Runtime.Act) (s : Runtime.State), AllSteps State.step s as ok → (∀ a ∈ as, A a) →
      AllSteps State.step s as fun s a => ok s a ∧ A a := by
  intro as s h hA pre a post t e ht
  exact ⟨h pre a post t e ht, hA a (by simp [e])⟩

/-- C103 (partial): if the assignments of `insts` do not overlap with one another or with `Close`, then no instance is
closed twice or without having been started; every instance that was started is closed or in `insts`; and when `Close`
returns, all of them are closed.  `Close` does not end the process; only a signal before the first `signal.Notify` does.
Missing: overlapping calls, see `C103_lost_refuted` and `C103_crash_refuted`. -/
theorem C103_closed_partial (as : List Runtime.Act) (s : Runtime.State) (h : run State.step State.init as = some s)
    (ha : AllSteps State.step State.init as apart) :
    s.closed.Nodup ∧
    (∀ i ∈ s.closed, .store i ∈ as) ∧
    (∀ i, .store i ∈ as → i ∈ s.closed ∨ ∃ k < s.insts.len, s.heap s.insts.arr k = some i) ∧
    (∀ pre, as = pre ++ [.reset] → ∀ i, .store i ∈ as → i ∈ s.closed) ∧
    (s.dead = true → .signal ∈ as ∧ ∀ i, .notify i ∉ as) := by
  obtain ⟨ids, hI⟩ := run_inv_steps (I := fun s => ∃ ids, RtInv s ids) rtInv_step as _ s ha
    ⟨[], rtInv_init⟩ h
  refine ⟨(List.nodup_append.mp hI.nodup).2.1, ?_, ?_, ?_, ?_⟩
  · intro i hi
    exact Classical.byContradiction fun hn => not_entered h hn ((hI.ent i).mpr (Or.inr hi))
  · intro i hi
    rcases (hI.ent i).mp (entered_of_store h hi) with h1 | h1
    · obtain ⟨k, hk, rfl⟩ := List.mem_iff_getElem.mp h1
      exact Or.inr ⟨k, Nat.lt_of_lt_of_le hk hI.holds.1, hI.holds.2 k hk⟩
    · exact Or.inl h1
  · rintro pre rfl i hi
    rw [run_append] at h
    obtain ⟨t, h1, h2⟩ := Option.bind_eq_some_iff.mp h
    have e : s.insts.len = 0 ∧ s.loop = none := by
      simp only [run] at h2
      split at h2
      · cases h2
      · rename_i u hu
        cases h2
        unfold State.step at hu
        split at hu
        · cases hu
        · simp only at hu
          split at hu
          · cases hu; exact ⟨rfl, rfl⟩
          · cases hu
    have h0 := hI.open_ e.2
    rw [e.1] at h0
    have : ids = [] := List.length_eq_zero_iff.mp h0
    subst this
    have := (hI.ent i).mp (entered_of_store (s0 := State.init) (as := pre ++ [.reset]) ?_ hi)
    · simpa using this
    · rw [run_append, h1]; exact h2
  · intro hd
    have hn := hI.alive hd
    refine ⟨?_, fun i hi => ?_⟩
    · refine Classical.byContradiction fun hsig => ?_
      have := run_inv_steps (I := fun s => (∃ ids, RtInv s ids) ∧ s.dead = false) (ok := fun s a => apart s a ∧ a ≠ .signal)
        ?_ as _ s (allSteps_and as State.init ha fun a h1 e => hsig (e ▸ h1)) ⟨⟨[], rtInv_init⟩, rfl⟩ h
      · rw [this.2] at hd; cases hd
      · rintro t a t' ⟨o1, o2⟩ ⟨⟨ids', hJ⟩, hJd⟩ ht
        refine ⟨rtInv_step t a t' o1 ⟨ids', hJ⟩ ht, ?_⟩
        unfold State.step at ht
        rw [hJd] at ht
        cases a <;> simp only [Bool.false_eq_true, if_false] at ht
        case signal => exact absurd rfl o2
        case round =>
          split at ht
          · rename_i k hl
            have hk := hJ.closing _ hl
            have hlt : k < ids'.length := by omega
            have hle := hJ.holds.1
            rw [if_pos (by omega), hJ.holds.2 k hlt] at ht
            cases ht; rfl
          · cases ht
        case write =>
          split at ht
          · split at ht
            · cases ht; rfl
            · split at ht <;> cases ht; rfl
          · cases ht
        all_goals (split at ht <;> cases ht; rfl)
    · have := notified_of_notify h hi
      rw [hn] at this; cases this

/-- An instance is started and closed. -/
example : AllSteps State.step State.init [.load 4, .write 4 1, .store 4, .notify 4, .close, .round, .reset] apart := by
  have q0 : quiet State.init := fun j h => ⟨by simp [State.init], by simp [State.init]⟩
  have none_ : ∀ (s : Runtime.State) (a : Runtime.Act), (∀ i, a ≠ .load i) → a ≠ .close → apart s a :=
    fun s a h1 h2 => ⟨fun i e => absurd e (h1 i), fun e => absurd e h2⟩
  refine .cons ⟨fun i _ => ⟨q0, rfl⟩, fun e => by cases e⟩ rfl (.cons (none_ _ _ (by simp) (by simp)) rfl
    (.cons (none_ _ _ (by simp) (by simp)) rfl (.cons (none_ _ _ (by simp) (by simp)) rfl
    (.cons ⟨fun i e => (by cases e), fun _ => ?_⟩ rfl (.cons (none_ _ _ (by simp) (by simp)) rfl
    (.cons (none_ _ _ (by simp) (by simp)) rfl .nil))))))
  intro j h
  simp only [upd, State.init]
  by_cases e : j = 4 <;> simp [e]

/-- Two instances are started one after the other and closed; a third is started afterwards. -/
example : ∃ s, run State.step State.init [.load 4, .write 4 1, .store 4, .load 5, .write 5 2, .notify 4, .store 5, .close,
      .round, .round, .reset, .load 6, .write 6 0, .store 6] = some s ∧ s.closed = [5, 4] ∧ s.insts = ⟨2, 1⟩ ∧
    s.heap 2 0 = some 6 := ⟨_, rfl, rfl, rfl, rfl⟩

private theorem gone_step {i : Nat} (s : Runtime.State) (a : Runtime.Act) (s' : Runtime.State)
    (h : entered (s.phase i) ∧ (∀ x k, s.heap x k ≠ some i) ∧ i ∉ s.closed) (hs : s.step a = some s') :
    entered (s'.phase i) ∧ (∀ x k, s'.heap x k ≠ some i) ∧ i ∉ s'.closed := by
  refine ⟨entered_step s a s' h.1 hs, ?_⟩
  obtain ⟨h1, h2, h3⟩ := h
  unfold State.step at hs
  split at hs
  · cases hs
  cases a <;> simp only at hs
  case write k size =>
    split at hs
    · rename_i hd hp
      have hki : some k ≠ some i := by
        intro e; cases e; rw [hp] at h1; exact h1
      split at hs
      · cases hs
        refine ⟨fun x m => ?_, h3⟩
        simp only [upd]
        split
        · simp only [upd]
          split
          · exact hki
          · exact h2 _ _
        · exact h2 _ _
      · split at hs
        · cases hs
          refine ⟨fun x m => ?_, h3⟩
          simp only [upd]
          split
          · simp only
            split
            · exact h2 _ _
            · split
              · exact hki
              · simp
          · exact h2 _ _
        · cases hs
    · cases hs
  case round =>
    split at hs
    · split at hs
      · split at hs
        · rename_i j hj
          cases hs
          refine ⟨h2, ?_⟩
          simp only [List.mem_append, List.mem_singleton, not_or]
          refine ⟨h3, ?_⟩
          rintro rfl
          exact h2 _ _ hj
        · cases hs; exact ⟨h2, h3⟩
      · cases hs; exact ⟨h2, h3⟩
    · cases hs
  case signal => split at hs <;> cases hs <;> exact ⟨h2, h3⟩
  all_goals (split at hs <;> cases hs; exact ⟨h2, h3⟩)

/-- C103 (refuted): two calls of `Startup` at the same time.  Both append to the same slice, and the later element takes
the place of the other.  The instance is running, but no `Close` will ever close it. -/
theorem C103_lost_refuted : ∃ as s, run State.step State.init as = some s ∧ .store 4 ∈ as ∧ s.dead = false ∧
    ∀ bs t, run State.step s bs = some t → 4 ∉ t.closed := by
  refine ⟨[.load 3, .write 3 4, .store 3, .load 4, .load 5, .write 4 0, .write 5 0, .store 4, .store 5], _, rfl, by decide, rfl, ?_⟩
  intro bs t ht
  refine (run_inv (I := fun s => entered (s.phase 4) ∧ (∀ x k, s.heap x k ≠ some 4) ∧ 4 ∉ s.closed) gone_step bs _ t ?_ ht).2.2
  refine ⟨trivial, fun x k => ?_, by decide⟩
  by_cases hx : x = 1 <;> by_cases hk : k = 1 <;> by_cases hk0 : k = 0 <;> simp [upd, State.init, hx, hk, hk0]

/-- C103 (refuted): a call of `Startup` that has read `insts` long ago shortens it while `Close` is running, which then
reads beyond its end and ends the process. -/
theorem C103_crash_refuted : ∃ as s, run State.step State.init as = some s ∧ s.dead = true ∧ .signal ∉ as :=
  ⟨[.load 3, .load 4, .write 4 2, .store 4, .load 5, .write 5 0, .store 5, .close, .write 3 1, .store 3, .round], _, rfl,
    rfl, by decide⟩

private theorem waits {i : Nat} {s0 : Runtime.State} (h0 : s0.phase i ≠ .returned ∧ s0.phase i ≠ .subscribed true)
    (as : List Runtime.Act) (s : Runtime.State) (h : run State.step s0 as = some s) (hn : .signal ∉ as) :
    s.phase i ≠ .returned ∧ s.phase i ≠ .subscribed true := by
  refine run_inv_on (I := fun s => s.phase i ≠ .returned ∧ s.phase i ≠ .subscribed true) (A := fun a => a ≠ .signal) ?_ as s0 s
    (fun a ha e => hn (e ▸ ha)) h0 h
  intro s a s' hA h hs
  have other : ∀ (k : Nat) (q : Phase), (k = i → q ≠ .returned ∧ q ≠ .subscribed true) →
      upd s.phase k q i ≠ .returned ∧ upd s.phase k q i ≠ .subscribed true := by
    intro k q hq
    by_cases e : i = k
    · subst e; rw [upd_same]; exact hq rfl
    · rw [upd_other _ _ e]; exact h
  unfold State.step at hs
  split at hs
  · cases hs
  cases a <;> simp only at hs
  case write k size =>
    split at hs
    · split at hs
      · cases hs; exact other _ _ fun _ => ⟨by simp, by simp⟩
      · split at hs <;> cases hs; exact other _ _ fun _ => ⟨by simp, by simp⟩
    · cases hs
  case signal => exact absurd rfl hA
  case ret k =>
    split at hs
    · rename_i hp
      cases hs; exact other _ _ fun e => by subst e; exact absurd hp h.2
    · cases hs
  case round =>
    split at hs
    · split at hs
      · split at hs <;> cases hs <;> exact h
      · cases hs; exact h
    · cases hs
  case close => split at hs <;> cases hs; exact h
  case reset => split at hs <;> cases hs; exact h
  all_goals (split at hs <;> cases hs; exact other _ _ fun _ => ⟨by simp, by simp⟩)

private theorem waits_ret {i : Nat} {s0 : Runtime.State} (h0 : s0.phase i ≠ .returned ∧ s0.phase i ≠ .subscribed true)
    (as : List Runtime.Act) (s : Runtime.State) (h : run State.step s0 as = some s) (hn : .signal ∉ as) : .ret i ∉ as := by
  intro hi
  obtain ⟨pre, post, rfl⟩ := List.append_of_mem hi
  rw [run_append] at h
  obtain ⟨t, h1, h2⟩ := Option.bind_eq_some_iff.mp h
  have := (waits h0 pre t h1 (fun e => hn (by simp [e]))).2
  simp only [run] at h2
  split at h2
  · cases h2
  · rename_i u hu
    unfold State.step at hu
    split at hu
    · cases hu
    · simp only at hu
      cases hu

/-- C104 (refuted): `Close` does not let `Startup` or `Serve` return.  Without a signal none of the calls ever returns,
whatever is closed. -/
theorem C104_stays_refuted (as : List Runtime.Act) (s : Runtime.State) (h : run State.step State.init as = some s)
    (hn : .signal ∉ as) (i : Nat) : s.phase i ≠ .returned ∧ .ret i ∉ as :=
  have h0 : State.init.phase i ≠ .returned ∧ State.init.phase i ≠ .subscribed true :=
    ⟨by simp [State.init], by simp [State.init]⟩
  ⟨(waits h0 as s h hn).1, waits_ret h0 as s h hn⟩

/-- C104 (refuted): the same for a call that gets to `signal.Notify` after the last signal: it waits for another one. -/
theorem C104_late_refuted (pre post : List Runtime.Act) (i : Nat) (s : Runtime.State)
    (h : run State.step State.init (pre ++ .notify i :: post) = some s) (hn : .signal ∉ post) :
    s.phase i ≠ .returned ∧ .ret i ∉ post := by
  rw [run_append] at h
  obtain ⟨t, h1, h2⟩ := Option.bind_eq_some_iff.mp h
  simp only [run] at h2
  split at h2
  · cases h2
  · rename_i u hu
    have h0 : u.phase i ≠ .returned ∧ u.phase i ≠ .subscribed true := by
      unfold State.step at hu
      split at hu
      · cases hu
      · simp only at hu
        split at hu
        · cases hu; simp
        · cases hu
    exact ⟨(waits h0 post s h2 hn).1, waits_ret h0 post s h2 hn⟩

/-- An instance is started and closed; the call that started it is still waiting. -/
example : ∃ s, run State.step State.init [.load 4, .write 4 1, .store 4, .notify 4, .close, .round, .reset] = some s ∧
    s.closed = [4] ∧ s.phase 4 = .subscribed false := ⟨_, rfl, rfl, rfl⟩

/-- C104 (refuted): after a signal `Startup` and `Serve` return, but nothing has closed their instances, which go on
running. -/
theorem C104_unclosed_refuted : ∃ as s, run State.step State.init as = some s ∧ s.phase 4 = .returned ∧ s.phase 5 = .returned ∧
    s.closed = [] ∧ s.dead = false :=
  ⟨[.load 4, .write 4 1, .store 4, .load 5, .write 5 2, .store 5, .notify 5, .notify 4, .signal, .ret 4, .ret 5], _, rfl,
    rfl, rfl, rfl, rfl⟩

/-- C104 (refuted): a signal before the first call has got to `signal.Notify` ends the process at once, with running
instances and none closed. -/
theorem C104_killed_refuted : ∃ as s, run State.step State.init as = some s ∧ entered (s.phase 4) ∧ s.closed = [] ∧
    s.dead = true :=
  ⟨[.load 4, .write 4 1, .store 4, .signal], _, rfl, trivial, rfl, rfl⟩

private theorem sub_step {i : Nat} : ∀ (s : Runtime.State) (a : Runtime.Act) (s' : Runtime.State),
    ((∃ b, s.phase i = .subscribed b) ∨ s.phase i = .returned) → s.step a = some s' →
    (∃ b, s'.phase i = .subscribed b) ∨ s'.phase i = .returned := by
  intro s a s' h hs
  have other : ∀ (k : Nat) (q : Phase), (k = i → (∃ b, q = .subscribed b) ∨ q = .returned) →
      (∃ b, upd s.phase k q i = .subscribed b) ∨ upd s.phase k q i = .returned := by
    intro k q hq
    by_cases e : i = k
    · subst e; rw [upd_same]; exact hq rfl
    · rw [upd_other _ _ e]; exact h
  have no : ∀ {k : Nat} {q : Phase}, s.phase k = q → (∀ b, q ≠ .subscribed b) → q ≠ .returned → k ≠ i := by
    rintro k q hq n1 n2 rfl
    rw [hq] at h
    rcases h with ⟨b, h⟩ | h
    · exact n1 b h
    · exact n2 h
  unfold State.step at hs
  split at hs
  · cases hs
  cases a <;> simp only at hs
  case write k size =>
    split at hs
    · rename_i hp
      split at hs
      · cases hs; exact other _ _ fun e => absurd e (no hp (by simp) (by simp))
      · split at hs <;> cases hs; exact other _ _ fun e => absurd e (no hp (by simp) (by simp))
    · cases hs
  case signal =>
    split at hs
    · cases hs
      simp only [deliver]
      rcases h with ⟨b, h⟩ | h
      · rw [h]; exact Or.inl ⟨_, rfl⟩
      · rw [h]; exact Or.inr rfl
    · cases hs; exact h
  case ret k =>
    split at hs
    · cases hs; exact other _ _ fun _ => Or.inr rfl
    · cases hs
  case round =>
    split at hs
    · split at hs
      · split at hs <;> cases hs <;> exact h
      · cases hs; exact h
    · cases hs
  case close => split at hs <;> cases hs; exact h
  case reset => split at hs <;> cases hs; exact h
  case load k =>
    split at hs
    · rename_i hp
      cases hs; exact other _ _ fun e => absurd e (no hp (by simp) (by simp))
    · cases hs
  case store k =>
    split at hs
    · rename_i hp
      cases hs; exact other _ _ fun e => absurd e (no hp (by simp) (by simp))
    · cases hs
  case notify k =>
    split at hs
    · rename_i hp
      cases hs; exact other _ _ fun e => absurd e (no hp (by simp) (by simp))
    · cases hs

private theorem pending_step {i : Nat} : ∀ (s : Runtime.State) (a : Runtime.Act) (s' : Runtime.State),
    (s.phase i = .subscribed true ∨ s.phase i = .returned) → s.step a = some s' →
    s'.phase i = .subscribed true ∨ s'.phase i = .returned := by
  intro s a s' h hs
  have other : ∀ (k : Nat) (q : Phase), (k = i → q = .subscribed true ∨ q = .returned) →
      upd s.phase k q i = .subscribed true ∨ upd s.phase k q i = .returned := by
    intro k q hq
    by_cases e : i = k
    · subst e; rw [upd_same]; exact hq rfl
    · rw [upd_other _ _ e]; exact h
  have no : ∀ {k : Nat} {q : Phase}, s.phase k = q → q ≠ .subscribed true → q ≠ .returned → k ≠ i := by
    rintro k q hq n1 n2 rfl
    rw [hq] at h
    rcases h with h | h
    · exact n1 h
    · exact n2 h
  unfold State.step at hs
  split at hs
  · cases hs
  cases a <;> simp only at hs
  case write k size =>
    split at hs
    · rename_i hp
      split at hs
      · cases hs; exact other _ _ fun e => absurd e (no hp (by simp) (by simp))
      · split at hs <;> cases hs; exact other _ _ fun e => absurd e (no hp (by simp) (by simp))
    · cases hs
  case signal =>
    split at hs
    · cases hs
      simp only [deliver]
      rcases h with h | h
      · rw [h]; exact Or.inl rfl
      · rw [h]; exact Or.inr rfl
    · cases hs; exact h
  case ret k =>
    split at hs
    · cases hs; exact other _ _ fun _ => Or.inr rfl
    · cases hs
  case round =>
    split at hs
    · split at hs
      · split at hs <;> cases hs <;> exact h
      · cases hs; exact h
    · cases hs
  case close => split at hs <;> cases hs; exact h
  case reset => split at hs <;> cases hs; exact h
  case load k =>
    split at hs
    · rename_i hp
      cases hs; exact other _ _ fun e => absurd e (no hp (by simp) (by simp))
    · cases hs
  case store k =>
    split at hs
    · rename_i hp
      cases hs; exact other _ _ fun e => absurd e (no hp (by simp) (by simp))
    · cases hs
  case notify k =>
    split at hs
    · rename_i hp
      cases hs; exact other _ _ fun e => absurd e (no hp (by simp) (by simp))
    · cases hs

/-- C104 (partial): a signal releases every call that waits.  Whatever happens after the signal, the call has returned or
can return in the next step, unless the process has ended.
Missing: that it returns when its instance is closed, see `C104_stays_refuted`. -/
theorem C104_released_partial (pre mid post : List Runtime.Act) (i : Nat) (s : Runtime.State)
    (h : run State.step State.init (pre ++ .notify i :: mid ++ .signal :: post) = some s) (hd : s.dead = false) :
    s.phase i = .returned ∨ ∃ s', s.step (.ret i) = some s' ∧ s'.phase i = .returned := by
  rw [run_append] at h
  obtain ⟨t, h1, h2⟩ := Option.bind_eq_some_iff.mp h
  have hn : t.notified = true := notified_of_notify (i := i) h1 (by simp)
  have hp : (∃ b, t.phase i = .subscribed b) ∨ t.phase i = .returned := by
    rw [run_append] at h1
    obtain ⟨u, g1, g2⟩ := Option.bind_eq_some_iff.mp h1
    simp only [run] at g2
    split at g2
    · cases g2
    · rename_i v hv
      refine run_inv (I := fun s => (∃ b, s.phase i = .subscribed b) ∨ s.phase i = .returned) sub_step mid v t ?_ g2
      unfold State.step at hv
      split at hv
      · cases hv
      · simp only at hv
        split at hv
        · cases hv; exact Or.inl ⟨false, by simp⟩
        · cases hv
  simp only [run] at h2
  split at h2
  · cases h2
  · rename_i v hv
    have h0 : v.phase i = .subscribed true ∨ v.phase i = .returned := by
      unfold State.step at hv
      split at hv
      · cases hv
      · simp only [hn, if_true, Option.some.injEq] at hv
        subst hv
        simp only [deliver]
        rcases hp with ⟨b, hp⟩ | hp
        · rw [hp]; exact Or.inl rfl
        · rw [hp]; exact Or.inr rfl
    rcases run_inv (I := fun s => s.phase i = .subscribed true ∨ s.phase i = .returned) pending_step post v s h0 h2 with g | g
    · refine Or.inr ⟨{ s with phase := upd s.phase i .returned }, ?_, by simp⟩
      unfold State.step
      simp [hd, g]
    · exact Or.inl g

example : ∃ s, run State.step State.init ([.load 4, .write 4 1, .store 4] ++ .notify 4 :: [.close] ++ .signal :: [.round]) =
    some s ∧ s.dead = false := ⟨_, rfl, rfl⟩

/-- C104 (partial): once a call has got to `signal.Notify`, no signal ends the process any more, even after all calls have
returned; `signal.Stop` is never called.  So the instances are not lost without `Close`, but the process cannot be
interrupted either. -/
theorem C104_survives_partial (as : List Runtime.Act) (s : Runtime.State) (h : run State.step State.init as = some s)
    (i : Nat) (hi : .notify i ∈ as) (hd : s.dead = false) : ∃ s', s.step .signal = some s' ∧ s'.dead = false ∧
      s'.closed = s.closed := by
  refine ⟨{ s with phase := deliver s.phase }, ?_, hd, rfl⟩
  unfold State.step
  simp [hd, notified_of_notify h hi]

/-- A call that has returned after a signal. -/
example : ∃ s, run State.step State.init ([.load 4, .write 4 1, .store 4, .notify 4, .signal, .ret 4]) = some s ∧
    s.dead = false ∧ s.phase 4 = .returned := ⟨_, rfl, rfl, rfl⟩

end Verif.Props
