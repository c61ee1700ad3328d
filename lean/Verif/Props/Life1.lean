import Verif.Dock.Life
import Verif.Dock.Facts

/-!
# C69: shutdown destroys everything once, in reverse order
-/

namespace Verif.Props

open Verif Verif.Life
open Verif.Dock (Carried keysOf slotsOf LastNamed slotsOf_some slotsOf_none nodup_eraseDups)

/-- The hubs and docks in the order in which they were started. -/
def startsOf (log : List LEv) : List Nat := log.filterMap fun | .start i => some i | _ => none

/-- The hubs and docks in the order in which they were closed. -/
def closesOf (log : List LEv) : List Nat := log.filterMap fun | .close i => some i | _ => none

/-- The features of dock `i` whose `OnDestroy` was called. -/
def destroysOf (i : Nat) (log : List LEv) : List Nat :=
  log.filterMap fun | .destroy j f => if j = i then some f else none | _ => none

/-- The sockets of instance `i` that were closed. -/
def closedSockets (i : Nat) (log : List LEv) : List Nat :=
  log.filterMap fun | .socket j k => if j = i then some k else none | _ => none

/-- Calls of `Startup`, `Serve` and `Close` do not overlap with a call of `Close`. -/
def sequential (s : Life.State) : Life.Act → Prop
  | .serve _ _ | .startup _ _ _ | .enter _ => ∀ t, s.thread t = none
  | _ => True

theorem starts_events (i : Nat) (order socks : List Nat) :
    startsOf (order.map (LEv.destroy i) ++ socks.map (LEv.socket i)) = [] := by
  simp [startsOf, List.filterMap_append, List.filterMap_map, Function.comp_def]

theorem closes_events (i : Nat) (order socks : List Nat) :
    closesOf (order.map (LEv.destroy i) ++ socks.map (LEv.socket i)) = [] := by
  simp [closesOf, List.filterMap_append, List.filterMap_map, Function.comp_def]

theorem destroys_events (i j : Nat) (order socks : List Nat) :
    destroysOf j (order.map (LEv.destroy i) ++ socks.map (LEv.socket i)) = if i = j then order else [] := by
  by_cases e : i = j <;> simp [destroysOf, List.filterMap_append, List.filterMap_map, Function.comp_def, e]

theorem sockets_events (i j : Nat) (order socks : List Nat) :
    closedSockets j (order.map (LEv.destroy i) ++ socks.map (LEv.socket i)) = if i = j then socks else [] := by
  by_cases e : i = j <;> simp [closedSockets, List.filterMap_append, List.filterMap_map, Function.comp_def, e]

theorem startsOf_append (a b : List LEv) : startsOf (a ++ b) = startsOf a ++ startsOf b := List.filterMap_append ..
theorem closesOf_append (a b : List LEv) : closesOf (a ++ b) = closesOf a ++ closesOf b := List.filterMap_append ..
theorem destroysOf_append (i : Nat) (a b : List LEv) : destroysOf i (a ++ b) = destroysOf i a ++ destroysOf i b :=
  List.filterMap_append ..
theorem closedSockets_append (i : Nat) (a b : List LEv) :
    closedSockets i (a ++ b) = closedSockets i a ++ closedSockets i b := List.filterMap_append ..
theorem closesOf_close (i : Nat) (b : List LEv) : closesOf (.close i :: b) = i :: closesOf b := by simp [closesOf]
theorem startsOf_close (i : Nat) (b : List LEv) : startsOf (.close i :: b) = startsOf b := by simp [startsOf]
theorem destroysOf_close (i j : Nat) (b : List LEv) : destroysOf j (.close i :: b) = destroysOf j b := by
  simp [destroysOf]
theorem closedSockets_close (i j : Nat) (b : List LEv) : closedSockets j (.close i :: b) = closedSockets j b := by
  simp [closedSockets]

theorem mem_startsOf (log : List LEv) (i : Nat) : i ∈ startsOf log ↔ LEv.start i ∈ log := by
  simp only [startsOf, List.mem_filterMap]
  constructor
  · rintro ⟨e, he, h⟩
    cases e <;> simp at h
    subst h; exact he
  · intro h; exact ⟨_, h, rfl⟩

theorem mem_closesOf (log : List LEv) (i : Nat) : i ∈ closesOf log ↔ LEv.close i ∈ log := by
  simp only [closesOf, List.mem_filterMap]
  constructor
  · rintro ⟨e, he, h⟩
    cases e <;> simp at h
    subst h; exact he
  · intro h; exact ⟨_, h, rfl⟩

/-- What `Close` of an instance does, in general. -/
theorem closeInst_ok {i : Nat} {order : List Nat} {x y : Inst} {evs : List LEv}
    (h : closeInst i order x = some (.ok (y, evs))) :
    startsOf evs = [] ∧ closesOf evs = [] := by
  unfold closeInst at h
  split at h
  · cases h
  · cases h; exact ⟨rfl, rfl⟩
  · split at h
    · cases h; exact ⟨starts_events _ _ _, closes_events _ _ _⟩
    · cases h

/-- An instance that can be closed: a dock, or a hub that has a socket. -/
def Inst.open : Inst → Bool
  | .hub none => false
  | _ => true

/-- Between calls of `Close`, and during one. -/
structure SeqInv (s : Life.State) : Prop where
  alive : s.dead = false
  nodup : (startsOf s.log).Nodup
  main : ∃ old, startsOf s.log = old ++ s.insts ∧
    (((∀ t, s.thread t = none) ∧ (closesOf s.log).Perm old ∧ ∀ i ∈ s.insts, Inst.open (s.inst i) = true) ∨
     ∃ t k before, (∀ u, u ≠ t → s.thread u = none) ∧ s.thread t = some k ∧ k ≤ s.insts.length ∧ before.Perm old ∧
       closesOf s.log = before ++ (s.insts.drop k).reverse ∧ ∀ i ∈ s.insts.take k, Inst.open (s.inst i) = true)

theorem reverse_drop (l : List Nat) (k : Nat) (i : Nat) (h : l[k]? = some i) :
    (l.drop k).reverse = (l.drop (k + 1)).reverse ++ [i] := by
  obtain ⟨hk, rfl⟩ := List.getElem?_eq_some_iff.mp h
  rw [List.drop_eq_getElem_cons hk, List.reverse_cons]

theorem seqInv_step (s : Life.State) (a : Life.Act) (t : Life.State) (ha : sequential s a) (hI : SeqInv s)
    (h : s.step a = some t) : SeqInv t := by
  obtain ⟨hal, hnd, old, hold, hm⟩ := hI
  unfold State.step at h
  split at h
  · cases h
  have start : ∀ i x, LEv.start i ∉ s.log → Inst.open x = true → (∀ t, s.thread t = none) →
      SeqInv { s with insts := s.insts ++ [i], inst := upd s.inst i x, log := s.log ++ [.start i] } := by
    intro i x hni hx hth
    have hst : startsOf (s.log ++ [.start i]) = startsOf s.log ++ [i] := by rw [startsOf_append]; rfl
    have hcl : closesOf (s.log ++ [.start i]) = closesOf s.log := by rw [closesOf_append]; simp [closesOf]
    have hni' : i ∉ startsOf s.log := fun h => hni ((mem_startsOf _ _).mp h)
    refine ⟨hal, ?_, old, ?_, Or.inl ⟨hth, ?_, ?_⟩⟩
    · simp only [hst]
      rw [List.nodup_append]
      exact ⟨hnd, by simp, by intro a ha b hb; simp at hb; subst hb; exact fun e => hni' (e ▸ ha)⟩
    · simp only [hst, hold, List.append_assoc]
    · simp only [hcl]
      rcases hm with ⟨_, hp, _⟩ | ⟨t, k, _, _, htk, _⟩
      · exact hp
      · rw [hth t] at htk; cases htk
    · intro j hj
      simp only [List.mem_append, List.mem_singleton] at hj ⊢
      by_cases e : j = i
      · subst e; rw [upd_same]; exact hx
      · rw [upd_other _ _ e]
        rcases hm with ⟨_, _, ho⟩ | ⟨t, k, _, _, htk, _⟩
        · exact ho j (hj.resolve_right e)
        · rw [hth t] at htk; cases htk
  cases a with
  | serve i sock =>
    simp only at h
    split at h
    · cases h
    · rename_i hni; cases h; exact start i _ hni rfl ha
  | startup i cs sock =>
    simp only at h
    split at h
    · cases h
    · rename_i hni; cases h; exact start i _ hni rfl ha
  | openSocket i sock =>
    simp only at h
    split at h
    · rename_i fs socks hi
      cases h
      have ho : ∀ j, Inst.open (s.inst j) = true → Inst.open (upd s.inst i (.dock fs (socks ++ [sock])) j) = true := by
        intro j hj
        by_cases e : j = i
        · subst e; rw [upd_same]; rfl
        · rw [upd_other _ _ e]; exact hj
      refine ⟨hal, hnd, old, hold, ?_⟩
      rcases hm with ⟨h1, h2, h3⟩ | ⟨t, k, b, h1, h2, h3, h4, h5, h6⟩
      · exact Or.inl ⟨h1, h2, fun j hj => ho j (h3 j hj)⟩
      · exact Or.inr ⟨t, k, b, h1, h2, h3, h4, h5, fun j hj => ho j (h6 j hj)⟩
    · cases h
  | enter t =>
    simp only at h
    split at h
    · cases h
      refine ⟨hal, hnd, old, hold, Or.inr ?_⟩
      rcases hm with ⟨h1, h2, h3⟩ | ⟨t', k, _, _, htk, _⟩
      · refine ⟨t, s.insts.length, closesOf s.log, ?_, by simp, Nat.le_refl _, h2, by simp, ?_⟩
        · intro u hu; simp only; rw [upd_other _ _ hu]; exact h1 u
        · intro i hi; exact h3 i (List.mem_of_mem_take hi)
      · rw [ha t'] at htk; cases htk
    · cases h
  | next t order =>
    simp only at h
    split at h
    · rename_i k htk
      rcases hm with ⟨h1, _, _⟩ | ⟨t', k', b, h1, h2, h3, h4, h5, h6⟩
      · rw [h1 t] at htk; cases htk
      · have e : t = t' := by
          rcases Decidable.em (t = t') with e | e
          · exact e
          · rw [h1 t e] at htk; cases htk
        subst e
        rw [htk] at h2; cases h2
        split at h
        · rename_i hnone
          rw [List.getElem?_eq_none_iff] at hnone
          omega
        · rename_i i hi
          have hmem : i ∈ s.insts.take (k + 1) := by
            obtain ⟨hk, rfl⟩ := List.getElem?_eq_some_iff.mp hi
            exact List.mem_take_iff_getElem.mpr ⟨k, by omega, rfl⟩
          have hio := h6 i hmem
          have hnd2 : s.insts.Nodup := by
            rw [hold, List.nodup_append] at hnd; exact hnd.2.1
          split at h
          · rename_i x evs hcl
            cases h
            obtain ⟨e1, e2⟩ := closeInst_ok hcl
            refine ⟨hal, ?_, old, ?_, Or.inr ⟨t, k, b, ?_, by simp, by simp only; omega, h4, ?_, ?_⟩⟩
            · simp only [startsOf_append, startsOf_close, e1, List.append_nil]; exact hnd
            · simp only [startsOf_append, startsOf_close, e1, List.append_nil]; exact hold
            · intro u hu; simp only; rw [upd_other _ _ hu]; exact h1 u hu
            · simp only [closesOf_append, closesOf_close, e2, h5]
              rw [reverse_drop _ _ _ hi, List.append_assoc]
            · intro j hj
              have hji : j ≠ i := by
                rintro rfl
                obtain ⟨m, hm, e⟩ := List.mem_take_iff_getElem.mp hj
                obtain ⟨hk, e'⟩ := List.getElem?_eq_some_iff.mp hi
                have := (List.getElem_inj hnd2).mp (e.trans e'.symm)
                omega
              simp only
              rw [upd_other _ _ hji]
              exact h6 j (by
                obtain ⟨m, hm, e⟩ := List.mem_take_iff_getElem.mp hj
                exact List.mem_take_iff_getElem.mpr ⟨m, by omega, e⟩)
          · rename_i hno hcl
            exfalso
            cases hx : s.inst i with
            | hub o =>
              cases o with
              | none => rw [hx] at hio; cases hio
              | some sk => rw [hx] at hcl; simp only [closeInst] at hcl; cases hcl; exact hno _ _ rfl
            | dock fs socks =>
              rw [hx] at hcl
              simp only [closeInst] at hcl
              split at hcl
              · cases hcl; exact hno _ _ rfl
              · cases hcl
          · cases h
    · cases h
  | finish t =>
    simp only at h
    split at h
    · rename_i htk
      cases h
      rcases hm with ⟨h1, _, _⟩ | ⟨t', k', b, h1, h2, h3, h4, h5, h6⟩
      · rw [h1 t] at htk; cases htk
      · have e : t = t' := by
          rcases Decidable.em (t = t') with e | e
          · exact e
          · rw [h1 t e] at htk; cases htk
        subst e
        rw [htk] at h2; cases h2
        refine ⟨hal, hnd, startsOf s.log, by simp, Or.inl ⟨?_, ?_, by simp⟩⟩
        · intro u
          simp only
          by_cases e : u = t
          · subst e; rw [upd_same]
          · rw [upd_other _ _ e]; exact h1 u e
        · simp only [h5, List.drop_zero, hold]
          exact h4.append (List.reverse_perm _)
    · cases h

theorem seqInv_run {as : List Life.Act} {s : Life.State} (h : run State.step State.init as = some s)
    (ha : AllSteps State.step State.init as sequential) : SeqInv s :=
  run_inv_steps seqInv_step as State.init s ha
    ⟨rfl, List.nodup_nil, [], rfl, Or.inl ⟨fun _ => rfl, List.Perm.refl _, by simp [State.init]⟩⟩ h

/-- C69 (partial): if `Startup`, `Serve` and `Close` are not called while a `Close` is in progress, then no hub or dock
is closed twice, `Close` never panics, and whenever no `Close` is in progress every hub or dock started so far is
either still running or has been closed exactly once.
Missing: overlapping calls, see `C69_lost_refuted` and `C69_double_refuted`. -/
theorem C69_once_partial (as : List Life.Act) (s : Life.State) (h : run State.step State.init as = some s)
    (ha : AllSteps State.step State.init as sequential) :
    s.dead = false ∧ (closesOf s.log).Nodup ∧
    ((∀ t, s.thread t = none) → ∀ i, i ∈ startsOf s.log →
      (i ∈ s.insts ∧ i ∉ closesOf s.log) ∨ (i ∉ s.insts ∧ (closesOf s.log).count i = 1)) := by
  obtain ⟨hal, hnd, old, hold, hm⟩ := seqInv_run h ha
  have hdis := hnd
  rw [hold, List.nodup_append] at hdis
  refine ⟨hal, ?_, ?_⟩
  · rcases hm with ⟨_, hp, _⟩ | ⟨t, k, b, _, _, _, hb, hc, _⟩
    · exact hp.nodup_iff.mpr hdis.1
    · rw [hc, List.nodup_append]
      refine ⟨hb.nodup_iff.mpr hdis.1, ?_, ?_⟩
      · exact (List.reverse_perm _).nodup_iff.mpr (hdis.2.1.sublist (List.drop_sublist _ _))
      · intro x hx y hy
        exact hdis.2.2 x (hb.mem_iff.mp hx) y (List.mem_of_mem_drop (List.mem_reverse.mp hy))
  · intro hth i hi
    rcases hm with ⟨_, hp, _⟩ | ⟨t, k, b, _, ht, _⟩
    · rw [hold, List.mem_append] at hi
      rcases hi with hi | hi
      · refine Or.inr ⟨fun h => hdis.2.2 i hi i h rfl, ?_⟩
        rw [hp.count_eq]
        rw [List.Nodup.count hdis.1, if_pos hi]
      · exact Or.inl ⟨hi, fun h => hdis.2.2 i (hp.mem_iff.mp h) i hi rfl⟩
    · rw [hth t] at ht; cases ht

/-- C69 (partial): a call of `Close` that does not overlap with other calls closes exactly what runs, in the reverse
of the order in which it was started, and leaves nothing running.  (The calls of `openSocket` in between are those of
the running docks.)  Missing: as in `C69_once_partial`. -/
theorem C69_reverse_partial (as mid : List Life.Act) (s s' : Life.State) (t : Nat)
    (h : run State.step State.init as = some s) (ha : AllSteps State.step State.init as sequential)
    (hi : ∀ u, s.thread u = none) (hr : run State.step s (.enter t :: mid ++ [.finish t]) = some s')
    (hm : ∀ a ∈ mid, match a with
      | .next u _ => u = t
      | .openSocket _ _ => True
      | _ => False) :
    closesOf s'.log = closesOf s.log ++ s.insts.reverse ∧ s'.insts = [] ∧ startsOf s'.log = startsOf s.log ∧
    ∃ old, startsOf s.log = old ++ s.insts ∧ (closesOf s.log).Perm old := by
  obtain ⟨hal, hnd, old, hold, hmain⟩ := seqInv_run h ha
  have hperm : (closesOf s.log).Perm old := by
    rcases hmain with ⟨_, hp, _⟩ | ⟨t, k, b, _, ht, _⟩
    · exact hp
    · rw [hi t] at ht; cases ht
  have key : ∀ (mid : List Life.Act) (u : Life.State), (∀ a ∈ mid, match a with
      | .next u _ => u = t
      | .openSocket _ _ => True
      | _ => False) →
      (∃ k, u.thread t = some k ∧ k ≤ s.insts.length ∧ u.insts = s.insts ∧
        closesOf u.log = closesOf s.log ++ (s.insts.drop k).reverse ∧ startsOf u.log = startsOf s.log) →
      run State.step u (mid ++ [.finish t]) = some s' →
      closesOf s'.log = closesOf s.log ++ s.insts.reverse ∧ s'.insts = [] ∧ startsOf s'.log = startsOf s.log := by
    intro mid
    induction mid with
    | nil =>
      rintro u _ ⟨k, h1, h2, h3, h4, h5⟩ hr
      simp only [List.nil_append, run] at hr
      split at hr
      · cases hr
      · rename_i v hv
        cases hr
        unfold State.step at hv
        split at hv
        · cases hv
        simp only at hv
        split at hv
        · rename_i hk
          rw [h1] at hk; cases hk
          cases hv
          exact ⟨by simpa using h4, rfl, h5⟩
        · cases hv
    | cons a mid ih =>
      rintro u hA ⟨k, h1, h2, h3, h4, h5⟩ hr
      have ha := hA a (List.mem_cons_self ..)
      simp only [List.cons_append, run] at hr
      split at hr
      · cases hr
      · rename_i v hv
        refine ih v (fun b hb => hA b (List.mem_cons_of_mem _ hb)) ?_ hr
        have hvd : v.dead = false := by
          cases mid with
          | nil =>
            simp only [List.nil_append, run] at hr
            split at hr
            · cases hr
            · rename_i w hw
              unfold State.step at hw
              split at hw
              · cases hw
              · rename_i hd; simpa using hd
          | cons b mid =>
            simp only [List.cons_append, run] at hr
            split at hr
            · cases hr
            · rename_i w hw
              unfold State.step at hw
              split at hw
              · cases hw
              · rename_i hd; simpa using hd
        unfold State.step at hv
        split at hv
        · cases hv
        cases a with
        | openSocket i sock =>
          simp only at hv
          split at hv
          · cases hv; exact ⟨k, h1, h2, h3, h4, h5⟩
          · cases hv
        | next u' order =>
          simp only at ha
          subst ha
          simp only at hv
          split at hv
          · rename_i k' hk
            rw [h1] at hk; cases hk
            split at hv
            · cases hv; cases hvd
            · rename_i i hgi
              split at hv
              · rename_i x evs hcl
                cases hv
                obtain ⟨e1, e2⟩ := closeInst_ok hcl
                rw [h3] at hgi
                refine ⟨k', by simp, by omega, h3, ?_, ?_⟩
                · simp only [closesOf_append, closesOf_close, e2, h4]
                  rw [reverse_drop _ _ _ hgi, List.append_assoc]
                · simp only [startsOf_append, startsOf_close, e1, List.append_nil, h5]
              · cases hv; cases hvd
              · cases hv
          · cases hv
        | serve _ _ => exact ha.elim
        | startup _ _ _ => exact ha.elim
        | enter _ => exact ha.elim
        | finish _ => exact ha.elim
  have := key mid { s with thread := upd s.thread t (some s.insts.length) } hm
    ⟨s.insts.length, by simp, Nat.le_refl _, rfl, by simp, rfl⟩ (by
      have e : s.step (.enter t) = some { s with thread := upd s.thread t (some s.insts.length) } := by
        simp [State.step, hal, hi t]
      simp only [List.cons_append, run, e] at hr
      exact hr)
  exact ⟨this.1, this.2.1, this.2.2, old, hold, hperm⟩

/-- C69: `Close` when nothing runs does nothing: in particular a second `Close`. -/
theorem C69_second (s s' : Life.State) (t : Nat) (mid : List Life.Act) (hi : s.insts = [])
    (hr : run State.step s (.enter t :: mid ++ [.finish t]) = some s')
    (hm : ∀ a ∈ mid, ∃ order, a = .next t order) : s'.log = s.log ∧ s'.insts = [] ∧ mid = [] := by
  cases mid with
  | nil =>
    simp only [List.cons_append, List.nil_append, run] at hr
    split at hr
    · cases hr
    · rename_i u hu
      unfold State.step at hu
      split at hu
      · cases hu
      rename_i hd
      simp only at hu
      split at hu
      · cases hu
        simp only [State.step, hd, if_false, Bool.false_eq_true] at hr
        simp only [upd_same, hi, List.length_nil] at hr
        cases hr
        exact ⟨rfl, rfl, rfl⟩
      · cases hu
  | cons a mid =>
    exfalso
    obtain ⟨order, rfl⟩ := hm a (List.mem_cons_self ..)
    simp only [List.cons_append, run] at hr
    split at hr
    · cases hr
    · rename_i u hu
      unfold State.step at hu
      split at hu
      · cases hu
      rename_i hd
      simp only at hu
      split at hu
      · cases hu
        simp only [State.step, hd, if_false, Bool.false_eq_true] at hr
        simp only [upd_same, hi, List.length_nil] at hr
        cases hr
      · cases hu

/-- Induction over executions, with the actions so far. -/
theorem run_hist {σ α : Type} {step : σ → α → Option σ} {P : List α → σ → Prop}
    (hstep : ∀ hist s a t, P hist s → step s a = some t → P (hist ++ [a]) t) :
    ∀ (as hist : List α) (s s' : σ), P hist s → run step s as = some s' → P (hist ++ as) s' := by
  intro as
  induction as with
  | nil => intro hist s s' h e; cases e; simpa using h
  | cons a as ih =>
    intro hist s s' h e
    simp only [run] at e
    split at e
    · cases e
    · rename_i t ht
      have := ih (hist ++ [a]) t s' (hstep hist s a t h ht) e
      simpa using this

/-- The sockets that dock `i` opened, in order. -/
def openedSockets (i : Nat) (as : List Life.Act) : List Nat :=
  as.filterMap fun
    | .startup j _ sock => if j = i then some sock else none
    | .openSocket j sock => if j = i then some sock else none
    | _ => none

theorem openedSockets_append (i : Nat) (a b : List Life.Act) :
    openedSockets i (a ++ b) = openedSockets i a ++ openedSockets i b := List.filterMap_append ..

/-- Before instance `i` is started. -/
def Unborn (i : Nat) (hist : List Life.Act) (s : Life.State) : Prop :=
  LEv.start i ∉ s.log ∧ i ∉ s.insts ∧ s.inst i = .hub none ∧ destroysOf i s.log = [] ∧ closedSockets i s.log = [] ∧
  i ∉ closesOf s.log ∧ (∀ cs sock, Act.startup i cs sock ∉ hist) ∧ openedSockets i hist = []

/-- After dock `i` was started. -/
def Born (i : Nat) (hist : List Life.Act) (s : Life.State) (cs : List Carried) : Prop :=
  LEv.start i ∈ s.log ∧ (∀ cs' sock, Act.startup i cs' sock ∈ hist → cs' = cs) ∧ ∃ fs socks, s.inst i = .dock fs socks ∧
    ((i ∉ closesOf s.log ∧ fs = featuresOf cs ∧ destroysOf i s.log = [] ∧ closedSockets i s.log = [] ∧
        socks = openedSockets i hist) ∨
      (i ∈ closesOf s.log ∧ fs = [] ∧ (destroysOf i s.log).Perm (featuresOf cs)))

/-- A dock has not been created yet, or exists without ever having been started up, or was started up once. -/
def DockInv (i : Nat) (hist : List Life.Act) (s : Life.State) : Prop :=
  Unborn i hist s ∨ (LEv.start i ∈ s.log ∧ ∀ cs sock, Act.startup i cs sock ∉ hist) ∨ ∃ cs, Born i hist s cs

theorem closeInst_other {i j : Nat} (hij : i ≠ j) {order : List Nat} {x y : Inst} {evs : List LEv}
    (h : closeInst i order x = some (.ok (y, evs))) :
    destroysOf j evs = [] ∧ closedSockets j evs = [] := by
  unfold closeInst at h
  split at h
  · cases h
  · cases h; exact ⟨rfl, by simp [closedSockets, hij]⟩
  · split at h
    · cases h
      exact ⟨by rw [destroys_events, if_neg hij], by rw [sockets_events, if_neg hij]⟩
    · cases h

theorem dockInv_step (i : Nat) (hist : List Life.Act) (s : Life.State) (a : Life.Act) (t : Life.State)
    (hI : DockInv i hist s) (h : s.step a = some t) : DockInv i (hist ++ [a]) t := by
  have nostart : ∀ {a : Life.Act}, (∀ cs sock, a ≠ .startup i cs sock) → ∀ {cs sock},
      Act.startup i cs sock ∈ hist ++ [a] → Act.startup i cs sock ∈ hist := by
    intro a ha cs sock h
    rw [List.mem_append, List.mem_singleton] at h
    exact h.resolve_right (fun e => ha cs sock e.symm)
  unfold State.step at h
  split at h
  · cases h
  have start : ∀ j x sockets, LEv.start j ∉ s.log → j ≠ i → (∀ cs sock, a ≠ .startup i cs sock) →
      openedSockets i [a] = [] →
      DockInv i (hist ++ [a]) { s with insts := sockets, inst := upd s.inst j x, log := s.log ++ [.start j] } ∨
      i ∈ sockets ∧ i ∉ s.insts := by
    intro j x sockets hj hji hne hop
    by_cases hin : i ∈ sockets ∧ i ∉ s.insts
    · exact Or.inr hin
    left
    have hd : destroysOf i (s.log ++ [.start j]) = destroysOf i s.log := by
      rw [destroysOf_append]; exact List.append_nil _
    have hc : closesOf (s.log ++ [.start j]) = closesOf s.log := by
      rw [closesOf_append]; exact List.append_nil _
    have hs : closedSockets i (s.log ++ [.start j]) = closedSockets i s.log := by
      rw [closedSockets_append]; exact List.append_nil _
    have hst : LEv.start i ∈ s.log ++ [.start j] ↔ LEv.start i ∈ s.log := by
      simp [Ne.symm hji]
    have hupd : upd s.inst j x i = s.inst i := upd_other _ _ (Ne.symm hji)
    have hop' : openedSockets i (hist ++ [a]) = openedSockets i hist := by
      rw [openedSockets_append, hop, List.append_nil]
    rcases hI with ⟨h1, h2, h3, h4, h5, h6, h7, h8⟩ | ⟨h1, h2⟩ | ⟨cs, h1, h2, fs, socks, h3, h4⟩
    · refine Or.inl ⟨fun h => h1 (hst.mp h), ?_, hupd.trans h3, hd.trans h4, hs.trans h5, ?_, ?_, hop'.trans h8⟩
      · intro h; exact hin ⟨h, h2⟩
      · simp only [hc]; exact h6
      · intro cs sock h; exact h7 cs sock (nostart hne h)
    · exact Or.inr (Or.inl ⟨hst.mpr h1, fun cs sock h => h2 cs sock (nostart hne h)⟩)
    · refine Or.inr (Or.inr ⟨cs, hst.mpr h1, fun cs' sock h => h2 cs' sock (nostart hne h), fs, socks,
        hupd.trans h3, ?_⟩)
      simp only [hc, hd, hs, hop']
      exact h4
  cases a with
  | serve j sock =>
    simp only at h
    split at h
    · cases h
    · rename_i hj
      cases h
      by_cases e : j = i
      · subst e
        rcases hI with ⟨h1, h2, h3, h4, h5, h6, h7, h8⟩ | ⟨h1, h2⟩ | ⟨cs, h1, _⟩
        · exact Or.inr (Or.inl ⟨by simp, fun cs sk h => h7 cs sk (nostart (by simp) h)⟩)
        · exact absurd h1 hj
        · exact absurd h1 hj
      · refine (start j _ _ hj e (by simp) (by simp [openedSockets])).resolve_right ?_
        rintro ⟨h1, h2⟩
        simp [Ne.symm e, h2] at h1
  | startup j cs sock =>
    simp only at h
    split at h
    · cases h
    · rename_i hj
      cases h
      by_cases e : j = i
      · subst e
        rcases hI with ⟨h1, h2, h3, h4, h5, h6, h7, h8⟩ | ⟨h1, h2⟩ | ⟨cs, h1, _⟩
        · refine Or.inr (Or.inr ⟨cs, by simp, ?_, featuresOf cs, [sock], by simp, Or.inl ⟨?_, rfl, ?_, ?_, ?_⟩⟩)
          · intro cs' sock' h
            rw [List.mem_append, List.mem_singleton] at h
            rcases h with h | h
            · exact absurd h (h7 _ _)
            · cases h; rfl
          · simp only [closesOf_append]
            simpa [closesOf] using h6
          · simp only [destroysOf_append, h4]; rfl
          · simp only [closedSockets_append, h5]; rfl
          · rw [openedSockets_append, h8]; simp [openedSockets]
        · exact absurd h1 hj
        · exact absurd h1 hj
      · refine (start j _ _ hj e (by simp [e]) (by simp [openedSockets, e])).resolve_right ?_
        rintro ⟨h1, h2⟩
        simp [Ne.symm e, h2] at h1
  | openSocket j sock =>
    simp only at h
    split at h
    · rename_i fs socks hi
      cases h
      have hne : ∀ cs sk, Act.openSocket j sock ≠ .startup i cs sk := by simp
      by_cases e : j = i
      · subst e
        rcases hI with ⟨h1, h2, h3, h4, h5, h6, h7, h8⟩ | ⟨h1, h2⟩ | ⟨cs, h1, h2, fs', socks', h3, h4⟩
        · rw [h3] at hi; cases hi
        · exact Or.inr (Or.inl ⟨h1, fun cs sk h => h2 cs sk (nostart hne h)⟩)
        · rw [hi] at h3; cases h3
          refine Or.inr (Or.inr ⟨cs, h1, fun cs' sk h => h2 cs' sk (nostart hne h), fs, socks ++ [sock], by simp, ?_⟩)
          rcases h4 with ⟨g1, g2, g3, g4, g5⟩ | g
          · refine Or.inl ⟨g1, g2, g3, g4, ?_⟩
            rw [openedSockets_append, g5]; simp [openedSockets]
          · exact Or.inr g
      · have hupd : upd s.inst j (Inst.dock fs (socks ++ [sock])) i = s.inst i := upd_other _ _ (Ne.symm e)
        have hop : openedSockets i (hist ++ [.openSocket j sock]) = openedSockets i hist := by
          rw [openedSockets_append]; simp [openedSockets, e]
        rcases hI with ⟨h1, h2, h3, h4, h5, h6, h7, h8⟩ | ⟨h1, h2⟩ | ⟨cs, h1, h2, fs', socks', h3, h4⟩
        · exact Or.inl ⟨h1, h2, hupd.trans h3, h4, h5, h6, fun cs sk h => h7 cs sk (nostart hne h), hop.trans h8⟩
        · exact Or.inr (Or.inl ⟨h1, fun cs sk h => h2 cs sk (nostart hne h)⟩)
        · refine Or.inr (Or.inr ⟨cs, h1, fun cs' sk h => h2 cs' sk (nostart hne h), fs', socks', hupd.trans h3, ?_⟩)
          rw [hop]; exact h4
    · cases h
  | enter k =>
    have hne : ∀ cs sk, Act.enter k ≠ .startup i cs sk := by simp
    have hop : openedSockets i (hist ++ [.enter k]) = openedSockets i hist := by
      rw [openedSockets_append]; simp [openedSockets]
    simp only at h
    split at h
    · cases h
      rcases hI with ⟨h1, h2, h3, h4, h5, h6, h7, h8⟩ | ⟨h1, h2⟩ | ⟨cs, h1, h2, fs', socks', h3, h4⟩
      · exact Or.inl ⟨h1, h2, h3, h4, h5, h6, fun cs sk h => h7 cs sk (nostart hne h), hop.trans h8⟩
      · exact Or.inr (Or.inl ⟨h1, fun cs sk h => h2 cs sk (nostart hne h)⟩)
      · refine Or.inr (Or.inr ⟨cs, h1, fun cs' sk h => h2 cs' sk (nostart hne h), fs', socks', h3, ?_⟩)
        rw [hop]; exact h4
    · cases h
  | finish k =>
    have hne : ∀ cs sk, Act.finish k ≠ .startup i cs sk := by simp
    have hop : openedSockets i (hist ++ [.finish k]) = openedSockets i hist := by
      rw [openedSockets_append]; simp [openedSockets]
    simp only at h
    split at h
    · cases h
      rcases hI with ⟨h1, h2, h3, h4, h5, h6, h7, h8⟩ | ⟨h1, h2⟩ | ⟨cs, h1, h2, fs', socks', h3, h4⟩
      · exact Or.inl ⟨h1, by simp, h3, h4, h5, h6, fun cs sk h => h7 cs sk (nostart hne h), hop.trans h8⟩
      · exact Or.inr (Or.inl ⟨h1, fun cs sk h => h2 cs sk (nostart hne h)⟩)
      · refine Or.inr (Or.inr ⟨cs, h1, fun cs' sk h => h2 cs' sk (nostart hne h), fs', socks', h3, ?_⟩)
        rw [hop]; exact h4
    · cases h
  | next k order =>
    have hne : ∀ cs sk, Act.next k order ≠ .startup i cs sk := by simp
    have hop : openedSockets i (hist ++ [.next k order]) = openedSockets i hist := by
      rw [openedSockets_append]; simp [openedSockets]
    simp only at h
    split at h
    · split at h
      · cases h
        rcases hI with ⟨h1, h2, h3, h4, h5, h6, h7, h8⟩ | ⟨h1, h2⟩ | ⟨cs, h1, h2, fs', socks', h3, h4⟩
        · exact Or.inl ⟨h1, h2, h3, h4, h5, h6, fun cs sk h => h7 cs sk (nostart hne h), hop.trans h8⟩
        · exact Or.inr (Or.inl ⟨h1, fun cs sk h => h2 cs sk (nostart hne h)⟩)
        · refine Or.inr (Or.inr ⟨cs, h1, fun cs' sk h => h2 cs' sk (nostart hne h), fs', socks', h3, ?_⟩)
          rw [hop]; exact h4
      · rename_i j hj
        have hjm : j ∈ s.insts := List.mem_of_getElem? hj
        -- the log grows by `close j` and events
        have other : ∀ (evs : List LEv), j ≠ i → startsOf evs = [] → closesOf evs = [] → destroysOf i evs = [] →
            closedSockets i evs = [] → ∀ (s' : Life.State), s'.log = s.log ++ .close j :: evs → s'.insts = s.insts →
            s'.inst i = s.inst i → DockInv i (hist ++ [.next k order]) s' := by
          intro evs hji e1 e2 e3 e4 s' hlog hins hinst
          have l1 : LEv.start i ∈ s'.log ↔ LEv.start i ∈ s.log := by
            rw [hlog, ← mem_startsOf, ← mem_startsOf, startsOf_append, startsOf_close, e1, List.append_nil]
          have l2 : destroysOf i s'.log = destroysOf i s.log := by
            rw [hlog, destroysOf_append, destroysOf_close, e3, List.append_nil]
          have l3 : closedSockets i s'.log = closedSockets i s.log := by
            rw [hlog, closedSockets_append, closedSockets_close, e4, List.append_nil]
          have l4 : i ∈ closesOf s'.log ↔ i ∈ closesOf s.log := by
            rw [hlog, closesOf_append, closesOf_close, e2]
            simp [Ne.symm hji]
          rcases hI with ⟨h1, h2, h3, h4, h5, h6, h7, h8⟩ | ⟨h1, h2⟩ | ⟨cs, h1, h2, fs', socks', h3, h4⟩
          · exact Or.inl ⟨fun h => h1 (l1.mp h), by rw [hins]; exact h2, hinst.trans h3, l2.trans h4, l3.trans h5,
              fun h => h6 (l4.mp h), fun cs sk h => h7 cs sk (nostart hne h), hop.trans h8⟩
          · exact Or.inr (Or.inl ⟨l1.mpr h1, fun cs sk h => h2 cs sk (nostart hne h)⟩)
          · refine Or.inr (Or.inr ⟨cs, l1.mpr h1, fun cs' sk h => h2 cs' sk (nostart hne h), fs', socks',
              hinst.trans h3, ?_⟩)
            rw [hop, l2, l3]
            rcases h4 with ⟨g1, g⟩ | ⟨g1, g⟩
            · exact Or.inl ⟨fun h => g1 (l4.mp h), g⟩
            · exact Or.inr ⟨l4.mpr g1, g⟩
        split at h
        · rename_i x evs hcl
          cases h
          obtain ⟨e1, e2⟩ := closeInst_ok hcl
          by_cases e : j = i
          · subst e
            rcases hI with ⟨h1, h2, _⟩ | ⟨h1, h2⟩ | ⟨cs, h1, h2, fs', socks', h3, h4⟩
            · exact absurd hjm h2
            · refine Or.inr (Or.inl ⟨?_, fun cs sk h => h2 cs sk (nostart hne h)⟩)
              simp only [List.mem_append]; exact Or.inl h1
            · rw [h3] at hcl
              simp only [closeInst] at hcl
              split at hcl
              · rename_i hp
                cases hcl
                refine Or.inr (Or.inr ⟨cs, ?_, fun cs' sk h => h2 cs' sk (nostart hne h), [], [], by simp, Or.inr
                  ⟨?_, rfl, ?_⟩⟩)
                · simp only [List.mem_append]; exact Or.inl h1
                · simp only [closesOf_append, closesOf_close]; simp
                · simp only [destroysOf_append, destroysOf_close]
                  rw [← destroysOf_append, destroys_events, if_pos rfl]
                  have hp' := List.isPerm_iff.mp hp
                  rcases h4 with ⟨_, g2, g3, _⟩ | ⟨_, g2, g3⟩
                  · rw [g3, List.nil_append, ← g2]; exact hp'
                  · rw [g2] at hp'
                    rw [List.perm_nil.mp hp', List.append_nil]; exact g3
              · cases hcl
          · obtain ⟨e3, e4⟩ := closeInst_other e hcl
            exact other evs e e1 e2 e3 e4 _ rfl rfl (upd_other _ _ (Ne.symm e))
        · rename_i hno hcl
          cases h
          by_cases e : j = i
          · subst e
            rcases hI with ⟨h1, h2, _⟩ | ⟨h1, h2⟩ | ⟨cs, h1, h2, fs', socks', h3, h4⟩
            · exact absurd hjm h2
            · refine Or.inr (Or.inl ⟨?_, fun cs sk h => h2 cs sk (nostart hne h)⟩)
              simp only [List.mem_append]; exact Or.inl h1
            · rw [h3] at hcl
              simp only [closeInst] at hcl
              split at hcl
              · cases hcl; exact absurd rfl (hno _ _)
              · cases hcl
          · exact other [] e rfl rfl rfl rfl _ rfl rfl rfl
        · cases h
    · cases h

theorem dockInv_run {as : List Life.Act} {s : Life.State} (h : run State.step State.init as = some s) (i : Nat) :
    DockInv i as s := by
  have := run_hist (P := DockInv i) (dockInv_step i) as [] State.init s
    (Or.inl ⟨by simp [State.init], by simp [State.init], rfl, rfl, rfl, by simp [State.init, closesOf], by simp, rfl⟩) h
  simpa using this

theorem featuresOf_spec (cs : List Carried) : ∃ kept : List Carried, (kept.map (·.name)).Nodup ∧
    (∀ c, c ∈ kept ↔ LastNamed cs c.name c) ∧ featuresOf cs = kept.map (·.feature) := by
  refine ⟨(keysOf cs).filterMap (slotsOf cs), ?_, ?_, ?_⟩
  · have hsub : ∀ l : List Str, ((l.filterMap (slotsOf cs)).map (·.name)).Sublist l := by
      intro l
      induction l with
      | nil => exact List.Sublist.slnil
      | cons n l ih =>
        rw [List.filterMap_cons]
        split
        · exact ih.cons _
        · rename_i c hc
          obtain ⟨_, _, _, hn, _⟩ := (slotsOf_some cs n c).mp hc
          rw [List.map_cons, hn]
          exact ih.cons_cons _
    exact (nodup_eraseDups _).sublist (hsub _)
  · intro c
    rw [List.mem_filterMap]
    constructor
    · rintro ⟨n, _, h⟩
      have := (slotsOf_some cs n c).mp h
      obtain ⟨_, _, _, hn, _⟩ := this
      rw [hn]; exact (slotsOf_some cs n c).mp h
    · intro h
      refine ⟨c.name, ?_, (slotsOf_some cs _ c).mpr h⟩
      obtain ⟨pre, post, e, _⟩ := h
      rw [keysOf, List.mem_eraseDups]
      exact List.mem_map.mpr ⟨c, by simp [e], rfl⟩
  · unfold featuresOf
    induction keysOf cs with
    | nil => rfl
    | cons n l ih =>
      rw [List.filterMap_cons, List.filterMap_cons]
      cases h : slotsOf cs n with
      | none => simpa using ih
      | some c => simp [ih]

/-- C69: in every execution, however calls of `Startup`, `Serve` and `Close` overlap: if a dock has not been closed, no
`OnDestroy` of its features has been called; if it has been closed, `OnDestroy` has been called exactly once for each
of its features, where of the features passed under the same name only the last one counts
(see `C69_duplicate_refuted`). -/
theorem C69_features (as : List Life.Act) (s : Life.State) (h : run State.step State.init as = some s)
    (i : Nat) (cs : List Carried) (sock : Nat) (hi : .startup i cs sock ∈ as) :
    ∃ kept : List Carried, (kept.map (·.name)).Nodup ∧ (∀ c, c ∈ kept ↔ LastNamed cs c.name c) ∧
      ((i ∉ closesOf s.log ∧ destroysOf i s.log = []) ∨
       (i ∈ closesOf s.log ∧ (destroysOf i s.log).Perm (kept.map (·.feature)))) := by
  obtain ⟨kept, hk1, hk2, hk3⟩ := featuresOf_spec cs
  refine ⟨kept, hk1, hk2, ?_⟩
  rcases dockInv_run h i with ⟨_, _, _, _, _, _, h7, _⟩ | ⟨_, h2⟩ | ⟨cs', _, h2, fs, socks, _, h4⟩
  · exact absurd hi (h7 _ _)
  · exact absurd hi (h2 _ _)
  · have := h2 cs sock hi
    subst this
    rw [← hk3]
    rcases h4 with ⟨g1, _, g3, _⟩ | ⟨g1, _, g3⟩
    · exact Or.inl ⟨g1, g3⟩
    · exact Or.inr ⟨g1, g3⟩

/-- C69: the first `Close` of a dock calls `OnDestroy` of its features and then closes all sockets the dock has opened,
in the reverse order of their opening. -/
theorem C69_sockets (as : List Life.Act) (s s' : Life.State) (a : Life.Act)
    (h : run State.step State.init as = some s) (i : Nat) (cs : List Carried) (sock : Nat)
    (hi : .startup i cs sock ∈ as) (hc : i ∉ closesOf s.log) (hs : s.step a = some s') (hc' : i ∈ closesOf s'.log) :
    ∃ order : List Nat, s'.log = s.log ++ .close i :: order.map (.destroy i) ++ (openedSockets i as).reverse.map (.socket i) := by
  rcases dockInv_run h i with ⟨_, _, _, _, _, _, h7, _⟩ | ⟨_, h2⟩ | ⟨cs', _, h2, fs, socks, h3, h4⟩
  · exact absurd hi (h7 _ _)
  · exact absurd hi (h2 _ _)
  obtain ⟨g1, g2, g3, g4, g5⟩ := h4.resolve_right (fun g => hc g.1)
  unfold State.step at hs
  split at hs
  · cases hs
  cases a with
  | next k order =>
    simp only at hs
    split at hs
    · split at hs
      · cases hs; exact absurd hc' hc
      · rename_i j hj
        split at hs
        · rename_i x evs hcl
          cases hs
          obtain ⟨e1, e2⟩ := closeInst_ok hcl
          simp only [closesOf_append, closesOf_close, e2, List.mem_append, List.mem_singleton] at hc'
          have e : i = j := hc'.resolve_left hc
          subst e
          rw [h3] at hcl
          simp only [closeInst] at hcl
          split at hcl
          · cases hcl
            exact ⟨order, by rw [← g5]; simp⟩
          · cases hcl
        · rename_i hno hcl
          cases hs
          simp only [closesOf_append, closesOf_close, List.mem_append] at hc'
          have e : i = j := by
            rcases hc' with h | h
            · exact absurd h hc
            · simpa [closesOf] using h
          subst e
          rw [h3] at hcl
          simp only [closeInst] at hcl
          split at hcl
          · cases hcl; exact absurd rfl (hno _ _)
          · cases hcl
        · cases hs
    · cases hs
  | serve j sk =>
    simp only at hs
    split at hs
    · cases hs
    · cases hs
      refine absurd ?_ hc
      simpa [closesOf_append, closesOf] using hc'
  | startup j cs sk =>
    simp only at hs
    split at hs
    · cases hs
    · cases hs
      refine absurd ?_ hc
      simpa [closesOf_append, closesOf] using hc'
  | openSocket j sk =>
    simp only at hs
    split at hs
    · cases hs; exact absurd hc' hc
    · cases hs
  | enter k =>
    simp only at hs
    split at hs
    · cases hs; exact absurd hc' hc
    · cases hs
  | finish k =>
    simp only at hs
    split at hs
    · cases hs; exact absurd hc' hc
    · cases hs

/-- A hub and two docks are started, one dock opens a listener, and everything is closed. -/
def lifeActs : List Life.Act :=
  [.serve 0 10, .startup 1 [⟨[97], 100, true⟩, ⟨[98], 101, false⟩] 11, .openSocket 1 12, .startup 2 [] 13,
   .enter 0, .next 0 [], .next 0 [101, 100], .next 0 [], .finish 0]

example : ∃ s, run State.step State.init lifeActs = some s ∧ closesOf s.log = [2, 1, 0] ∧
    destroysOf 1 s.log = [101, 100] ∧ closedSockets 1 s.log = [12, 11] ∧ s.insts = [] :=
  ⟨_, rfl, rfl, rfl, rfl, rfl⟩

/-- `Close` of the example, as in `C69_reverse_partial`. -/
example : ∃ s s', run State.step State.init (lifeActs.take 4) = some s ∧ (∀ u, s.thread u = none) ∧
    run State.step s (.enter 0 :: [.next 0 [], .next 0 [101, 100], .next 0 []] ++ [.finish 0]) = some s' :=
  ⟨_, _, rfl, fun _ => rfl, rfl⟩

/-- No `Close` overlaps with another call in the example. -/
example : AllSteps State.step State.init lifeActs sequential := by
  intro pre a post t e ht
  have key : ∀ m, m < 9 → ∀ u, run State.step State.init (lifeActs.take m) = some u →
      ∀ b, lifeActs[m]? = some b → sequential u b := by
    intro m hm u hu b hb
    match m, hm with
    | 0, _ | 1, _ | 3, _ | 4, _ => cases hu; cases hb; exact fun _ => rfl
    | 2, _ | 5, _ | 6, _ | 7, _ | 8, _ => cases hb; exact trivial
  have hpre : pre = lifeActs.take pre.length := by rw [e]; simp
  refine key pre.length ?_ t (by rw [← hpre]; exact ht) a (by rw [e]; simp)
  have : lifeActs.length = 9 := rfl
  rw [← this, e]; simp

/-- C69 (refuted): `Close` is called while a dock starts.  The dock is appended to `insts` behind the loop variable and
removed from it without being closed; a second `Close` does not close it either. -/
theorem C69_lost_refuted : ∃ as s, run State.step State.init as = some s ∧ 1 ∈ startsOf s.log ∧ 1 ∉ closesOf s.log ∧
    s.insts = [] ∧ (∀ t, s.thread t = none) ∧
    ∀ bs s', (∀ b ∈ bs, (∃ t, b = .enter t) ∨ (∃ t o, b = .next t o) ∨ ∃ t, b = .finish t) →
      run State.step s bs = some s' → 1 ∉ closesOf s'.log := by
  refine ⟨[.serve 0 10, .enter 0, .startup 1 [⟨[97], 100, true⟩] 11, .next 0 [], .finish 0], _, rfl, by decide, by decide,
    rfl, ?_, ?_⟩
  · intro t
    by_cases e : t = 0
    · subst e; rfl
    · simp only [upd_other _ _ e]; rfl
  · intro bs s' hb hr
    have key := run_inv_on (step := State.step)
      (A := fun b => (∃ t, b = .enter t) ∨ (∃ t o, b = .next t o) ∨ ∃ t, b = .finish t)
      (I := fun u => u.insts = [] ∧ 1 ∉ closesOf u.log) ?_ bs _ s' hb ⟨rfl, by decide⟩ hr
    · exact key.2
    · rintro u b v hA ⟨h1, h2⟩ hs
      unfold State.step at hs
      split at hs
      · cases hs
      rcases hA with ⟨t, rfl⟩ | ⟨t, o, rfl⟩ | ⟨t, rfl⟩
      · simp only at hs
        split at hs
        · cases hs; exact ⟨h1, h2⟩
        · cases hs
      · simp only at hs
        split at hs
        · rw [h1] at hs
          simp only [List.getElem?_nil] at hs
          cases hs; exact ⟨rfl, h2⟩
        · cases hs
      · simp only at hs
        split at hs
        · cases hs; exact ⟨rfl, h2⟩
        · cases hs

/-- C69 (refuted): two overlapping calls of `Close` close a hub twice; the second time the process panics. -/
theorem C69_double_refuted : ∃ as s, run State.step State.init as = some s ∧ closesOf s.log = [0, 0] ∧ s.dead = true :=
  ⟨[.serve 0 10, .enter 0, .enter 1, .next 0 [], .next 1 []], _, rfl, rfl, rfl⟩

/-- C69 (refuted): of two features carried under one name only one is ever destroyed. -/
theorem C69_duplicate_refuted : ∃ as s, run State.step State.init as = some s ∧
    .startup 0 [⟨[97], 100, true⟩, ⟨[97], 101, true⟩] 10 ∈ as ∧ 0 ∈ closesOf s.log ∧ destroysOf 0 s.log = [101] :=
  ⟨[.startup 0 [⟨[97], 100, true⟩, ⟨[97], 101, true⟩] 10, .enter 0, .next 0 [101], .finish 0], _, rfl, by simp,
    by decide, rfl⟩

/-- C69 (refuted): a socket that a dock opens while it is being closed, or later, is not closed, not even by another
`Close`. -/
theorem C69_late_socket_refuted : ∃ as s, run State.step State.init as = some s ∧
    openedSockets 0 as = [10, 11] ∧ closedSockets 0 s.log = [10] ∧ (.enter 0 ∈ as.drop 4) :=
  ⟨[.startup 0 [] 10, .enter 0, .next 0 [], .openSocket 0 11, .finish 0, .enter 0, .finish 0], _, rfl, rfl, rfl, by simp⟩

end Verif.Props
