import Mathlib.Data.Nat.Pairing
import Verif.System.WorldFair
import Verif.System.Quiet
import Verif.Props.World3

/-!
# Executions of a system with callees that come to rest

When nothing is left to do but to let time pass, an execution is fair. This gives examples of fair executions.
-/

namespace Verif.World

open Verif Verif.Codec Verif.Proto

/-- Nothing goes on by itself: methods run, calls wait for answers, and that is all. -/
structure Quiet (w : Bool) (S : State) : Prop where
  sys : System.Quiet w S.sys
  chan : ∀ d, Props.Quiet (S.rest d).chan
  finish : ∀ d k q, (S.rest d).served k = some q → ((S.sys.dock d).exec k).phase = .running → (S.rest d).chan.result q = none

section
variable {C : Nat → List Dock.Carried} {T : Nat → Nat → Chan.Target} {H R : Nat → Str} {black : List Int} {S S' : State} {w : Bool}

theorem chan_dead {a : Act} (h : S.step C T H R black a = some S') {d : Nat} (hd : (S.rest d).chan.dead = true) :
    (S'.rest d).chan.dead = true := by
  have := chan_part h d
  split at this
  · simp [Chan.State.step, hd] at this
  · rw [this]; exact hd

theorem chan_alive {a : Act} {x : System.Act} (h : S.step C T H R black a = some S') (hx : S.sysAct a = some x) {d : Nat}
    (hd : (S.rest d).chan.dead = false) : (S'.rest d).chan.dead = false := by
  have := chan_part h d
  split at this
  · rename_i y hy
    have hc : ∃ k q m args p, y = .call k q m args p := by
      unfold State.chanAct at hy
      repeat' split at hy
      all_goals first
        | (cases hy; done)
        | (obtain ⟨c, hc, rfl⟩ := Option.map_eq_some_iff.mp hy
           exact ⟨_, _, _, _, _, rfl⟩)
        | (simp [State.sysAct] at hx; done)
    obtain ⟨k, q, m, args, p, rfl⟩ := hc
    simp only [Chan.State.step] at this
    repeat' split at this
    all_goals first
      | (cases this; done)
      | (rw [← Option.some.inj this]; exact hd)
  · rw [this]; exact hd

theorem quiet_stuck (Q : Quiet w S) {K : State → Act → Prop} (hK : Turn K ∨ Loop K) {a : Act} (ha : K S a) :
    S.step C T H R black a = none := by
  cases h : S.step C T H R black a with
  | none => rfl
  | some S' =>
    exfalso
    have sys : ∀ x (K : System.State → System.Act → Prop), (System.Turn K ∨ System.Loop K) → S.sysAct a = some x → K S.sys x → False := by
      intro x K hK hx hk
      have h1 := sys_part h fun d => chan_alive h hx (Q.chan d).alive
      rw [hx] at h1
      have h1 : S.sys.step C H R black x = some S'.sys := h1
      rw [System.quiet_stuck Q.sys hK hk] at h1
      cases h1
    have chan : ∀ d x, a = .dock d (.chan x) → Props.Runs x → False := by
      rintro d x rfl hr
      have h1 := chan_part h d
      simp only [State.chanAct, if_pos] at h1
      have h1 : (S.rest d).chan.step (T d) x = some (S'.rest d).chan := h1
      rw [Props.Quiet.none (Q.chan d) x hr] at h1
      cases h1
    rcases hK with hK | hK
    · cases hK with
      | sys hK => obtain ⟨x, hx, hk⟩ := ha; exact sys x _ (Or.inl hK) hx hk
      | chan d x hr => exact chan d x ha hr
      | finish d k =>
        subst ha
        obtain ⟨_, _, w, hw, _⟩ := step_whole h
        simp only [Whole.State.step] at hw
        split at hw
        · cases hw
        split at hw
        · rename_i q hq
          split at hw
          · rename_i j ans hj
            obtain ⟨x, hx, -⟩ := Option.map_eq_some_iff.mp hw
            have hq : (S.rest d).served k = some q := hq
            have hj : (S.rest d).chan.result q = some (j, ans) := hj
            rcases (Q.sys.dock d).exec k with e | ⟨-, e⟩
            · have e : ((S.at d).dock.exec k).phase = .over := e
              simp [Dock.State.step, e] at hx
            · rw [Q.finish d k q hq e] at hj
              cases hj
          · cases hw
        · cases hw
    · cases hK with
      | sys hK => obtain ⟨x, hx, hk⟩ := ha; exact sys x _ (Or.inr hK) hx hk
      | push d i => exact chan d _ ha trivial

/-- An execution that comes to rest, with the time passing, is fair. -/
theorem quiet_fair (E : Course C T H R black) (N : Nat) (hq : ∀ n, N ≤ n → Quiet w (E.st n))
    (time : ∀ d t, ∃ n, t ≤ ((E.st n).rest d).chan.clock)
    (kept : ∀ n e k, E.act n ≠ some (.sys (.lose e k)))
    (hd : ∀ d e pkt, Dock.Ev.sent e pkt ∈ ((E.st N).sys.dock d).log → System.fate pkt ≠ .tooLong)
    (hh : ∀ e pkt, Hub.Ev.sent e pkt ∈ (E.st N).sys.hub.log → System.fate pkt ≠ .tooLong) : Fair E := by
  have alive : ∀ n d, ((E.st n).rest d).chan.dead = false := by
    intro n d
    cases he : ((E.st n).rest d).chan.dead with
    | false => rfl
    | true =>
      have := E.stays (P := fun S => (S.rest d).chan.dead = true) (fun s a t hs h => chan_dead h hs) (n := n) he (max n N) (by omega)
      rw [((hq (max n N) (by omega)).chan d).alive] at this
      cases this
  have F : System.Fair (sysCourse E alive) := by
    refine System.quiet_fair _ N (fun n hn => (hq n hn).sys) ?_ hd hh
    intro n e k hl
    obtain ⟨a, ha, hx⟩ := Option.bind_eq_some_iff.mp (show (E.act n).bind _ = _ from hl)
    have : a = .sys (.lose e k) := by
      unfold State.sysAct at hx
      repeat' split at hx
      all_goals cases hx
      rfl
    subst this
    exact kept n e k ha
  constructor
  · intro K hK n h
    obtain ⟨a, h1, h2⟩ := h (max n N) (by omega)
    exact absurd (quiet_stuck (hq _ (by omega)) (Or.inl hK) h1) h2
  · intro K hK n h
    obtain ⟨m, a, hm, h1, h2⟩ := h (max n N) (by omega)
    exact absurd (quiet_stuck (hq m (by omega)) (Or.inr hK) h1) h2
  · exact time
  · exact kept
  · exact F.up
  · exact F.dock
  · exact F.hub
  · exact F.opened
  · exact F.short

/-! ## Time passes -/

/-- The state later, when only time has passed. -/
def State.later (S S' : State) : Prop :=
  S'.sys = S.sys ∧ ∀ d, ∃ k, S'.at d = { S.at d with chan := { (S.at d).chan with clock := k } }

theorem State.later.refl (S : State) : S.later S := ⟨rfl, fun d => ⟨(S.at d).chan.clock, rfl⟩⟩

theorem later_quiet (Q : Quiet w S) (h : S.later S') : Quiet w S' := by
  obtain ⟨h1, h2⟩ := h
  constructor
  · rw [h1]; exact Q.sys
  · intro d
    obtain ⟨k, e⟩ := h2 d
    have q := Q.chan d
    have : (S'.rest d).chan = { (S.rest d).chan with clock := k } := congrArg Whole.State.chan e
    rw [this]
    exact ⟨q.alive, q.handlers, q.pushed, q.timers, q.chans⟩
  · intro d k q hs hr
    obtain ⟨t, e⟩ := h2 d
    have e1 : (S'.rest d).chan = { (S.rest d).chan with clock := t } := congrArg Whole.State.chan e
    have e2 : (S'.rest d).served = (S.rest d).served := (congrArg Whole.State.served e :)
    rw [e1]
    rw [e2] at hs
    rw [h1] at hr
    exact Q.finish d k q hs hr

/-- Time can pass at a dock. -/
theorem quiet_tick (Q : Quiet w S) (d : Nat) : ∃ S', S.step C T H R black (.dock d (.chan .tick)) = some S' ∧ S.later S' ∧
    (S'.rest d).chan.clock = (S.rest d).chan.clock + 1 ∧ ∀ x, x ≠ d → S'.rest x = S.rest x := by
  have h1 := (Q.sys.dock d).alive
  have h2 := (Q.chan d).alive
  have hs : (S.at d).step (C d) (T d) (.chan .tick) =
      some { S.at d with chan := { (S.at d).chan with clock := (S.at d).chan.clock + 1 } } := by
    simp [Whole.State.step, State.at, h1, h2, Whole.tiedC, Chan.State.step]
  refine ⟨_, by simp only [State.step]; rw [if_pos ⟨Q.sys.up _, rfl⟩, hs]; rfl, ⟨?_, ?_⟩, ?_, ?_⟩
  · rw [put_sys (by exact h2)]
    exact System.setDock_self _ _
  · intro x
    by_cases e : x = d
    · subst e
      rw [at_put]
      exact ⟨_, rfl⟩
    · rw [at_put_other _ _ e]
      exact ⟨(S.at x).chan.clock, rfl⟩
  · simp [State.put, upd_same, State.at]
  · intro x e
    simp [State.put, upd_other _ _ e]

theorem State.later.trans {S S' S'' : State} (h : S.later S') (h' : S'.later S'') : S.later S'' := by
  refine ⟨h'.1.trans h.1, fun d => ?_⟩
  obtain ⟨k, e⟩ := h.2 d
  obtain ⟨k', e'⟩ := h'.2 d
  exact ⟨k', by rw [e', e]⟩

/-- The clocks of the docks go on one after the other, each of them again and again. -/
def ticks (N n : Nat) : Act := .dock (Nat.unpair (n - N)).1 (.chan .tick)

/-- An execution that ends in a quiet state is the beginning of a fair execution: from then on time passes. -/
theorem fair_of {as : List Act} (h : run (State.step C T H R black) (State.init T) as = some S) (Q : Quiet w S)
    (kept : ∀ e k, .sys (.lose e k) ∉ as)
    (hd : ∀ d e pkt, Dock.Ev.sent e pkt ∈ (S.sys.dock d).log → System.fate pkt ≠ .tooLong)
    (hh : ∀ e pkt, Hub.Ev.sent e pkt ∈ S.sys.hub.log → System.fate pkt ≠ .tooLong) :
    ∃ E : Course C T H R black, Fair E ∧ (∀ n, n < as.length → E.act n = as[n]?) ∧
      (∀ n, n ≤ as.length → run (State.step C T H R black) (State.init T) (as.take n) = some (E.st n)) ∧
      (∀ n, as.length ≤ n → S.later (E.st n) ∧ ∃ d, E.act n = some (.dock d (.chan .tick))) := by
  have hb : ∀ S' (n : Nat), S.later S' → ∃ S'', State.step C T H R black S' (ticks as.length n) = some S'' ∧ S.later S'' := by
    intro S' n hl
    obtain ⟨S'', h1, h2, _⟩ := quiet_tick (C := C) (T := T) (H := H) (R := R) (black := black) (later_quiet Q hl) (Nat.unpair (n - as.length)).1
    exact ⟨S'', h1, hl.trans h2⟩
  obtain ⟨t1, t2⟩ := Exec.ofLasso_tail h (State.later.refl S) hb
  generalize hE : Exec.ofLasso (State.step C T H R black) (State.init T) as (ticks as.length) h (State.later.refl S) hb = E at t1 t2
  have hact : ∀ n, n < as.length → some (E.act n) = as[n]? := by
    intro n hn
    rw [← hE]
    show some (as[n]?.getD _) = _
    rw [List.getElem?_eq_getElem hn]
    rfl
  have hst : ∀ n, n ≤ as.length → run (State.step C T H R black) (State.init T) (as.take n) = some (E.st n) := by
    intro n hn
    rw [← hE]
    exact lasso_run h n hn
  refine ⟨⟨E.trace, E.init⟩, ?_, hact, hst, fun n hn => ⟨(t2 n hn).1, _, congrArg some (t2 n hn).2⟩⟩
  refine quiet_fair (w := w) _ as.length (fun n hn => later_quiet Q (t2 n hn).1) ?_ ?_
    (fun d e pkt hp => hd d e pkt (by rw [← t1]; exact hp)) (fun e pkt hp => hh e pkt (by rw [← t1]; exact hp))
  · intro d t
    have step : ∀ n, as.length ≤ n → ((E.st n).rest d).chan.clock ≤ ((E.st (n + 1)).rest d).chan.clock ∧
        ((Nat.unpair (n - as.length)).1 = d → ((E.st (n + 1)).rest d).chan.clock = ((E.st n).rest d).chan.clock + 1) := by
      intro n hn
      obtain ⟨S'', h1, _, h3, h4⟩ := quiet_tick (C := C) (T := T) (H := H) (R := R) (black := black)
        (later_quiet Q (t2 n hn).1) (Nat.unpair (n - as.length)).1
      have h5 := E.next n
      rw [(t2 n hn).2] at h5
      have : S'' = E.st (n + 1) := Option.some.inj (h1.symm.trans h5)
      subst this
      refine ⟨?_, fun e => by subst e; exact h3⟩
      by_cases e : d = (Nat.unpair (n - as.length)).1
      · rw [e, h3]; exact Nat.le_succ _
      · rw [h4 d e]
    have mono : ∀ n m, as.length ≤ n → n ≤ m → ((E.st n).rest d).chan.clock ≤ ((E.st m).rest d).chan.clock := by
      intro n m hn hm
      refine Trace.keep (P := fun m => ((E.st n).rest d).chan.clock ≤ ((E.st m).rest d).chan.clock) (Nat.le_refl _) ?_ m hm
      intro m hm h
      exact Nat.le_trans h (step m (by omega)).1
    suffices ∃ n, as.length ≤ n ∧ t ≤ ((E.st n).rest d).chan.clock from ⟨this.choose, this.choose_spec.2⟩
    induction t with
    | zero => exact ⟨as.length, Nat.le_refl _, Nat.zero_le _⟩
    | succ t ih =>
      obtain ⟨n, hn, ht⟩ := ih
      refine ⟨as.length + Nat.pair d n + 1, by omega, ?_⟩
      have h1 := (step (as.length + Nat.pair d n) (by omega)).2 (by rw [Nat.add_sub_cancel_left, Nat.unpair_pair])
      rw [h1]
      have := mono n (as.length + Nat.pair d n) hn (by have := Nat.right_le_pair d n; omega)
      omega
  · intro n e k hl
    have hl : some (E.act n) = some (.sys (.lose e k)) := hl
    rcases Nat.lt_or_ge n as.length with hn | hn
    · have := hact n hn
      rw [hl] at this
      exact kept e k (List.mem_of_getElem? this.symm)
    · rw [(t2 n hn).2] at hl
      cases hl

/-! ## Checking that a state is quiet -/

/-- The docks that an action involves are below `D`, and it is neither a loss nor a crash nor the closing of a
connection. -/
def Act.tame (D : Nat) : Act → Bool
  | .sys a => a.tame D
  | .dock d _ => d < D

theorem sys_tame {D : Nat} {a : Act} {x : System.Act} (h : a.tame D = true) (hx : S.sysAct a = some x) : x.tame D = true := by
  cases a with
  | sys a => cases hx; exact h
  | dock d a =>
    cases a <;> simp only [State.sysAct] at hx <;> repeat' split at hx
    all_goals cases hx
    all_goals exact h

theorem run_last {as : List Act} {a : Act} {S0 : State} (h : run (State.step C T H R black) S0 (as ++ [a]) = some S) :
    ∃ S1, run (State.step C T H R black) S0 as = some S1 ∧ S1.step C T H R black a = some S := by
  rw [run_append] at h
  obtain ⟨S1, h0, h1⟩ := Option.bind_eq_some_iff.mp h
  refine ⟨S1, h0, ?_⟩
  simp only [run] at h1
  split at h1
  · cases h1
  · rename_i x hx
    cases h1
    exact hx

/-- Docks from `D` on have done nothing. -/
theorem tame_rest {D : Nat} {as : List Act} (h : run (State.step C T H R black) (State.init T) as = some S)
    (ha : ∀ a ∈ as, a.tame D = true) : ∀ d, D ≤ d → S.rest d = Whole.State.init (T d) := by
  refine run_inv_on (I := fun S : State => ∀ d, D ≤ d → S.rest d = Whole.State.init (T d)) (A := fun a => a.tame D = true) ?_ as _ _ ha
    (fun _ _ => rfl) h
  intro S a S' hA J hs d hd
  cases a with
  | sys a => rw [(step_sys hs).2.2]; exact J d hd
  | dock d' a =>
    obtain ⟨_, _, w, _, rfl⟩ := step_whole hs
    have hA : d' < D := by simpa [Act.tame] using hA
    simp only [State.put]
    rw [upd_other _ _ (by omega)]
    exact J d hd

theorem tame_run {D : Nat} {as : List Act} (h : run (State.step C T H R black) (State.init T) as = some S)
    (ha : ∀ a ∈ as, a.tame D = true) (alive : ∀ d, (S.rest d).chan.dead = false) : System.Tame D S.sys := by
  induction as using List.reverseRecOn generalizing S with
  | nil => cases h; exact System.tame_init D
  | append_singleton as a ih =>
    obtain ⟨S0, h0, hs⟩ := run_last h
    have J := ih h0 (fun x hx => ha x (List.mem_append_left _ hx)) (by
      intro d
      cases he : (S0.rest d).chan.dead with
      | false => rfl
      | true => rw [← alive d, chan_dead hs he])
    have hA := ha a (List.mem_append_right _ (List.mem_singleton.mpr rfl))
    obtain ⟨bs, hb⟩ := sys_reach h0
    have := sys_part hs alive
    split at this
    · rename_i x hx
      exact System.tame_step (System.inv_run C H R black hb) J (sys_tame hA hx) this
    · rw [this]; exact J

def timerRest : Chan.Timer → Bool
  | .none => true
  | .over => true
  | _ => false

def handlerRest (w : Bool) (q : List Nat) : Chan.Handler → Bool
  | .idle => q.isEmpty
  | .running _ => w
  | _ => false

/-- Nothing is left to do for the goroutines of package chancall. -/
def chanOn (w : Bool) (s : Chan.State) : Bool :=
  !s.dead && (List.range s.n).all fun i => s.pushed i && timerRest (s.timer i) && (s.chan (s.req i).caller).isNone &&
    handlerRest w (s.queue (s.req i).callee) (s.handler (s.req i).callee)

/-- What holds of callees if nothing is left to do. -/
theorem chan_of {s : Chan.State} (A : Chan.AnsInv s) (h : chanOn w s = true) :
    Props.Quiet s ∧ (w = false → ∀ c, s.handler c = .idle) := by
  simp only [chanOn, Bool.and_eq_true, List.all_eq_true, List.mem_range, Bool.not_eq_true'] at h
  obtain ⟨h0, h⟩ := h
  have exists_of : ∀ i, s.pushed i = true → i < s.n := fun i hp => Nat.lt_of_not_le fun hle => by
    rw [(A.fresh i hle).1] at hp; cases hp
  have hand : ∀ c, (∃ q, s.handler c = .running q ∧ w = true) ∨ s.handler c = .idle ∧ s.queue c = [] := by
    intro c
    have known : ∀ i, i < s.n → (s.req i).callee = c →
        (∃ q, s.handler c = .running q ∧ w = true) ∨ s.handler c = .idle ∧ s.queue c = [] := by
      intro i hi hc
      have := (h i hi).2
      rw [hc] at this
      unfold handlerRest at this
      split at this
      · exact Or.inr ⟨‹_›, List.isEmpty_iff.mp this⟩
      · exact Or.inl ⟨_, ‹_›, this⟩
      · cases this
    cases hb : (s.handler c).busy with
    | some i =>
      obtain ⟨h1, h2, _⟩ := A.inHandler c i hb
      exact known i (exists_of i h2) h1
    | none =>
      cases hq : s.queue c with
      | cons i l =>
        obtain ⟨h1, h2, _⟩ := A.inQueue c i (by rw [hq]; exact List.mem_cons_self)
        have := known i (exists_of i h2) h1
        rw [hq] at this
        exact this
      | nil =>
        refine Or.inr ⟨?_, rfl⟩
        cases hh : s.handler c <;> rw [hh] at hb <;> first | rfl | cases hb
  refine ⟨⟨h0, fun c => (hand c).imp (fun ⟨q, h, _⟩ => ⟨q, h⟩) id, fun i hi => (h i hi).1.1.1, ?_, ?_⟩, ?_⟩
  · intro i
    rcases Nat.lt_or_ge i s.n with hi | hi
    · have := (h i hi).1.1.2
      unfold timerRest at this
      split at this
      · exact Or.inl ‹_›
      · exact Or.inr ‹_›
      · cases this
    · exact Or.inl (A.fresh i hi).2.2.1
  · intro c
    cases hc : s.chan c with
    | none => rfl
    | some x =>
      obtain ⟨j, a⟩ := x
      obtain ⟨h1, h2, _⟩ := A.chan c j a hc
      have hj : j < s.n := Nat.lt_of_not_le fun hle => by
        rw [(A.fresh j hle).2.1] at h1; cases h1
      have := (h j hj).1.2
      rw [h2, hc] at this
      cases this
  · rintro rfl c
    rcases hand c with ⟨_, _, h⟩ | ⟨h, _⟩
    · cases h
    · exact h

def isRunning : Dock.ExecPhase → Bool
  | .running => true
  | _ => false

/-- The system is quiet, as far as the first `D` docks are concerned.  If `w` then calls may wait for answers and methods
may run. -/
def quietOn (w : Bool) (D : Nat) (S : State) : Bool :=
  System.quietOn w D S.sys && (List.range D).all fun d => chanOn w (S.rest d).chan &&
    (List.range (S.sys.dock d).nx).all fun k =>
      match (S.rest d).served k with
      | some q => !isRunning ((S.sys.dock d).exec k).phase || ((S.rest d).chan.result q).isNone
      | none => true

theorem quiet_of {D : Nat} {as : List Act} (h : run (State.step C T H R black) (State.init T) as = some S)
    (ha : (as.all fun a => a.tame D) = true) (hq : quietOn w D S = true) :
    Quiet w S ∧ (∀ d e pkt, Dock.Ev.sent e pkt ∈ (S.sys.dock d).log → System.fate pkt ≠ .tooLong) ∧
      (∀ e pkt, Hub.Ev.sent e pkt ∈ S.sys.hub.log → System.fate pkt ≠ .tooLong) ∧
      (w = false → ∀ d c, (S.rest d).chan.handler c = .idle) := by
  simp only [quietOn, Bool.and_eq_true, List.all_eq_true, List.mem_range] at hq
  obtain ⟨hsys, hrest⟩ := hq
  have init := tame_rest h (List.all_eq_true.mp ha)
  have alive : ∀ d, (S.rest d).chan.dead = false := by
    intro d
    rcases Nat.lt_or_ge d D with hd | hd
    · have := (hrest d hd).1
      simp only [chanOn, Bool.and_eq_true, Bool.not_eq_true'] at this
      exact this.1
    · rw [init d hd]; rfl
  have J := tame_run h (List.all_eq_true.mp ha) alive
  obtain ⟨bs, hb⟩ := sys_reach h
  obtain ⟨Q, q1, q2⟩ := System.quiet_of (System.inv_run C H R black hb) (System.ends_run C H R black hb) J hsys
  have F := fun d => (Props.Reach.facts ⟨as, h⟩ d).2
  have hchan : ∀ d, Props.Quiet (S.rest d).chan ∧ (w = false → ∀ c, (S.rest d).chan.handler c = .idle) := by
    intro d
    rcases Nat.lt_or_ge d D with hd | hd
    · exact chan_of (F d).1.ans (hrest d hd).1
    · rw [init d hd]
      exact ⟨⟨rfl, fun _ => Or.inr ⟨rfl, rfl⟩, fun _ h => absurd h (Nat.not_lt_zero _), fun _ => Or.inl rfl, fun _ => rfl⟩, fun _ _ => rfl⟩
  refine ⟨⟨Q, fun d => (hchan d).1, ?_⟩, q1, q2, fun hw d => (hchan d).2 hw⟩
  intro d k q hs hr
  rcases Nat.lt_or_ge d D with hd | hd
  · have hk : k < (S.sys.dock d).nx := Nat.lt_of_not_le fun hle => by
      have := ((F d).2.2.2.fresh k hle).2.1
      have hs : (S.at d).served k = some q := hs
      rw [hs] at this
      cases this
    have := (hrest d hd).2 k hk
    rw [hs] at this
    simp only [hr, isRunning, Bool.not_true, Bool.false_or] at this
    exact Option.isNone_iff_eq_none.mp this
  · rw [init d hd] at hs
    cases hs

end

end Verif.World
