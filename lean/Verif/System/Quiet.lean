import Verif.System.Fair
import Verif.Dock.Answer

/-!
# Executions that come to rest

When nothing is left to do, an execution is fair. This gives examples of fair executions.
-/

namespace Verif.System

open Verif Verif.Codec Verif.Proto

/-- No goroutine of the dock can go on.  If `w` then calls may wait for answers and methods may run. -/
structure QuietDock (w : Bool) (s : Dock.State) : Prop where
  alive : s.dead = false
  hub : s.hubPending = false
  greeting : ∀ e, s.greeting e = false
  handler : ∀ p, s.handler p = .idle
  call : ∀ i, i < s.n → (∃ r, s.phase i = .returned r) ∨ w = true ∧ s.phase i = .waiting ∧ s.chan i = none
  fresh : ∀ i, s.n ≤ i → s.phase i = .created
  exec : ∀ k, (s.exec k).phase = .over ∨ w = true ∧ (s.exec k).phase = .running
  cb : ∀ k, (s.cb k).phase = .over

/-- Nothing in the system goes on by itself. -/
structure Quiet (w : Bool) (S : State) : Prop where
  dock : ∀ d, QuietDock w (S.dock d)
  peer : ∀ e d, S.owner e = some (.dock d) → (S.dock d).isNew e = false
  alive : S.hub.dead = false
  task : ∀ p, S.hub.task p = .idle
  query : ∀ q, q < S.hub.n → ∃ addr, (S.hub.query q).phase = .done addr
  fresh : ∀ q, S.hub.n ≤ q → (S.hub.query q).phase = .top
  opened : ∀ p, S.hub.closed p = false
  queue : ∀ e, S.queue e = []
  up : ∀ p, S.down p = false

section
variable {C : Nat → List Dock.Carried} {H : Nat → Str} {R : Nat → Str} {black : List Int} {S T : State} {w : Bool}

theorem quietDock_stuck {cs : List Dock.Carried} {s : Dock.State} (Q : QuietDock w s) {K : Dock.State → Dock.Act → Prop}
    (hK : Dock.Turn K ∨ Dock.Loop K) {x : Dock.Act} (hx : K s x) : s.step cs x = none := by
  have phase : ∀ i, s.phase i = .created ∧ ¬ i < s.n ∨ (∃ r, s.phase i = .returned r) ∨ s.phase i = .waiting ∧ s.chan i = none := by
    intro i
    rcases Nat.lt_or_ge i s.n with h | h
    · exact Or.inr ((Q.call i h).imp id fun h => h.2)
    · exact Or.inl ⟨Q.fresh i h, by omega⟩
  rcases hK with h | h
  · cases h with
    | storeHub => subst hx; simp [Dock.State.step, Q.alive, Q.hub]
    | greet e => obtain ⟨o, rfl⟩ := hx; simp [Dock.State.step, Q.alive, Q.greeting]
    | store i =>
      subst hx
      rcases phase i with ⟨h1, h2⟩ | ⟨r, h1⟩ | ⟨h1, h2⟩
      · simp [Dock.State.step, Q.alive, h2]
      · simp [Dock.State.step, Q.alive, h1]
      · simp [Dock.State.step, Q.alive, h1]
    | setReq i => subst hx; rcases phase i with ⟨h1, _⟩ | ⟨r, h1⟩ | ⟨h1, h2⟩ <;> simp [Dock.State.step, Q.alive, h1]
    | commit i => subst hx; rcases phase i with ⟨h1, _⟩ | ⟨r, h1⟩ | ⟨h1, h2⟩ <;> simp [Dock.State.step, Q.alive, h1]
    | receive i => subst hx; rcases phase i with ⟨h1, _⟩ | ⟨r, h1⟩ | ⟨h1, h2⟩ <;> simp [Dock.State.step, Q.alive, *]
    | closeChan i => subst hx; rcases phase i with ⟨h1, _⟩ | ⟨r, h1⟩ | ⟨h1, h2⟩ <;> simp [Dock.State.step, Q.alive, h1]
    | work p => obtain ⟨_, o, rfl⟩ := hx; simp [Dock.State.step, Dock.State.work, Q.alive, Q.handler]
    | invoke k => subst hx; rcases Q.exec k with h | h <;> simp [Dock.State.step, Q.alive, h]
    | respond k => subst hx; rcases Q.exec k with h | h <;> simp [Dock.State.step, Q.alive, h]
    | callback k => subst hx; simp [Dock.State.step, Q.alive, Q.cb]
    | delete k => subst hx; simp [Dock.State.step, Q.alive, Q.cb]
  · cases h with
    | visit p i => subst hx; simp [Dock.State.step, Q.alive, Q.handler]
    | leave p => obtain ⟨_, o, rfl⟩ := hx; simp [Dock.State.step, Dock.State.work, Q.alive, Q.handler]

/-- In a quiet state nothing goes on by itself. -/
theorem quiet_stuck (Q : Quiet w S) {K : State → Act → Prop} (hK : Turn K ∨ Loop K) {a : Act} (ha : K S a) :
    S.step C H R black a = none := by
  have dock : ∀ d x (K : Dock.State → Dock.Act → Prop), (Dock.Turn K ∨ Dock.Loop K) → K (S.dock d) x →
      S.step C H R black (.dock d x) = none := by
    intro d x K hK hx
    simp only [State.step, quietDock_stuck (Q.dock d) hK hx]
    split <;> rfl
  rcases hK with h | h
  · cases h with
    | dock d h => obtain ⟨x, rfl, hx⟩ := ha; exact dock d x _ (Or.inl h) hx
    | hub h =>
      obtain ⟨x, rfl, hx⟩ := ha
      have query : ∀ q, (S.hub.query q).phase = .top ∧ ¬ q < S.hub.n ∨ ∃ addr, (S.hub.query q).phase = .done addr := by
        intro q
        rcases Nat.lt_or_ge q S.hub.n with h | h
        · exact Or.inr (Q.query q h)
        · exact Or.inl ⟨Q.fresh q h, by omega⟩
      have : S.hub.step R black x = none := by
        cases h with
        | work p => subst hx; simp [Hub.State.step, Q.alive, Q.task]
        | look q =>
          subst hx
          rcases query q with ⟨_, h2⟩ | ⟨addr, h1⟩
          · simp [Hub.State.step, Q.alive, h2]
          · simp [Hub.State.step, Q.alive, h1]
        | examine q => subst hx; rcases query q with ⟨h1, _⟩ | ⟨addr, h1⟩ <;> simp [Hub.State.step, Q.alive, h1]
        | respond q => subst hx; rcases query q with ⟨h1, _⟩ | ⟨addr, h1⟩ <;> simp [Hub.State.step, Q.alive, h1]
      simp only [State.step, this]
      split <;> rfl
    | dial d p =>
      obtain ⟨d', port, rfl⟩ := ha
      simp [State.step, (Q.dock d).handler]
    | accept e =>
      subst ha
      simp only [State.step]
      split
      · rename_i d ho
        have : (S.dock d).step (C d) (.accept e (S.port e)) = none := by
          simp [Dock.State.step, (Q.dock d).alive, Q.peer e d ho]
        rw [this]
        split <;> rfl
      · rfl
    | deliver e =>
      subst ha
      simp [State.step, Q.queue]
  · cases h with
    | dock d h => obtain ⟨x, rfl, hx⟩ := ha; exact dock d x _ (Or.inr h) hx

/-- In a quiet state a dock can call its own features, and the state remains quiet. -/
theorem quiet_call (Q : Quiet w S) (d : Nat) (c : Dock.Call) (clock : BitVec 64) (f : Dock.Carried)
    (hf : Dock.slotsOf (C d) c.slot = some f) :
    ∃ T, S.step C H R black (.dock d (.call c clock)) = some T ∧ Quiet w T := by
  have hs : (S.dock d).step (C d) (.call c clock) =
      some { S.dock d with log := (S.dock d).log ++ [.called c, .invoke none f.feature c] } := by
    simp [Dock.State.step, (Q.dock d).alive, hf]
  refine ⟨_, by simp only [State.step, hs]; rw [if_pos ⟨Q.up _, rfl⟩], ?_⟩
  have hd := Q.dock d
  constructor
  · intro x
    by_cases e : x = d
    · subst e
      simp only [State.setDock, upd_same]
      exact ⟨hd.alive, hd.hub, hd.greeting, hd.handler, hd.call, hd.fresh, hd.exec, hd.cb⟩
    · simp only [State.setDock, upd_other _ _ e]
      exact Q.dock x
  · intro e x ho
    by_cases h : x = d
    · subst h
      simp only [State.setDock, upd_same]
      exact Q.peer e x ho
    · simp only [State.setDock, upd_other _ _ h]
      exact Q.peer e x ho
  · exact Q.alive
  · exact Q.task
  · exact Q.query
  · exact Q.fresh
  · exact Q.opened
  · intro e
    simp only [State.setDock, Q.queue, List.nil_append]
    rw [List.drop_left]
    split <;> rfl
  · exact Q.up

/-! ## What stops stays stopped -/

theorem down_step {a : Act} (h : S.step C H R black a = some T) {p : Proc} (hp : S.down p = true) : T.down p = true := by
  unfold State.step at h
  cases a <;> simp only [State.receive] at h <;> repeat' split at h
  all_goals cases h
  all_goals first
    | exact hp
    | (simp only [upd]; split
       · rfl
       · exact hp)

theorem dock_dead_step {a : Act} (h : S.step C H R black a = some T) {d : Nat} (hd : (S.dock d).dead = true) : (T.dock d).dead = true := by
  have := dock_part h d
  split at this
  · simp [Dock.State.step, hd] at this
  · rw [this]; exact hd

theorem hub_dead_step {a : Act} (h : S.step C H R black a = some T) (hd : S.hub.dead = true) : T.hub.dead = true := by
  have := hub_part h
  split at this
  · simp [Hub.State.step, hd] at this
  · rw [this]; exact hd

theorem hub_closed_step {a : Act} (h : S.step C H R black a = some T) {p : Nat} (hp : S.hub.closed p = true) : T.hub.closed p = true := by
  have := hub_part h
  split at this
  · rename_i x _
    have h := this
    unfold Hub.State.step at h
    split at h
    · cases h
    cases x <;> simp only at h <;> repeat' split at h
    all_goals first
      | (rw [← Option.some.inj h]; exact hp)
      | (rw [← Option.some.inj h]; simp only [upd]; split
         · rfl
         · exact hp)
      | cases h
  · rw [this]; exact hp

/-- An execution that comes to rest is fair. -/
theorem quiet_fair (E : Course C H R black) (N : Nat) (hq : ∀ n, N ≤ n → Quiet w (E.st n))
    (kept : ∀ n e k, E.act n ≠ some (.lose e k))
    (hd : ∀ d e pkt, Dock.Ev.sent e pkt ∈ ((E.st N).dock d).log → fate pkt ≠ .tooLong)
    (hh : ∀ e pkt, Hub.Ev.sent e pkt ∈ (E.st N).hub.log → fate pkt ≠ .tooLong) : Fair E := by
  have back : ∀ (P : State → Prop), (∀ S a T, State.step C H R black S a = some T → P S → P T) → (∀ S, Quiet w S → ¬ P S) →
      ∀ n, ¬ P (E.st n) := by
    intro P h1 h2 n hP
    have := E.stays (P := P) (fun s a t h hs => h1 s a t hs h) (n := n) hP (max n N) (by omega)
    exact h2 _ (hq _ (by omega)) this
  constructor
  · intro K hK n h
    obtain ⟨a, h1, h2⟩ := h (max n N) (by omega)
    exact absurd (quiet_stuck (hq _ (by omega)) (Or.inl hK) h1) h2
  · intro K hK n h
    obtain ⟨m, a, hm, h1, h2⟩ := h (max n N) (by omega)
    exact absurd (quiet_stuck (hq m (by omega)) (Or.inr hK) h1) h2
  · exact kept
  · intro n p
    have := back (fun S => S.down p = true) (fun _ _ _ h => down_step h) (fun S Q h => by rw [Q.up] at h; cases h) n
    simpa using this
  · intro n d
    have := back (fun S => (S.dock d).dead = true) (fun _ _ _ h => dock_dead_step h)
      (fun S Q h => by rw [(Q.dock d).alive] at h; cases h) n
    simpa using this
  · intro n
    have := back (fun S => S.hub.dead = true) (fun _ _ _ h => hub_dead_step h) (fun S Q h => by rw [Q.alive] at h; cases h) n
    simpa using this
  · intro n p
    have := back (fun S => S.hub.closed p = true) (fun _ _ _ h => hub_closed_step h)
      (fun S Q h => by rw [Q.opened] at h; cases h) n
    simpa using this
  · intro n e pkt hp
    rcases Nat.lt_or_ge n N with hn | hn
    · obtain ⟨del, _, h⟩ := (exec_inv (E := E) n).fifo e
      have hs := h.subset (List.mem_append_right _ hp)
      unfold State.sentBy at hs
      split at hs
      · rename_i d _
        obtain ⟨l, hl⟩ := Dock.course_log (T := dockCourse E d) (show n ≤ N by omega)
        have hl : ((E.st N).dock d).log = ((E.st n).dock d).log ++ l := hl
        exact hd d _ pkt (by rw [hl]; exact List.mem_append_left _ (mem_dockSent.mp hs))
      · obtain ⟨l, hl⟩ : ∃ l, (E.st N).hub.log = (E.st n).hub.log ++ l :=
          (hubCourse E).later (Q := fun s t => ∃ l, t.log = s.log ++ l) (fun s => ⟨[], (List.append_nil _).symm⟩)
            (fun s t u ⟨l, h1⟩ ⟨l', h2⟩ => ⟨l ++ l', by rw [h2, h1, List.append_assoc]⟩) (fun s a t h => Hub.log_step h) (by omega)
        exact hh _ pkt (by rw [hl]; exact List.mem_append_left _ (mem_hubSent.mp hs))
      · cases hs
    · rw [(hq n hn).queue] at hp; cases hp

/-! ## Checking that a state is quiet -/

/-- The docks that an action involves are below `D`, and it is neither a loss nor a crash nor the closing of a
connection. -/
def Act.tame (D : Nat) : Act → Bool
  | .dock d _ => d < D
  | .join d => d < D
  | .dial d _ d' _ => d < D && d' < D
  | .lose _ _ => false
  | .crash _ => false
  | .hub (.close _) => false
  | _ => true

/-- What tame actions leave alone. -/
structure Tame (D : Nat) (S : State) : Prop where
  dock : ∀ d, D ≤ d → S.dock d = .init
  owner : ∀ e d, S.owner e = some (.dock d) → d < D
  down : ∀ d, D ≤ d → S.down (.dock d) = false
  opened : ∀ p, S.hub.closed p = false
  task : ∀ p, S.hub.task p ≠ .idle → S.owner p = some .hub

theorem tame_step {D : Nat} {a : Act} (I : Inv C H R black S) (J : Tame D S) (hA : a.tame D = true)
    (hs : S.step C H R black a = some T) : Tame D T := by
  have howner : ∀ e d, T.owner e = some (.dock d) → d < D := by
    intro e d ho
    cases hS : S.owner e with
    | some p =>
      have := (owner_step I.shape hs hS).1
      rw [ho] at this
      cases this
      exact J.owner e d hS
    | none =>
      unfold State.step at hs
      cases a <;> simp only [State.receive] at hs <;> repeat' split at hs
      all_goals cases hs
      all_goals try (simp [State.setDock, State.setHub, State.connect, hS] at ho; done)
      all_goals
        simp only [State.setDock, State.connect, upd] at ho
        simp only [Act.tame, decide_eq_true_eq, Bool.and_eq_true] at hA
        repeat' split at ho
        all_goals first
          | (cases ho; omega)
          | (cases ho; done)
          | (rw [hS] at ho; cases ho)
  constructor
  · intro d hd
    have := dock_part hs d
    split at this
    · rename_i x hx
      exfalso
      cases a <;> simp only [State.dockAct] at hx <;> repeat' split at hx
      all_goals first
        | (cases hx; done)
        | skip
      all_goals simp only [Act.tame, decide_eq_true_eq, Bool.and_eq_true] at hA
      all_goals first
        | omega
        | (have := J.owner _ _ ‹_›; omega)
    · rw [this]; exact J.dock d hd
  · exact howner
  · intro d hd
    have : T.down (.dock d) = S.down (.dock d) := by
      unfold State.step at hs
      cases a <;> simp only [State.receive] at hs <;> repeat' split at hs
      all_goals cases hs
      all_goals first
        | rfl
        | (cases hA; done)
        | (refine upd_other _ _ ?_
           rintro rfl
           have := J.owner _ _ ‹_›
           omega)
    rw [this]; exact J.down d hd
  · intro p
    have := hub_part hs
    split at this
    · rename_i x hx
      have hx' : ∀ p, x ≠ .close p := by
        rintro q rfl
        cases a <;> simp only [State.hubAct] at hx <;> repeat' split at hx
        all_goals cases hx
        cases hA
      have h := this
      unfold Hub.State.step at h
      split at h
      · cases h
      cases x <;> simp only at h <;> repeat' split at h
      all_goals first
        | (rw [← Option.some.inj h]; exact J.opened p)
        | exact absurd rfl (hx' _)
        | cases h
    · rw [this]; exact J.opened p
  · intro p hp
    have := hub_part hs
    split at this
    · rename_i x hx
      rcases Hub.task_step this p with h | rfl | ⟨_, pkt, rfl⟩
      · rw [h] at hp
        exact (owner_step I.shape hs (J.task p hp)).1
      · refine (owner_step I.shape hs (J.task p ?_)).1
        intro h
        have hw := Hub.work_step this
        rw [h] at hw
        exact hw
      · have := hubAct_recv hs hx
        subst this
        refine (owner_step I.shape hs ?_).1
        simp only [State.hubAct] at hx
        repeat' split at hx
        all_goals cases hx
        assumption
    · rw [this] at hp
      exact (owner_step I.shape hs (J.task p hp)).1

theorem tame_init (D : Nat) : Tame D .init := by constructor <;> simp [State.init, Hub.State.init]

theorem tame_run {D : Nat} {as : List Act} (h : run (State.step C H R black) .init as = some S)
    (ha : ∀ a ∈ as, a.tame D = true) : Tame D S :=
  (run_inv_on (I := fun S => Inv C H R black S ∧ Tame D S) (A := fun a => a.tame D = true)
    (fun S a T hA ⟨I, J⟩ hs => ⟨inv_step C H R black S a T I hs, tame_step I J hA hs⟩) as _ _ ha
    ⟨Inv.init C H R black, tame_init D⟩ h).2

def isIdle : Dock.Handler → Bool
  | .idle => true
  | _ => false

def isReturned (w : Bool) : Dock.CallPhase → Option Dock.Ret → Bool
  | .returned _, _ => true
  | .waiting, none => w
  | _, _ => false

def isRest (w : Bool) : Dock.ExecPhase → Bool
  | .over => true
  | .running => w
  | _ => false

def isDone : Hub.Phase → Bool
  | .done _ => true
  | _ => false

def taskIdle : Hub.Task → Bool
  | .idle => true
  | _ => false

def cbOver : Dock.CbPhase → Bool
  | .over => true
  | _ => false

def isShort (pkt : Proto) : Bool :=
  match fate pkt with
  | .tooLong => false
  | _ => true

def evShort : Dock.Ev → Bool
  | .sent _ pkt => isShort pkt
  | _ => true

def hubShort : Hub.Ev → Bool
  | .sent _ pkt => isShort pkt
  | _ => true

/-- The dock is quiet, as far as the first `N` ends of connections are concerned. -/
def quietDockOn (w : Bool) (N : Nat) (s : Dock.State) : Bool :=
  !s.dead && !s.hubPending && (List.range N).all (fun e => !s.greeting e && isIdle (s.handler e)) &&
    (List.range s.n).all (fun i => isReturned w (s.phase i) (s.chan i)) && (List.range s.nx).all (fun k => isRest w (s.exec k).phase) &&
    (List.range s.nc).all (fun k => cbOver (s.cb k).phase) && s.log.all evShort

/-- The system is quiet, as far as the first `D` docks are concerned. -/
def quietOn (w : Bool) (D : Nat) (S : State) : Bool :=
  (List.range D).all (fun d => quietDockOn w (2 * S.n) (S.dock d) && !S.down (.dock d)) &&
    (List.range (2 * S.n)).all (fun e => (S.queue e).isEmpty && taskIdle (S.hub.task e) &&
      match S.owner e with
      | some (.dock d) => !(S.dock d).isNew e
      | _ => true) &&
    !S.hub.dead && !S.down .hub && (List.range S.hub.n).all (fun q => isDone (S.hub.query q).phase) && S.hub.log.all hubShort

theorem quiet_of {D : Nat} (I : Inv C H R black S) (En : Ends S) (J : Tame D S) (hq : quietOn w D S = true) :
    Quiet w S ∧ (∀ d e pkt, Dock.Ev.sent e pkt ∈ (S.dock d).log → fate pkt ≠ .tooLong) ∧
      ∀ e pkt, Hub.Ev.sent e pkt ∈ S.hub.log → fate pkt ≠ .tooLong := by
  have short : ∀ pkt, isShort pkt = true → fate pkt ≠ .tooLong := by
    intro pkt h e
    unfold isShort at h
    rw [e] at h
    cases h
  simp only [quietOn, Bool.and_eq_true, List.all_eq_true, List.mem_range, Bool.not_eq_true'] at hq
  obtain ⟨⟨⟨⟨⟨hdock, hend⟩, hdead⟩, hup⟩, hquery⟩, hlog⟩ := hq
  have hidle : ∀ p, S.hub.task p = .idle := by
    intro p
    refine Classical.byContradiction fun hne => ?_
    have ho := J.task p hne
    have hlt : p < 2 * S.n := Nat.lt_of_not_le fun hle => by rw [I.shape.fresh p hle] at ho; cases ho
    have := (hend p hlt).1.2
    unfold taskIdle at this
    split at this
    · exact hne ‹_›
    · cases this
  refine ⟨⟨?_, ?_, hdead, hidle, ?_, ?_, J.opened, ?_, ?_⟩, ?_, ?_⟩
  · intro d
    rcases Nat.lt_or_ge d D with hd | hd
    · have h1 := (hdock d hd).1
      simp only [quietDockOn, Bool.and_eq_true, List.all_eq_true, List.mem_range, Bool.not_eq_true'] at h1
      obtain ⟨⟨⟨⟨⟨⟨q1, q2⟩, q3⟩, q4⟩, q5⟩, q6⟩, q7⟩ := h1
      obtain ⟨hO, hP, hR, hH⟩ := dock_inv I d
      refine ⟨q1, q2, ?_, ?_, ?_, hR.fresh, ?_, ?_⟩
      · intro e
        rcases Nat.lt_or_ge e (2 * S.n) with he | he
        · exact (q3 e he).1
        · cases hg : (S.dock d).greeting e with
          | false => rfl
          | true =>
            have h2 := hP.greet e
            rw [hg] at h2
            cases hp : (S.dock d).isPeer e with
            | false => rw [hp] at h2; simp at h2
            | true =>
              obtain ⟨k, hk⟩ := isPeer_mem.mp hp
              have := (En d e k hk).1
              rw [I.shape.fresh e he] at this
              cases this
      · intro p
        rcases Nat.lt_or_ge p (2 * S.n) with he | he
        · have := (q3 p he).2
          unfold isIdle at this
          split at this
          · assumption
          · cases this
        · exact idle_fresh I En he
      · intro i hi
        have := q4 i hi
        unfold isReturned at this
        split at this
        · exact Or.inl ⟨_, ‹_›⟩
        · exact Or.inr ⟨this, ‹_›, ‹_›⟩
        · cases this
      · intro k
        rcases Nat.lt_or_ge k (S.dock d).nx with hk | hk
        · have := q5 k hk
          cases hp : ((S.dock d).exec k).phase <;> rw [hp] at this <;> first | exact Or.inl rfl | exact Or.inr ⟨this, rfl⟩ | cases this
        · exact Or.inl (hH.execFresh k hk)
      · intro k
        rcases Nat.lt_or_ge k (S.dock d).nc with hk | hk
        · have := q6 k hk
          cases hp : ((S.dock d).cb k).phase <;> rw [hp] at this <;> first | rfl | cases this
        · exact hR.cbFresh k hk
    · rw [J.dock d hd]
      constructor <;> simp [Dock.State.init]
  · intro e d ho
    have hlt : e < 2 * S.n := Nat.lt_of_not_le fun hle => by rw [I.shape.fresh e hle] at ho; cases ho
    have := (hend e hlt).2
    rw [ho] at this
    simpa using this
  · intro q hq
    have := hquery q hq
    unfold isDone at this
    split at this
    · exact ⟨_, ‹_›⟩
    · cases this
  · obtain ⟨as', hr⟩ := I.parts.hub
    exact (Hub.queryInv_run R black hr).fresh
  · intro e
    rcases Nat.lt_or_ge e (2 * S.n) with he | he
    · simpa using (hend e he).1.1
    · exact (fresh_got H R I.shape I.fifo he).2
  · intro p
    cases p with
    | hub => exact hup
    | dock d =>
      rcases Nat.lt_or_ge d D with hd | hd
      · exact (hdock d hd).2
      · exact J.down d hd
  · intro d e pkt hp
    rcases Nat.lt_or_ge d D with hd | hd
    · have h1 := (hdock d hd).1
      simp only [quietDockOn, Bool.and_eq_true, List.all_eq_true] at h1
      exact short pkt (h1.2 _ hp)
    · rw [J.dock d hd] at hp
      cases hp
  · intro e pkt hp
    exact short pkt (hlog _ hp)

/-- An execution of tame actions that ends quiet is the beginning of a fair execution: from then on dock `d` calls a
feature of its own, again and again. -/
theorem fair_of {D : Nat} {as : List Act} (h : run (State.step C H R black) .init as = some S)
    (ha : (as.all fun a => a.tame D) = true) (hq : quietOn false D S = true) (d : Nat) (c : Dock.Call) (clock : BitVec 64)
    (f : Dock.Carried) (hf : Dock.slotsOf (C d) c.slot = some f) :
    ∃ E : Exec (State.step C H R black) .init, Fair (courseOf E) ∧ (∀ n, n < as.length → some (E.act n) = as[n]?) ∧
      (∀ n, n ≤ as.length → run (State.step C H R black) .init (as.take n) = some (E.st n)) ∧
      ∀ n, as.length ≤ n → Quiet false (E.st n) ∧ E.act n = .dock d (.call c clock) := by
  obtain ⟨hQ, h1, h2⟩ := quiet_of (inv_run C H R black h) (ends_run C H R black h) (tame_run h (List.all_eq_true.mp ha)) hq
  have hb : ∀ S (_ : Nat), Quiet false S → ∃ T, S.step C H R black (.dock d (.call c clock)) = some T ∧ Quiet false T :=
    fun S _ Q => quiet_call Q d c clock f hf
  obtain ⟨t1, t2⟩ := Exec.ofLasso_tail h hQ hb
  have hact : ∀ n, n < as.length → some ((Exec.ofLasso (State.step C H R black) .init as (fun _ => .dock d (.call c clock)) h hQ hb).act n) = as[n]? := by
    intro n hn
    show some (as[n]?.getD _) = _
    rw [List.getElem?_eq_getElem hn]
    rfl
  refine ⟨Exec.ofLasso _ _ as (fun _ => .dock d (.call c clock)) h hQ hb, ?_, hact, fun n hn => lasso_run h n hn, t2⟩
  refine quiet_fair _ as.length (fun n hn => (t2 n hn).1) ?_ (fun d e pkt hp => h1 d e pkt (t1 ▸ hp)) (fun e pkt hp => h2 e pkt (t1 ▸ hp))
  intro n e k hl
  rcases Nat.lt_or_ge n as.length with hn | hn
  · have := hact n hn
    rw [Option.some.inj hl] at this
    have := List.all_eq_true.mp ha _ (List.mem_of_getElem? this.symm)
    cases this
  · have := (t2 n hn).2.symm.trans (Option.some.inj hl)
    cases this

end

end Verif.System
