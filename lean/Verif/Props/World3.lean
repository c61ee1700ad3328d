import Verif.Props.World2
import Verif.Props.System6

/-!
# C121, positive part: waiting across docks that comes to an end
-/

namespace Verif.Props

open Verif Verif.Codec Verif.Proto Verif.Dock Verif.System

/-! ## What stays as it is while calls are completed -/

/-- The calls that are waiting to be started, and those that will be made for requests that have been received, have arguments
that their methods accept. -/
def Apt (cs : List Carried) (T : Nat → Chan.Target) (s : Whole.State) : Prop :=
  Suitable T s.chan ∧ ∀ k c, k < s.dock.nx → Whole.calleeOf cs (s.dock.exec k).call.slot = some c →
    (T c).invoke (s.dock.exec k).call.meth (s.dock.exec k).call.args ≠ .panics

/-- What stays as it is at a dock. -/
structure Part (cs : List Carried) (T : Nat → Chan.Target) (s t : Whole.State) : Prop where
  dead : t.dock.dead = s.dock.dead
  cdead : t.chan.dead = s.chan.dead
  n : t.dock.n = s.dock.n
  index : t.dock.index = s.dock.index
  handler : t.dock.handler = s.dock.handler
  nx : t.dock.nx = s.dock.nx
  exec : ∀ k, (t.dock.exec k).peer = (s.dock.exec k).peer ∧ (t.dock.exec k).index = (s.dock.exec k).index ∧
    (t.dock.exec k).call = (s.dock.exec k).call
  phase : ∀ i, t.dock.phase i = s.dock.phase i ∨ ∃ r, t.dock.phase i = .returned r
  cn : s.chan.n ≤ t.chan.n
  req : ∀ q, q < s.chan.n → t.chan.req q = s.chan.req q
  waits : ∀ p q, t.chan.waits p = some q → s.chan.waits p = some q
  blocked : ∀ p i, t.blocked p = some i → s.blocked p = some i
  unblocked : ∀ p i, s.blocked p = some i → t.blocked p = some i ∨ ∃ r, t.dock.phase i = .returned r
  served : ∀ k q, s.served k = some q → t.served k = some q
  invoked : ∀ k q, t.served k = some q → s.served k = some q ∨ s.chan.n ≤ q
  fresh : ∀ q, t.chan.n ≤ q → t.chan.startedAt q = none
  hold : ∀ p q, p < s.chan.n → (t.chan.waits p ≠ none ∨ t.blocked p ≠ none) → (t.chan.req q).callee = (s.chan.req p).callee →
    s.chan.startedAt q = none → t.chan.startedAt q = none
  apt : Apt cs T s → Apt cs T t

theorem Part.refl {cs : List Carried} {T : Nat → Chan.Target} {s : Whole.State} (h : ∀ q, s.chan.n ≤ q → s.chan.startedAt q = none) :
    Part cs T s s :=
  ⟨rfl, rfl, rfl, rfl, rfl, rfl, fun _ => ⟨rfl, rfl, rfl⟩, fun _ => Or.inl rfl, Nat.le_refl _, fun _ _ => rfl, fun _ _ h => h,
    fun _ _ h => h, fun _ _ h => Or.inl h, fun _ _ h => h, fun _ _ h => Or.inl h, h, fun _ _ _ _ _ h => h, fun h => h⟩

theorem Part.trans {cs : List Carried} {T : Nat → Chan.Target} {s t u : Whole.State} (a : Part cs T s t) (b : Part cs T t u) :
    Part cs T s u := by
  refine ⟨b.dead.trans a.dead, b.cdead.trans a.cdead, b.n.trans a.n, b.index.trans a.index, b.handler.trans a.handler,
    b.nx.trans a.nx, ?_, ?_, Nat.le_trans a.cn b.cn, ?_, fun p q h => a.waits p q (b.waits p q h),
    fun p q h => a.blocked p q (b.blocked p q h), ?_, fun k q h => b.served k q (a.served k q h), ?_, b.fresh, ?_, fun h => b.apt (a.apt h)⟩
  · intro k
    obtain ⟨a1, a2, a3⟩ := a.exec k
    obtain ⟨b1, b2, b3⟩ := b.exec k
    exact ⟨b1.trans a1, b2.trans a2, b3.trans a3⟩
  · intro i
    rcases b.phase i with e | e
    · rw [e]; exact a.phase i
    · exact Or.inr e
  · intro q hq
    rw [b.req q (Nat.lt_of_lt_of_le hq a.cn), a.req q hq]
  · intro p i h
    rcases a.unblocked p i h with h | ⟨r, h⟩
    · exact b.unblocked p i h
    · rcases b.phase i with e | e
      · exact Or.inr ⟨r, by rw [e, h]⟩
      · exact Or.inr e
  · intro k q h
    rcases b.invoked k q h with h | h
    · exact a.invoked k q h
    · exact Or.inr (Nat.le_trans a.cn h)
  · intro p q hp hb hc h0
    have hp' := Nat.lt_of_lt_of_le hp a.cn
    refine b.hold p q hp' hb (by rw [hc, a.req p hp]) ?_
    by_cases hq : q < t.chan.n
    · refine a.hold p q hp ?_ (by rw [← b.req q hq]; exact hc) h0
      rcases hb with hb | hb
      · left
        cases e : u.chan.waits p with
        | none => exact absurd e hb
        | some x => rw [b.waits p x e]; simp
      · right
        cases e : u.blocked p with
        | none => exact absurd e hb
        | some x => rw [b.blocked p x e]; simp
    · exact a.fresh q (Nat.le_of_not_lt hq)

section
variable (C : Nat → List Carried) (T : Nat → Nat → Chan.Target)

/-- What stays as it is in the system. -/
structure Frame (S S' : World.State) : Prop where
  down : S'.sys.down = S.sys.down
  owner : S'.sys.owner = S.sys.owner
  queue : S'.sys.queue = S.sys.queue
  part : ∀ d, Part (C d) (T d) (S.at d) (S'.at d)
  over : ∀ d' k, ((S.sys.dock d').exec k).phase ≠ .over → ((S'.sys.dock d').exec k).phase = .over → ∀ d i,
    S.sys.owner (other ((S.sys.dock d').exec k).peer) = some (.dock d) → i < (S.sys.dock d).n →
    (S.sys.dock d).index i = ((S.sys.dock d').exec k).index → ∃ r, (S'.sys.dock d).phase i = .returned r

end

section
variable {C : Nat → List Carried} {T : Nat → Nat → Chan.Target} {H R : Nat → Str} {black : List Int}

theorem Frame.trans {S S' S'' : World.State} (a : Frame C T S S') (b : Frame C T S' S'') : Frame C T S S'' := by
  refine ⟨b.down.trans a.down, b.owner.trans a.owner, b.queue.trans a.queue, fun d => (a.part d).trans (b.part d), ?_⟩
  intro d' k h1 h2 d i h3 h4 h5
  have n1 : (S'.sys.dock d).n = (S.sys.dock d).n := (a.part d).n
  have i1 : (S'.sys.dock d).index = (S.sys.dock d).index := (a.part d).index
  have e1 : ((S'.sys.dock d').exec k).peer = ((S.sys.dock d').exec k).peer := ((a.part d').exec k).1
  have e2 : ((S'.sys.dock d').exec k).index = ((S.sys.dock d').exec k).index := ((a.part d').exec k).2.1
  by_cases h : ((S'.sys.dock d').exec k).phase = .over
  · obtain ⟨r, hr⟩ := a.over d' k h1 h d i h3 h4 h5
    rcases (b.part d).phase i with e | e
    · have e' : (S''.sys.dock d).phase i = (S'.sys.dock d).phase i := e
      exact ⟨r, by rw [e', hr]⟩
    · exact e
  · exact b.over d' k h h2 d i (by rw [a.owner, e1]; exact h3) (by rw [n1]; exact h4) (by rw [i1, e2]; exact h5)

/-- The actions that complete calls. -/
def benign : World.Act → Bool
  | .sys (.deliver _) => true
  | .dock _ (.chan _) => true
  | .dock _ (.invoke _) => true
  | .dock _ (.finish _) => true
  | .dock _ (.respond _) => true
  | .dock _ (.returns _) => true
  | .dock _ (.dock (.callback _)) => true
  | .dock _ (.dock (.receive _)) => true
  | .dock _ (.dock (.delete _)) => true
  | _ => false

variable (C T H R black)

/-- `S'` can be reached from `S` by completing calls. -/
def Advances (S S' : World.State) : Prop :=
  ∃ more, (∀ a ∈ more, benign a = true) ∧ run (World.State.step C T H R black) S more = some S' ∧ Frame C T S S'

/-- `S` is reachable. -/
def Reach (S : World.State) : Prop := ∃ as, run (World.State.step C T H R black) (World.State.init T) as = some S

variable {C T H R black}

theorem Advances.trans {S S' S'' : World.State} (a : Advances C T H R black S S') (b : Advances C T H R black S' S'') :
    Advances C T H R black S S'' := by
  obtain ⟨as, a1, a2, a3⟩ := a
  obtain ⟨bs, b1, b2, b3⟩ := b
  refine ⟨as ++ bs, ?_, by rw [run_append, a2]; exact b2, a3.trans b3⟩
  intro x hx
  rcases List.mem_append.mp hx with hx | hx
  · exact a1 x hx
  · exact b1 x hx

theorem Advances.reach {S S' : World.State} (a : Advances C T H R black S S') (h : Reach C T H R black S) : Reach C T H R black S' := by
  obtain ⟨as, -, a2, -⟩ := a
  obtain ⟨bs, h⟩ := h
  exact ⟨bs ++ as, by rw [run_append, h]; exact a2⟩

/-- What holds at each dock of a reachable state. -/
theorem Reach.facts {S : World.State} (h : Reach C T H R black S) (d : Nat) :
    (∃ ws, run (Whole.State.step (C d) (T d)) (Whole.State.init (T d)) ws = some (S.at d)) ∧ AllInv (S.at d).chan ∧
    TimerInv (S.at d).chan ∧ BlockInv (S.at d) ∧ Whole.Inv (C d) (S.at d) := by
  obtain ⟨as, h⟩ := h
  obtain ⟨ws, hws⟩ := (World.inv_run h).whole d
  obtain ⟨-, us, hu, un⟩ := Whole.chan_run _ _ ws _ hws
  exact ⟨⟨ws, hws⟩, allInv_run _ un hu, timerInv_run _ hu, blockInv_run _ _ ws _ hws, Whole.inv_run _ _ ws _ hws⟩

theorem Reach.fresh {S : World.State} (h : Reach C T H R black S) (d : Nat) :
    ∀ q, (S.at d).chan.n ≤ q → (S.at d).chan.startedAt q = none :=
  fun q hq => ((h.facts d).2.1.ans.fresh q hq).2.2.2.2.2.1

/-- The processes of dock `d` are alive. -/
def Alive (S : World.State) (d : Nat) : Prop :=
  S.sys.down (.dock d) = false ∧ (S.sys.dock d).dead = false ∧ (S.rest d).chan.dead = false

theorem Frame.alive {S S' : World.State} (a : Frame C T S S') {d : Nat} (h : Alive S d) : Alive S' d := by
  obtain ⟨h1, h2, h3⟩ := h
  exact ⟨by rw [a.down]; exact h1, (a.part d).dead.trans h2, (a.part d).cdead.trans h3⟩

/-- A step of a dock that sends nothing. -/
theorem solo_step {S : World.State} {d : Nat} {a : Whole.Act} {w : Whole.State} (hd : S.sys.down (.dock d) = false)
    (hb : benign (.dock d a) = true) (hs : (S.at d).step (C d) (T d) a = some w) (hc : w.chan.dead = false)
    (hl : ∃ l, w.dock.log = (S.at d).dock.log ++ l ∧ ∀ e, dockSent e l = []) :
    ∃ S', S.step C T H R black (.dock d a) = some S' ∧ S'.at d = w ∧ (∀ x, x ≠ d → S'.at x = S.at x) ∧
      S'.sys.down = S.sys.down ∧ S'.sys.owner = S.sys.owner ∧ S'.sys.queue = S.sys.queue := by
  have al : World.alone a = true := by
    cases a with
    | dock b => cases b <;> first | rfl | cases hb
    | _ => rfl
  refine ⟨S.put d w, ?_, World.at_put S d w, fun x hx => World.at_put_other S w hx, ?_, rfl, ?_⟩
  · simp only [World.State.step]
    rw [if_pos ⟨hd, al⟩, hs]
    rfl
  · simp [World.State.put, hc]
  · obtain ⟨l, h1, h2⟩ := hl
    have h1' : w.dock.log = (S.sys.dock d).log ++ l := h1
    funext e
    have := queue_setDock (S := S.sys) (d := d) (s := w.dock) h1' e
    show (S.sys.setDock d w.dock).queue e = _
    rw [this, h2]
    simp

theorem move_solo {S : World.State} (hS : Reach C T H R black S) {d : Nat} {a : Whole.Act} {w : Whole.State}
    (ha : Alive S d) (hb : benign (.dock d a) = true) (hs : (S.at d).step (C d) (T d) a = some w)
    (hl : ∃ l, w.dock.log = (S.at d).dock.log ++ l ∧ ∀ e, dockSent e l = []) (hp : Part (C d) (T d) (S.at d) w)
    (ho : ∀ k, (w.dock.exec k).phase = .over → ((S.at d).dock.exec k).phase = .over) :
    ∃ S', Advances C T H R black S S' ∧ S'.at d = w ∧ (∀ x, x ≠ d → S'.at x = S.at x) := by
  obtain ⟨S', h1, h2, h3, h4, h5, h6⟩ := solo_step (H := H) (R := R) (black := black) ha.1 hb hs (hp.cdead.trans ha.2.2) hl
  refine ⟨S', ⟨[.dock d a], by simpa using hb, by simp [run, h1], ⟨h4, h5, h6, ?_, ?_⟩⟩, h2, h3⟩
  · intro x
    by_cases e : x = d
    · subst e; rw [h2]; exact hp
    · rw [h3 x e]; exact Part.refl (hS.fresh x)
  · intro d' k g1 g2
    exfalso
    have g2' : ((S'.at d').dock.exec k).phase = .over := g2
    by_cases e : d' = d
    · subst e
      rw [h2] at g2'
      exact g1 (ho k g2')
    · rw [h3 d' e] at g2'
      exact g1 g2'

/-- Steps within package chancall. -/
theorem part_chan {cs : List Carried} {T : Nat → Chan.Target} {s : Whole.State} {e : Chan.State} {a : Chan.Act} (A : AllInv s.chan)
    (Ti : TimerInv s.chan) (Bl : BlockInv s) (ha : Whole.tiedC a = false) (hs : s.chan.step T a = some e)
    (hd : e.dead = s.chan.dead) : Part cs T s { s with chan := e } := by
  have nc : ∀ callee caller meth args parent, a ≠ .call callee caller meth args parent := by
    rintro _ _ _ _ _ rfl; cases ha
  obtain ⟨k1, k2, k3, k4, k5⟩ := keeps_step nc hs
  have A' := allInv_step T _ a e (fun _ _ _ _ _ e => absurd e (nc _ _ _ _ _)) A hs
  refine ⟨rfl, hd, rfl, rfl, rfl, rfl, fun _ => ⟨rfl, rfl, rfl⟩, fun _ => Or.inl rfl, Nat.le_of_eq k1.symm, fun q _ => by rw [k2],
    k3, fun _ _ h => h, fun _ _ h => Or.inl h, fun _ _ h => h, fun _ _ h => Or.inl h, fun q hq => (A'.ans.fresh q hq).2.2.2.2.2.1, ?_, ?_⟩
  · intro p q _ hb hc h0
    refine Classical.byContradiction fun h1 => ?_
    have hi := started_step A.ans hs q h0 h1
    have hr : s.chan.handler (s.chan.req p).callee = .running p := by
      rcases hb with hb | hb
      · cases ew : e.waits p with
        | none => exact absurd ew hb
        | some x => exact A.live.waiting x p (k3 p x ew)
      · cases ew : s.blocked p with
        | none => exact absurd ew hb
        | some x => exact (Bl p x ew).1
    have hc' : (e.req q).callee = (s.chan.req p).callee := hc
    rw [hc', hr] at hi
    cases hi
  · rintro ⟨g1, g2⟩
    refine ⟨?_, g2⟩
    intro i hi h0
    have hi' : i < s.chan.n := by rw [← k1]; exact hi
    have h0' : s.chan.startedAt i = none := Classical.byContradiction fun h => k4 i h h0
    show (T (e.req i).callee).invoke (e.req i).meth (e.req i).args ≠ .panics
    rw [k2]
    exact g1 i hi' h0'

theorem move_chan {d : Nat} : ∀ (more : List Chan.Act) (S : World.State), Reach C T H R black S → Alive S d →
    (∀ a ∈ more, Whole.tiedC a = false) → ∀ e : Chan.State, e.dead = false →
    run (Whole.State.step (C d) (T d)) (S.at d) (more.map .chan) = some { S.at d with chan := e } →
    ∃ S', (S' = S ∨ Advances C T H R black S S') ∧ S'.at d = { S.at d with chan := e } ∧ ∀ x, x ≠ d → S'.at x = S.at x := by
  intro more
  induction more with
  | nil =>
    intro S _ _ _ e _ h
    have h : S.at d = { S.at d with chan := e } := by simpa [run] using h
    exact ⟨S, Or.inl rfl, h, fun _ _ => rfl⟩
  | cons a more ih =>
    intro S hS hA ht e he h
    rw [List.map_cons] at h
    obtain ⟨u, hu, h⟩ := run_split h
    obtain ⟨-, A, Ti, Bl, -⟩ := hS.facts d
    have hta := ht a (List.mem_cons_self ..)
    have hc : ∃ e1, (S.at d).chan.step (T d) a = some e1 ∧ u = { S.at d with chan := e1 } := by
      unfold Whole.State.step at hu
      split at hu
      · cases hu
      · simp only [hta] at hu
        cases a
        all_goals simp only [Bool.false_eq_true, if_false] at hu
        all_goals first
          | (obtain ⟨x, hx, rfl⟩ := Option.map_eq_some_iff.mp hu; exact ⟨x, hx, rfl⟩)
          | (split at hu
             · cases hu
             · obtain ⟨x, hx, rfl⟩ := Option.map_eq_some_iff.mp hu; exact ⟨x, hx, rfl⟩)
    obtain ⟨e1, h1, rfl⟩ := hc
    have hd1 : e1.dead = false := by
      cases hx : e1.dead with
      | false => rfl
      | true =>
        cases more with
        | nil =>
          simp only [List.map_nil, run, Option.some.injEq] at h
          have : e1 = e := congrArg Whole.State.chan h
          rw [this, he] at hx
          cases hx
        | cons b more =>
          rw [List.map_cons] at h
          obtain ⟨v, hv, -⟩ := run_split h
          simp [Whole.State.step, hx] at hv
    have hp : Part (C d) (T d) (S.at d) { S.at d with chan := e1 } := part_chan A Ti Bl hta h1 (hd1.trans hA.2.2.symm)
    obtain ⟨S1, m1, m2, m3⟩ := move_solo hS hA rfl hu ⟨[], by simp, fun _ => rfl⟩ hp fun _ h => h
    obtain ⟨as, b1, b2, fr⟩ := m1
    have hS1 : Reach C T H R black S1 := Advances.reach ⟨as, b1, b2, fr⟩ hS
    obtain ⟨S2, n1, n2, n3⟩ := ih S1 hS1 (fr.alive hA) (fun b hb => ht b (List.mem_cons_of_mem _ hb)) e he (by rw [m2]; exact h)
    refine ⟨S2, Or.inr ?_, by rw [n2, m2], fun x hx => (n3 x hx).trans (m3 x hx)⟩
    rcases n1 with rfl | n1
    · exact ⟨as, b1, b2, fr⟩
    · exact Advances.trans ⟨as, b1, b2, fr⟩ n1

theorem Advances.refl {S : World.State} (hS : Reach C T H R black S) : Advances C T H R black S S :=
  ⟨[], by simp, rfl, ⟨rfl, rfl, rfl, fun d => Part.refl (hS.fresh d), fun _ _ h1 h2 => absurd h2 h1⟩⟩

/-- Methods that wait for remote calls do not return on the way. -/
theorem move_goes {S : World.State} (hS : Reach C T H R black S) {d : Nat} (hA : Alive S d) {B : Nat → Prop}
    (hB : ∀ p, Abroad (S.at d) p → B p) {e : Chan.State} (F : Fine (T d) B (S.at d).chan) (g : Goes (T d) B (S.at d).chan e) :
    ∃ S', Advances C T H R black S S' ∧ S'.at d = { S.at d with chan := e } ∧ ∀ x, x ≠ d → S'.at x = S.at x := by
  have mono : ∀ {c e}, Goes (T d) B c e → Goes (T d) (Abroad (S.at d)) c e := by
    intro c e g
    induction g with
    | refl s => exact .refl s
    | step a ha hs _ ih => exact .step a ⟨ha.1, fun c res i h1 h2 h3 => ha.2 c res i h1 h2 (hB i h3)⟩ hs ih
  have F' : Fine (T d) (Abroad (S.at d)) (S.at d).chan := ⟨F.inv, F.tim, F.alive, F.panics, fun i hi => F.begun i (hB i hi)⟩
  obtain ⟨more, h1, h2⟩ := goes_whole (cs := C d) (s := S.at d) hA.2.1 (mono g) F'
  obtain ⟨S', h3, h4, h5⟩ := move_chan more S hS hA h1 e (g.fine F).alive h2
  refine ⟨S', ?_, h4, h5⟩
  rcases h3 with rfl | h3
  · exact Advances.refl hS
  · exact h3

end

end Verif.Props
