import Verif.Fair
import Verif.Text

/-!
# Both ends of a mock connection, /repo/network/mock.go:151-173

Any number of goroutines call `Write` and `Close` of the two ends, which are `false` and `true`.  Line 161 tests the field
`peer` and line 162 reads it again, so these are separate steps.  Simplified: the contents of a slice are fixed when `Write`
is called; the bytes that do not fit the buffer of a `Read` are the subject of `Verif.Net.Mock.Pipe`.
-/

namespace Verif.Net.Pair

open Verif

/-- A goroutine that uses the connection, /repo/network/mock.go:160-173.  The slice is `none` in the `Write(nil)` of
`Close`. -/
inductive Pc where
  /-- not in `Write` or `Close` -/
  | idle
  /-- between lines 161 and 162 of `Write` -/
  | tested (e : Bool) (b : Option (List Byte))
  /-- in the send of line 162, on the channel of the other end -/
  | waiting (e : Bool) (b : Option (List Byte))
  /-- in `Close` between lines 170 and 171 -/
  | written (e : Bool)
  deriving DecidableEq

/-- The two ends, /repo/network/mock.go:143-149. -/
structure State where
  /-- `peer` of the end is not nil -/
  linked : Bool → Bool
  /-- `chanbuf` of the end, of capacity 1 -/
  chan : Bool → Option (Option (List Byte))
  /-- the goroutines -/
  pc : Nat → Pc
  /-- history: what has entered the channel of the end -/
  put : Bool → List (Option (List Byte))
  /-- history: what the `Read`s of the end have got; `none` where they returned an error -/
  taken : Bool → List (Option (List Byte))
  /-- line 162 has dereferenced nil, and the process has ended -/
  crashed : Bool

/-- After `Accept`, /repo/network/mock.go:103-116, both ends have a peer. -/
def State.init : State := ⟨fun _ => true, fun _ => none, fun _ => .idle, fun _ => [], fun _ => [], false⟩

/-- The steps, /repo/network/mock.go:151-173. -/
inductive Act where
  /-- `Write` is called; line 161 -/
  | write (g : Nat) (e : Bool) (b : List Byte)
  /-- `Close` is called; line 161 of its `Write(nil)` -/
  | close (g : Nat) (e : Bool)
  /-- line 162 reads `c.peer` -/
  | load (g : Nat)
  /-- the send of line 162 is done -/
  | enter (g : Nat)
  /-- line 171 -/
  | drop (g : Nat)
  /-- `Read`, line 152 -/
  | read (e : Bool)
  deriving DecidableEq

/-- One step; nothing happens after a crash.  /repo/network/mock.go:151-173. -/
def State.step (s : State) (a : Act) : Option State :=
  if s.crashed then none else
  match a with
  | .write g e b =>
    if s.pc g = .idle then
      some (if s.linked e then { s with pc := upd s.pc g (.tested e (some b)) } else s)   -- lines 164-166
    else none
  | .close g e =>
    if s.pc g = .idle then some { s with pc := upd s.pc g (if s.linked e then .tested e none else .written e) } else none
  | .load g =>
    match s.pc g with
    | .tested e b => some (if s.linked e then { s with pc := upd s.pc g (.waiting e b) } else { s with crashed := true })
    | _ => none
  | .enter g =>
    match s.pc g with
    | .waiting e b =>
      if s.chan (!e) = none then
        some { s with
          chan := upd s.chan (!e) (some b)
          put := upd s.put (!e) (s.put (!e) ++ [b])
          pc := upd s.pc g (if b = none then .written e else .idle) }
      else none
    | _ => none
  | .drop g =>
    match s.pc g with
    | .written e => some { s with linked := upd s.linked e false, pc := upd s.pc g .idle }
    | _ => none
  | .read e =>
    match s.chan e with
    | some b => some { s with chan := upd s.chan e none, taken := upd s.taken e (s.taken e ++ [b]) }
    | none => none

/-- The goroutine is in `Close` of the end, /repo/network/mock.go:169-173. -/
def Closing (s : State) (g : Nat) (e : Bool) : Prop :=
  s.pc g = .tested e none ∨ s.pc g = .waiting e none ∨ s.pc g = .written e

/-! ## Fairness -/

/-- The steps of a goroutine that do not depend on others: lines 162, as far as the field is read, and 171.
/repo/network/mock.go:162,171 -/
def Goes (g : Nat) (_ : State) (a : Act) : Prop := a = .load g ∨ a = .drop g

/-- The send of line 162.  /repo/network/mock.go:162 -/
def Enters (g : Nat) (_ : State) (a : Act) : Prop := a = .enter g

/-- Reads of an end that go on until one returns an error, as the receive routine does, /repo/network/peer.go:80-86. -/
def Reads (e : Bool) (s : State) (a : Act) : Prop := a = .read e ∧ none ∉ s.taken e

/-- An execution in which goroutines go on if they can, one that waits for room and finds some again and again gets in, and
what arrives at the end `e` is read until a read fails.  /repo/network/mock.go:151-173. -/
structure Fair (e : Bool) (T : Trace State.step) : Prop where
  init : T.st 0 = .init
  weak : T.WeaklyFair fun K => (∃ g, K = Goes g) ∨ K = Reads e
  strong : T.StronglyFair fun K => ∃ g, K = Enters g

/-! ## Steps -/

/-- The goroutine that takes a step other than a read.  /repo/network/mock.go:160-173 -/
def Act.by : Act → Option Nat
  | .write g _ _ => some g
  | .close g _ => some g
  | .load g => some g
  | .enter g => some g
  | .drop g => some g
  | .read _ => none

/-- Others do not move a goroutine. -/
theorem pc_other {s t : State} {a : Act} {g : Nat} (h : s.step a = some t) (ha : a.by ≠ some g) : t.pc g = s.pc g := by
  have hne : ∀ g', a.by = some g' → g ≠ g' := fun g' h1 h2 => ha (h2 ▸ h1)
  cases a <;> simp only [State.step] at h <;> repeat' split at h
  all_goals first
    | (cases h; done)
    | (cases h; first | rfl | exact upd_other _ _ (hne _ rfl))

/-- A field `peer` that is nil stays nil. -/
theorem unlinked_step {s t : State} {a : Act} {e : Bool} (hl : s.linked e = false) (h : s.step a = some t) :
    t.linked e = false := by
  cases a <;> simp only [State.step] at h <;> repeat' split at h
  all_goals first
    | (cases h; done)
    | (cases h; exact hl)
    | (cases h; simp only [upd]; split <;> first | rfl | exact hl)

/-- What entered a channel and was not taken out is in it, and a closed end has told the other. -/
structure Inv (s : State) : Prop where
  put : ∀ x, s.put x = s.taken x ++ (s.chan x).toList
  unlinked : ∀ e, s.linked e = false → none ∈ s.put (!e)
  written : ∀ h e, s.pc h = .written e → none ∈ s.put (!e)

theorem inv_init : Inv .init := ⟨fun _ => rfl, fun _ h => (nomatch h), fun _ _ h => nomatch h⟩

theorem inv_step {s t : State} {a : Act} (I : Inv s) (h : s.step a = some t) : Inv t := by
  unfold State.step at h
  split at h
  · cases h
  cases a with
  | write g e b =>
    simp only at h
    split at h
    · split at h
      · cases h
        refine ⟨I.put, I.unlinked, fun k e' hk => ?_⟩
        simp only [upd] at hk
        split at hk
        · cases hk
        · exact I.written k e' hk
      · cases h; exact I
    · cases h
  | close g e =>
    simp only at h
    split at h
    · cases h
      refine ⟨I.put, I.unlinked, fun k e' hk => ?_⟩
      simp only [upd] at hk
      split at hk
      · split at hk
        · cases hk
        · rename_i hl
          cases hk
          exact I.unlinked e (by simpa using hl)
      · exact I.written k e' hk
    · cases h
  | load g =>
    simp only at h
    split at h
    · split at h
      · cases h
        refine ⟨I.put, I.unlinked, fun k e' hk => ?_⟩
        simp only [upd] at hk
        split at hk
        · cases hk
        · exact I.written k e' hk
      · cases h; exact ⟨I.put, I.unlinked, I.written⟩
    · cases h
  | enter g =>
    simp only at h
    split at h
    · rename_i e b hp
      split at h
      · rename_i hc
        cases h
        refine ⟨fun x => ?_, fun e' hl => ?_, fun k e' hk => ?_⟩
        · simp only [upd]
          split
          · rename_i hx
            subst hx
            rw [I.put, hc]
            simp
          · exact I.put x
        · simp only [upd]
          split
          · rename_i hx
            rw [← hx]
            exact List.mem_append_left _ (I.unlinked e' hl)
          · exact I.unlinked e' hl
        · simp only [upd] at hk ⊢
          split at hk
          · split at hk
            · rename_i hb
              cases hk
              simp [hb]
            · cases hk
          · split
            · rename_i hx
              rw [← hx]
              exact List.mem_append_left _ (I.written k e' hk)
            · exact I.written k e' hk
      · cases h
    · cases h
  | drop g =>
    simp only at h
    split at h
    · rename_i e hp
      cases h
      refine ⟨I.put, fun e' hl => ?_, fun k e' hk => ?_⟩
      · simp only [upd] at hl
        split at hl
        · rename_i he
          subst he
          exact I.written g e' hp
        · exact I.unlinked e' hl
      · simp only [upd] at hk
        split at hk
        · cases hk
        · exact I.written k e' hk
    · cases h
  | read e =>
    simp only at h
    split at h
    · rename_i b hc
      cases h
      refine ⟨fun x => ?_, I.unlinked, I.written⟩
      simp only [upd]
      split
      · rename_i hx
        subst hx
        rw [I.put, hc]
        simp
      · exact I.put x
    · cases h

/-- Only `g` closes the end `e`; as long as it has not, nothing tells the other end. -/
structure Sole (g : Nat) (e : Bool) (s : State) : Prop where
  sole : ∀ h, Closing s h e → h = g
  linked : ∀ b, s.pc g = .waiting e b → s.linked e = true
  quiet : s.linked e = true → s.pc g ≠ .written e → none ∉ s.put (!e)

theorem sole_init (g : Nat) (e : Bool) : Sole g e .init :=
  ⟨fun _ h => (by rcases h with h | h | h <;> cases h), fun _ h => (nomatch h), fun _ _ h => nomatch h⟩

theorem sole_step {g : Nat} {e : Bool} {s t : State} {a : Act} (I : Sole g e s) (ha : ∀ k, a = .close k e → k = g)
    (h : s.step a = some t) : Sole g e t := by
  unfold State.step at h
  split at h
  · cases h
  cases a with
  | write k e' b =>
    simp only at h
    split at h
    · rename_i hi
      split at h
      · cases h
        refine ⟨fun j hj => ?_, fun b' hw => ?_, fun hl hw => ?_⟩
        · simp only [Closing, upd] at hj
          split at hj
          · rcases hj with hj | hj | hj <;> cases hj
          · exact I.sole j hj
        · simp only [upd] at hw
          split at hw
          · cases hw
          · exact I.linked b' hw
        · refine I.quiet hl fun hp => hw ?_
          simp only [upd]
          split
          · rename_i hgk
            rw [hgk, hi] at hp
            cases hp
          · exact hp
      · cases h; exact I
    · cases h
  | close k e' =>
    simp only at h
    split at h
    · rename_i hi
      cases h
      refine ⟨fun j hj => ?_, fun b' hw => ?_, fun hl hw => ?_⟩
      · simp only [Closing, upd] at hj
        split at hj
        · rename_i hjk
          rw [hjk]
          refine ha k ?_
          split at hj
          · rcases hj with hj | hj | hj <;> cases hj
            rfl
          · rcases hj with hj | hj | hj <;> cases hj
            rfl
        · exact I.sole j hj
      · simp only [upd] at hw
        split at hw
        · split at hw <;> cases hw
        · exact I.linked b' hw
      · refine I.quiet hl fun hp => hw ?_
        simp only [upd]
        split
        · rename_i hgk
          rw [hgk, hi] at hp
          cases hp
        · exact hp
    · cases h
  | load k =>
    simp only at h
    split at h
    · rename_i e' b hp
      split at h
      · rename_i hl
        cases h
        refine ⟨fun j hj => ?_, fun b' hw => ?_, fun hl hw => ?_⟩
        · simp only [Closing, upd] at hj
          split at hj
          · rename_i hjk
            refine I.sole j ?_
            rcases hj with hj | hj | hj <;> cases hj
            exact .inl (hjk ▸ hp)
          · exact I.sole j hj
        · simp only [upd] at hw
          split at hw
          · cases hw; exact hl
          · exact I.linked b' hw
        · refine I.quiet hl fun hp' => hw ?_
          simp only [upd]
          split
          · rename_i hgk
            rw [hgk, hp] at hp'
            cases hp'
          · exact hp'
      · cases h; exact ⟨I.sole, I.linked, I.quiet⟩
    · cases h
  | enter k =>
    simp only at h
    split at h
    · rename_i e' b hp
      split at h
      · rename_i hc
        cases h
        refine ⟨fun j hj => ?_, fun b' hw => ?_, fun hl hw => ?_⟩
        · simp only [Closing, upd] at hj
          split at hj
          · rename_i hjk
            refine I.sole j ?_
            split at hj
            · rename_i hb
              rcases hj with hj | hj | hj <;> cases hj
              exact .inr (.inl (by rw [hjk, hp, hb]))
            · rcases hj with hj | hj | hj <;> cases hj
          · exact I.sole j hj
        · simp only [upd] at hw
          split at hw
          · split at hw <;> cases hw
          · exact I.linked b' hw
        · simp only [upd] at hw ⊢
          have hq : none ∉ s.put (!e) := by
            refine I.quiet hl fun hp' => hw ?_
            split
            · rename_i hgk
              rw [hgk, hp] at hp'
              cases hp'
            · exact hp'
          split
          · rename_i hx
            have he : e = e' := by cases e <;> cases e' <;> simp_all
            subst he
            intro hm
            rcases List.mem_append.mp hm with hm | hm
            · exact hq hm
            · have hb : b = none := (List.mem_singleton.mp hm).symm
              have hg := I.sole k (.inr (.inl (by rw [hp, hb])))
              exact hw (by rw [if_pos hg.symm, if_pos hb])
          · exact hq
      · cases h
    · cases h
  | drop k =>
    simp only at h
    split at h
    · rename_i e' hp
      cases h
      refine ⟨fun j hj => ?_, fun b' hw => ?_, fun hl hw => ?_⟩
      · simp only [Closing, upd] at hj
        split at hj
        · rcases hj with hj | hj | hj <;> cases hj
        · exact I.sole j hj
      · simp only [upd] at hw ⊢
        split at hw
        · cases hw
        · rename_i hgk
          split
          · rename_i he
            exact absurd (I.sole k (.inr (.inr (he ▸ hp)))).symm hgk
          · exact I.linked b' hw
      · simp only [upd] at hl
        split at hl
        · cases hl
        · rename_i he
          refine I.quiet hl fun hp' => hw ?_
          simp only [upd]
          split
          · rename_i hgk
            rw [hgk, hp] at hp'
            cases hp'
            exact absurd rfl he
          · exact hp'
    · cases h
  | read e' =>
    simp only at h
    split at h
    · cases h
      exact ⟨I.sole, I.linked, I.quiet⟩
    · cases h

/-! ## Crashes -/

/-- Somebody executes line 171 of `Close` while another goroutine is between lines 161 and 162 of a `Write` of that end, and
that goroutine then goes on.  /repo/network/mock.go:160-173 -/
def Overlap (acts : List Act) (t : State) (pre : List Act) (g h : Nat) (e : Bool) (b : Option (List Byte)) : Prop :=
  run State.step .init pre = some t ∧ t.pc g = .written e ∧ t.pc h = .tested e b ∧
    ∃ mid, acts = pre ++ .drop g :: (mid ++ [.load h]) ∧ ∀ a ∈ mid, a.by ≠ some h

private theorem alive {s t : State} {a : Act} (h : s.step a = some t) : s.crashed = false := by
  unfold State.step at h
  split at h
  · cases h
  · rename_i hc; simpa using hc

private theorem before : ∀ {n : Nat} {acts : List Act} {u : State} {h : Nat} {e : Bool} {b : Option (List Byte)},
    acts.length = n → run State.step .init acts = some u → u.crashed = false → u.pc h = .tested e b →
    u.linked e = false → ∃ t pre g mid, run State.step .init pre = some t ∧ t.pc g = .written e ∧ t.pc h = .tested e b ∧
      acts = pre ++ .drop g :: mid ∧ ∀ a ∈ mid, a.by ≠ some h := by
  intro n
  induction n with
  | zero => intro acts u h e b hlen hr _ hp hl; cases List.length_eq_zero_iff.mp hlen; cases hr; cases hp
  | succ n ih =>
    intro acts u h e b hlen hr hn hp hl
    rcases List.eq_nil_or_concat acts with rfl | ⟨acts, a, rfl⟩
    · cases hlen
    rw [List.concat_eq_append] at hlen hr ⊢
    have hlen : acts.length = n := by simpa using hlen
    rw [run_append] at hr
    cases hs : run State.step .init acts with
    | none => rw [hs] at hr; cases hr
    | some s =>
      rw [hs] at hr
      simp only [Option.bind_some, run] at hr
      cases ha : s.step a with
      | none => rw [ha] at hr; cases hr
      | some u' =>
        rw [ha] at hr
        cases hr
        by_cases hby : a.by = some h
        · exfalso
          unfold State.step at ha
          split at ha
          · cases ha
          cases a <;> simp only at ha <;> repeat' split at ha
          all_goals first
            | (cases ha; done)
            | skip
          all_goals first
            | (cases hby; done)
            | (cases hby; have ha := Option.some.inj ha; subst ha; simp_all [upd])
        · have hp' := hp
          rw [pc_other ha hby] at hp'
          cases hl' : s.linked e with
          | false =>
            obtain ⟨t, pre, g, mid, h1, h2, h3, h4, h5⟩ := ih hlen hs (alive ha) hp' hl'
            refine ⟨t, pre, g, mid ++ [a], h1, h2, h3, by rw [h4]; simp, ?_⟩
            intro x hx
            rcases List.mem_append.mp hx with hx | hx
            · exact h5 x hx
            · rw [List.mem_singleton.mp hx]; exact hby
          | true =>
            have : ∃ g, a = .drop g ∧ s.pc g = .written e := by
              unfold State.step at ha
              split at ha
              · cases ha
              cases a <;> simp only at ha <;> repeat' split at ha
              all_goals first
                | (cases ha; done)
                | (have ha := Option.some.inj ha; subst ha; rw [hl'] at hl; cases hl; done)
                | skip
              rename_i g _ e' hg
              have ha := Option.some.inj ha
              subst ha
              simp only [upd] at hl
              split at hl
              · rename_i he; exact ⟨g, rfl, he ▸ hg⟩
              · rw [hl'] at hl; cases hl
            obtain ⟨g, rfl, hg⟩ := this
            exact ⟨s, acts, g, [], hs, hg, hp', rfl, fun x hx => by cases hx⟩

private theorem crash_step {s t : State} {a : Act} (h : s.step a = some t) (hc : t.crashed = true) :
    ∃ g e b, a = .load g ∧ s.pc g = .tested e b ∧ s.linked e = false := by
  unfold State.step at h
  split at h
  · cases h
  rename_i hn
  cases a <;> simp only at h <;> repeat' split at h
  all_goals first
    | (cases h; done)
    | (have h := Option.some.inj h; subst h; exact absurd hc hn)
    | skip
  rename_i g _ e b hp hl
  exact ⟨g, e, b, rfl, hp, by simpa using hl⟩

private theorem between {h : Nat} {e : Bool} {b : Option (List Byte)} : ∀ (mid : List Act) (s u : State),
    (∀ a ∈ mid, a.by ≠ some h) → run State.step s mid = some u → s.pc h = .tested e b → s.linked e = false →
      u.pc h = .tested e b ∧ u.linked e = false := by
  intro mid
  induction mid with
  | nil => intro s u _ hr hp hl; cases hr; exact ⟨hp, hl⟩
  | cons a mid ih =>
    intro s u hby hr hp hl
    simp only [run] at hr
    split at hr
    · cases hr
    · rename_i v hv
      exact ih v u (fun x hx => hby x (List.mem_cons_of_mem _ hx)) hr
        (by rw [pc_other hv (hby a List.mem_cons_self)]; exact hp) (unlinked_step hl hv)

/-- When the process crashes. -/
theorem crash_iff {acts : List Act} {s : State} (hr : run State.step .init acts = some s) :
    s.crashed = true ↔ ∃ t pre g h e b, Overlap acts t pre g h e b := by
  constructor
  · intro hc
    rcases List.eq_nil_or_concat acts with rfl | ⟨acts', a, rfl⟩
    · cases hr; cases hc
    · rw [List.concat_eq_append] at hr ⊢
      rw [run_append] at hr
      cases hs : run State.step .init acts' with
      | none => rw [hs] at hr; cases hr
      | some u =>
        rw [hs] at hr
        simp only [Option.bind_some, run] at hr
        cases ha : u.step a with
        | none => rw [ha] at hr; cases hr
        | some u' =>
          rw [ha] at hr
          cases hr
          obtain ⟨h, e, b, rfl, hp, hl⟩ := crash_step ha hc
          obtain ⟨t, pre, g, mid, h1, h2, h3, h4, h5⟩ := before rfl hs (alive ha) hp hl
          exact ⟨t, pre, g, h, e, b, h1, h2, h3, mid, by rw [h4]; simp, h5⟩
  · rintro ⟨t, pre, g, h, e, b, h1, h2, h3, mid, rfl, h5⟩
    rw [run_append, h1] at hr
    simp only [Option.bind_some, run] at hr
    split at hr
    · cases hr
    · rename_i v hv
      rw [run_append] at hr
      cases hm : run State.step v mid with
      | none => rw [hm] at hr; cases hr
      | some u =>
        rw [hm] at hr
        have hne : h ≠ g := fun hg => by rw [hg, h2] at h3; cases h3
        have hvp : v.pc h = .tested e b := by
          rw [pc_other hv (by simpa [Act.by] using fun h' => hne h'.symm)]; exact h3
        have hvl : v.linked e = false := by
          simp only [State.step, h2] at hv
          split at hv
          · cases hv
          · have hv := Option.some.inj hv
            rw [← hv]
            simp
        obtain ⟨hp, hl⟩ := between mid v u h5 hm hvp hvl
        simp only [Option.bind_some, run] at hr
        split at hr
        · cases hr
        · rename_i w hw
          cases hr
          simp only [State.step, hp, hl] at hw
          split at hw
          · cases hw
          · simp only [Bool.false_eq_true, if_false, Option.some.injEq] at hw
            rw [← hw]

/-! ## `Close` that waits -/

/-- A goroutine that waits for room goes on waiting as long as nobody reads. -/
theorem waits {g : Nat} {e : Bool} {b : Option (List Byte)} : ∀ (acts : List Act) (s t : State),
    (∀ a ∈ acts, a ≠ .read (!e)) → s.pc g = .waiting e b → s.chan (!e) ≠ none → run State.step s acts = some t →
      t.pc g = .waiting e b ∧ t.chan (!e) ≠ none := by
  intro acts
  induction acts with
  | nil => intro s t _ h1 h2 hr; cases hr; exact ⟨h1, h2⟩
  | cons a acts ih =>
    intro s t ha h1 h2 hr
    simp only [run] at hr
    split at hr
    · cases hr
    · rename_i v hv
      refine ih v t (fun x hx => ha x (List.mem_cons_of_mem _ hx)) ?_ ?_ hr
      · by_cases hby : a.by = some g
        · exfalso
          unfold State.step at hv
          split at hv
          · cases hv
          cases a <;> simp only at hv <;> cases hby
          all_goals (rw [h1] at hv; first | (cases hv; done) | skip)
          simp [h2] at hv
        · rw [pc_other hv hby]; exact h1
      · have hne := ha a List.mem_cons_self
        unfold State.step at hv
        split at hv
        · cases hv
        cases a <;> simp only at hv <;> repeat' split at hv
        all_goals first
          | (cases hv; done)
          | (have hv := Option.some.inj hv; subst hv; exact h2)
          | skip
        all_goals
          have hv := Option.some.inj hv
          subst hv
          simp only [upd]
          split
          · first
              | (simp; done)
              | (rename_i hx; exact absurd (by rw [hx]) hne)
          · exact h2

/-! ## `Close` that returns -/

section
variable {T : Trace State.step} {g : Nat} {e : Bool}

theorem Fair.inv (F : Fair (!e) T) (n : Nat) : Inv (T.st n) :=
  T.stays (P := Inv) (fun _ _ _ => inv_step) (n := 0) (by rw [F.init]; exact inv_init) n (Nat.zero_le _)

theorem Fair.sole (F : Fair (!e) T) (hs : ∀ n k, T.act n = some (.close k e) → k = g) (n : Nat) : Sole g e (T.st n) := by
  refine Trace.keep (P := fun m => Sole g e (T.st m)) (n := 0) (by rw [F.init]; exact sole_init g e) (fun m _ hp => ?_) n
    (Nat.zero_le _)
  cases ha : T.act m with
  | none => rw [T.none_step ha]; exact hp
  | some a => exact sole_step hp (fun k hk => hs m k (hk ▸ ha)) (T.some_step ha)

/-- Behind line 170 `Close` goes on to its end. -/
theorem Fair.drops (F : Fair (!e) T) {n : Nat} (hn : ∀ m, n ≤ m → (T.st m).crashed = false) (h : (T.st n).pc g = .written e) :
    ∃ m, n ≤ m ∧ (T.st m).pc g = .idle ∧ (T.st m).linked e = false := by
  obtain ⟨m, a, hm, hp, ha, hk⟩ := F.weak.taken (K := Goes g) (.inl ⟨g, rfl⟩) (P := fun m => (T.st m).pc g = .written e) h
    (fun m hm hp => ⟨.drop g, .inr rfl, by simp [State.step, hp, hn m hm]⟩)
    (fun m hm hp hno => by
      cases ha : T.act m with
      | none => rw [T.none_step ha]; exact hp
      | some a =>
        have ht := T.some_step ha
        have hna := hno a ha
        by_cases hby : a.by = some g
        · exfalso
          simp only [State.step, hn m hm] at ht
          cases a <;> cases hby <;> simp_all [Goes]
        · rw [pc_other ht hby]; exact hp)
  have ht := T.some_step ha
  refine ⟨m + 1, by omega, ?_⟩
  rcases hk with rfl | rfl
  · simp [State.step, hp] at ht
  · simp only [State.step, hp, hn m hm] at ht
    simp only [Bool.false_eq_true, if_false, Option.some.injEq] at ht
    rw [← ht]
    simp

/-- What is in the channel is read. -/
theorem Fair.reads (F : Fair (!e) T) {n : Nat} (hn : ∀ m, n ≤ m → (T.st m).crashed = false)
    (hq : ∀ m, n ≤ m → (T.st m).chan (!e) ≠ none → none ∉ (T.st m).taken (!e)) {x : Option (List Byte)}
    (h : (T.st n).chan (!e) = some x) : ∃ m, n ≤ m ∧ (T.st m).chan (!e) = none ∧ x ∈ (T.st m).taken (!e) := by
  obtain ⟨m, a, hm, hp, ha, hk⟩ := F.weak.taken (K := Reads (!e)) (.inr rfl) (P := fun m => (T.st m).chan (!e) = some x) h
    (fun m hm hp => ⟨.read (!e), ⟨rfl, hq m hm (by rw [hp]; simp)⟩, by simp [State.step, hp, hn m hm]⟩)
    (fun m hm hp hno => by
      cases ha : T.act m with
      | none => rw [T.none_step ha]; exact hp
      | some a =>
        have ht := T.some_step ha
        have hna := hno a ha
        have hq' := hq m hm (by rw [hp]; simp)
        simp only [State.step, hn m hm, Bool.false_eq_true, if_false] at ht
        cases a <;> simp only at ht <;> repeat' split at ht
        all_goals first
          | (cases ht; done)
          | (have ht := Option.some.inj ht; rw [← ht]; exact hp)
          | skip
        all_goals
          replace ht := Option.some.inj ht
          rw [← ht]
          simp only [upd]
          split
          · first
              | (rename_i hc hx; rw [← hx, hp] at hc; cases hc; done)
              | (rename_i hc _ hx; rw [← hx, hp] at hc; cases hc; done)
              | (rename_i hx; exact absurd ⟨by rw [hx], hq'⟩ hna)
          · exact hp)
  have ht := T.some_step ha
  refine ⟨m + 1, by omega, ?_⟩
  obtain ⟨rfl, _⟩ := hk
  simp only [State.step, hp, hn m hm, Bool.false_eq_true, if_false, Option.some.injEq] at ht
  rw [← ht]
  simp

/-- Before the other end has been told its reads go on. -/
theorem Fair.unread (F : Fair (!e) T) (hs : ∀ n k, T.act n = some (.close k e) → k = g) {m : Nat}
    (h : (T.st m).pc g = .waiting e none) : none ∉ (T.st m).taken (!e) := fun hm => by
  have S := F.sole hs m
  refine S.quiet (S.linked none h) (by rw [h]; simp) ?_
  rw [(F.inv m).put]
  exact List.mem_append_left _ hm

/-- A goroutine that waits in `Close` for room gets it. -/
theorem Fair.enters (F : Fair (!e) T) (hs : ∀ n k, T.act n = some (.close k e) → k = g) {n : Nat}
    (hn : ∀ m, n ≤ m → (T.st m).crashed = false) (h : (T.st n).pc g = .waiting e none) :
    ∃ m, n ≤ m ∧ (T.st m).pc g = .written e := by
  refine Classical.byContradiction fun hno => ?_
  have hall : ∀ m, n ≤ m → (T.st m).pc g = .waiting e none := by
    refine Trace.keep (P := fun m => (T.st m).pc g = .waiting e none) h fun m hm hp => ?_
    cases ha : T.act m with
    | none => rw [T.none_step ha]; exact hp
    | some a =>
      have ht := T.some_step ha
      by_cases hby : a.by = some g
      · have hno' : (T.st (m + 1)).pc g ≠ .written e := fun h => hno ⟨m + 1, by omega, h⟩
        exfalso
        simp only [State.step, hn m hm, Bool.false_eq_true, if_false] at ht
        cases a <;> cases hby <;> simp only [hp] at ht <;> first | (cases ht; done) | skip
        split at ht
        · have ht := Option.some.inj ht
          rw [← ht] at hno'
          simp at hno'
        · cases ht
      · rw [pc_other ht hby]; exact hp
  obtain ⟨m, a, hm, ha, hk⟩ := F.strong (Enters g) ⟨g, rfl⟩ n fun k hk => by
    have room : ∃ m, k ≤ m ∧ (T.st m).chan (!e) = none := by
      cases hc : (T.st k).chan (!e) with
      | none => exact ⟨k, Nat.le_refl _, hc⟩
      | some x =>
        obtain ⟨m, h1, h2, _⟩ := F.reads (n := k) (fun m hm => hn m (by omega))
          (fun m hm _ => F.unread hs (hall m (by omega))) hc
        exact ⟨m, h1, h2⟩
    obtain ⟨m, h1, h2⟩ := room
    exact ⟨m, .enter g, h1, rfl, by simp [State.step, hn m (by omega), hall m (by omega), h2]⟩
  have ht := T.some_step ha
  cases hk
  refine hno ⟨m + 1, by omega, ?_⟩
  simp only [State.step, hn m hm, hall m hm, Bool.false_eq_true, if_false] at ht
  split at ht
  · have ht := Option.some.inj ht
    rw [← ht]
    simp
  · cases ht

/-- `Close` returns. -/
theorem Fair.returns (F : Fair (!e) T) (hs : ∀ n k, T.act n = some (.close k e) → k = g) {n : Nat}
    (hn : ∀ m, n ≤ m → (T.st m).crashed = false) (h : Closing (T.st n) g e) :
    ∃ m, n ≤ m ∧ (T.st m).pc g = .idle ∧ (T.st m).linked e = false := by
  have w : ∀ n', n ≤ n' → (T.st n').pc g = .waiting e none → ∃ m, n' ≤ m ∧ (T.st m).pc g = .idle ∧ (T.st m).linked e = false := by
    intro n' hn' h'
    obtain ⟨m, h1, h2⟩ := F.enters hs (n := n') (fun m hm => hn m (by omega)) h'
    obtain ⟨m', h3, h4⟩ := F.drops (n := m) (fun m hm => hn m (by omega)) h2
    exact ⟨m', by omega, h4⟩
  rcases h with h | h | h
  · obtain ⟨m, a, hm, hp, ha, hk⟩ := F.weak.taken (K := Goes g) (.inl ⟨g, rfl⟩)
      (P := fun m => (T.st m).pc g = .tested e none) h
      (fun m hm hp => ⟨.load g, .inl rfl, by simp [State.step, hp, hn m hm]⟩)
      (fun m hm hp hno => by
        cases ha : T.act m with
        | none => rw [T.none_step ha]; exact hp
        | some a =>
          have ht := T.some_step ha
          have hna := hno a ha
          by_cases hby : a.by = some g
          · exfalso
            simp only [State.step, hn m hm] at ht
            cases a <;> cases hby <;> simp_all [Goes]
          · rw [pc_other ht hby]; exact hp)
    have ht := T.some_step ha
    rcases hk with rfl | rfl
    · have hc := hn (m + 1) (by omega)
      simp only [State.step, hp, hn m hm, Bool.false_eq_true, if_false, Option.some.injEq] at ht
      split at ht
      · obtain ⟨m', h1, h2⟩ := w (m + 1) (by omega) (by rw [← ht]; simp)
        exact ⟨m', by omega, h2⟩
      · rw [← ht] at hc; cases hc
    · simp [State.step, hp] at ht
  · exact w n (Nat.le_refl _) h
  · exact F.drops hn h

/-- After `Close` the reads of the other end fail. -/
theorem Fair.told (F : Fair (!e) T) {n : Nat} (hn : ∀ m, n ≤ m → (T.st m).crashed = false) (h : (T.st n).linked e = false) :
    ∃ m, n ≤ m ∧ none ∈ (T.st m).taken (!e) := by
  refine Classical.byContradiction fun hno => ?_
  have hm := (F.inv n).unlinked e h
  rw [(F.inv n).put, List.mem_append] at hm
  rcases hm with hm | hm
  · exact hno ⟨n, Nat.le_refl _, hm⟩
  · have hc : (T.st n).chan (!e) = some none := by simpa using hm
    obtain ⟨m, h1, _, h2⟩ := F.reads hn (fun m hm _ h => hno ⟨m, hm, h⟩) hc
    exact hno ⟨m, h1, h2⟩

end

end Verif.Net.Pair
