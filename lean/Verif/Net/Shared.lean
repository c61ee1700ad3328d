import Verif.Codec.Heap

/-!
# What is sent when the values passed to Send change, /repo/network/peer.go:54-74

`Send` puts a pointer into a channel; the send routine encodes what it points to later, while the goroutine that has called
`Send`, and all others, go on.  Modelled is one peer and the value in its packets that has references: the arguments of a request
(/repo/protocol.go:227) or the results of a response (/repo/protocol.go:316); the other fields are numbers and strings.
Simplified: a packet that `Send` drops because the channel is full is not passed to `Send` here; the connection does not fail;
reads and writes of single elements and of whole maps are atomic, so that a write to a map while it is read, which can also end
the process ("concurrent map iteration and map write"), only changes what is read.
-/

namespace Verif.Net.Shared

open Verif Verif.Codec Verif.Codec.Heap

/-- A peer and the memory of its process, /repo/network/peer.go:14-34. -/
structure State where
  mem : Mem
  /-- the values passed to `Send`, each with the memory at this time, which the code does not keep -/
  sends : List (RVal × Mem)
  /-- the encoder at work in the send routine, line 71 -/
  busy : Option Machine
  /-- what has been encoded and written to the connection, line 72 -/
  sent : List (List Byte)
  /-- the process has ended with `log.Fatal`, /repo/serializer.go:45 -/
  dead : Bool

/-- What goroutines do, /repo/network/peer.go:54-74. -/
inductive Act where
  /-- any goroutine changes an element of an array -/
  | write (c i : Nat) (r : RVal)
  /-- any goroutine changes a map -/
  | put (c : Nat) (es : List (Val × RVal))
  /-- `Send`, lines 54-60 -/
  | send (r : RVal)
  /-- the send routine, lines 66-72 -/
  | work

/-- No packets.  /repo/network/peer.go:19-33. -/
def State.init (h : Mem) : State := ⟨h, [], none, [], false⟩

/-- The assignment `a[i] = r`.  Not in the code: what the users of /repo/network/peer.go:54 may do. -/
def _root_.Verif.Codec.Heap.Mem.write (h : Mem) (c i : Nat) (r : RVal) : Mem :=
  { h with arrays := upd h.arrays c ((h.arrays c).set i r) }

/-- Assignments to and deletions from a map.  Not in the code: what the users of /repo/network/peer.go:54 may do. -/
def _root_.Verif.Codec.Heap.Mem.put (h : Mem) (c : Nat) (es : List (Val × RVal)) : Mem := { h with maps := upd h.maps c es }

/-- One step.  /repo/network/peer.go:54-74, /repo/serializer.go:32-60. -/
def State.step (s : State) (a : Act) : Option State :=
  if s.dead then none else
  match a with
  | .write c i r => if i < (s.mem.arrays c).length then some { s with mem := s.mem.write c i r } else none
  | .put c es => some { s with mem := s.mem.put c es }
  | .send r => some { s with sends := s.sends ++ [(r, s.mem)] }
  | .work =>
    match s.busy with
    | none => match s.sends[s.sent.length]? with
      | none => none
      | some (r, _) => some { s with busy := some (Machine.start r) }
    | some m => match m.next s.mem with
      | some m' => some { s with busy := some m' }
      | none => match m.err with
        | none => some { s with busy := none, sent := s.sent ++ [m.out] }
        | some _ => some { s with dead := true }

/-- The action does not change a part of a value that has been passed to `Send` and has not been sent. -/
def Calm (s : State) : Act → Prop
  | .write c i _ => ∀ p ∈ s.sends.drop s.sent.length, ¬ Has s.mem p.1 (.elem c i)
  | .put c _ => ∀ p ∈ s.sends.drop s.sent.length, ¬ Has s.mem p.1 (.map c)
  | _ => True

/-- In the execution no such part is changed. -/
def CalmRun (s0 : State) (acts : List Act) : Prop :=
  AllSteps State.step s0 acts Calm

/-- A packet is the encoding of the tree that the value was when it was passed to `Send`. -/
def Faithful (p : RVal × Mem) (bs : List Byte) : Prop :=
  ∃ v, Unfolds p.2 p.1 v ∧ encodeValue v = ⟨bs, none⟩

/-- What holds in calm executions. -/
structure Inv (s : State) : Prop where
  pending : ∀ p ∈ s.sends.drop s.sent.length, Agree p.2 s.mem p.1
  sent : ∀ (k : Nat) (bs : List Byte), s.sent[k]? = some bs → ∃ p, s.sends[k]? = some p ∧ Faithful p bs
  busy : ∀ m, s.busy = some m → ∃ p, s.sends[s.sent.length]? = some p ∧ Steps p.2 (Machine.start p.1) m

theorem inv_init (h : Mem) : Inv (State.init h) where
  pending := by intro p hp; cases hp
  sent := by intro k bs hk; cases hk
  busy := by intro m hm; cases hm

theorem same_write {h h' : Mem} {c i : Nat} {r v : RVal} (ha : Agree h h' r) (hn : ¬ Has h' r (.elem c i)) :
    Agree h (h'.write c i v) r := by
  intro x hx
  have hs := ha x hx
  have hx' := Agree.has hx ha
  cases x with
  | map c' => exact hs
  | elem c' i' =>
    show h.elem c' i' = _
    rw [show h.elem c' i' = h'.elem c' i' from hs]
    by_cases hc : c' = c
    · subst hc
      have hi : i ≠ i' := by
        rintro rfl
        exact hn hx'
      simp [Mem.elem, Mem.write, List.getElem?_set_ne hi]
    · simp [Mem.elem, Mem.write, upd_other _ _ hc]

theorem same_put {h h' : Mem} {c : Nat} {es : List (Val × RVal)} {r : RVal} (ha : Agree h h' r) (hn : ¬ Has h' r (.map c)) :
    Agree h (h'.put c es) r := by
  intro x hx
  have hs := ha x hx
  have hx' := Agree.has hx ha
  cases x with
  | elem c' i' => exact hs
  | map c' =>
    show h.maps c' = _
    rw [show h.maps c' = h'.maps c' from hs]
    have hc : c' ≠ c := by
      rintro rfl
      exact hn hx'
    simp [Mem.put, upd_other _ _ hc]

theorem agree_refl (h : Mem) (r : RVal) : Agree h h r := by
  intro x _
  cases x <;> rfl

theorem drop_get {α : Type} {l : List α} {n : Nat} {p : α} (h : l[n]? = some p) : p ∈ l.drop n :=
  List.mem_of_getElem? (i := 0) (by simpa using h)

/-- The encoder has ended without an error: it has written the encoding of a tree. -/
theorem faithful_of_steps {h : Mem} {r : RVal} {m : Machine} (hs : Steps h (Machine.start r) m) (hn : m.next h = none)
    (he : m.err = none) : Faithful (r, h) m.out := by
  obtain ⟨todo, out, err⟩ := m
  have ht := next_none hn he
  cases he
  cases ht
  have hg := (fine_of_steps hs ⟨rfl, rfl⟩).2 _ List.mem_cons_self
  obtain ⟨v, hv⟩ := unfolds_of_grounded hg
  have hd := does_val hv [] []
  cases he : (encodeValue v).err with
  | none =>
    rw [he] at hd
    have := Steps.unique hs hd hn rfl
    refine ⟨v, hv, ?_⟩
    cases hv' : encodeValue v with
    | mk b e =>
      rw [hv'] at he this
      simp only [List.nil_append, Machine.mk.injEq] at this
      cases he
      rw [this.2.1]
  | some x =>
    rw [he] at hd
    obtain ⟨k', hd⟩ := hd
    have := Steps.unique hs hd hn (by simp [Machine.next])
    cases this

theorem inv_step {s t : State} {a : Act} (I : Inv s) (hc : Calm s a) (h : s.step a = some t) : Inv t := by
  unfold State.step at h
  split at h
  · cases h
  cases a with
  | write c i r =>
    simp only at h
    split at h
    · cases h
      exact ⟨fun p hp => same_write (I.pending p hp) (hc p hp), I.sent, I.busy⟩
    · cases h
  | put c es =>
    cases h
    exact ⟨fun p hp => same_put (I.pending p hp) (hc p hp), I.sent, I.busy⟩
  | send r =>
    cases h
    refine ⟨fun p hp => ?_, fun k bs hk => ?_, fun m hm => ?_⟩
    · simp only at hp
      rw [List.drop_append] at hp
      rcases List.mem_append.mp hp with hp | hp
      · exact I.pending p hp
      · have := List.mem_of_mem_drop hp
        rw [List.mem_singleton] at this
        subst this
        exact agree_refl _ _
    · obtain ⟨p, hp, hf⟩ := I.sent k bs hk
      exact ⟨p, by rw [List.getElem?_append_left (List.getElem?_eq_some_iff.mp hp).1]; exact hp, hf⟩
    · obtain ⟨p, hp, hs⟩ := I.busy m hm
      exact ⟨p, by
        show (s.sends ++ _)[s.sent.length]? = _
        rw [List.getElem?_append_left (List.getElem?_eq_some_iff.mp hp).1]; exact hp, hs⟩
  | work =>
    simp only at h
    split at h
    · split at h
      · cases h
      · rename_i r h0 hr
        cases h
        exact ⟨I.pending, I.sent, fun m hm => by cases hm; exact ⟨_, hr, .refl _⟩⟩
    · rename_i m hm
      obtain ⟨p, hp, hs⟩ := I.busy m hm
      have hn := next_same hs (I.pending p (drop_get hp))
      rw [hn] at h
      split at h
      · rename_i m' hm'
        cases h
        exact ⟨I.pending, I.sent, fun x hx => by cases hx; exact ⟨p, hp, hs.snoc hm'⟩⟩
      · rename_i hend
        split at h
        · rename_i he
          cases h
          refine ⟨fun q hq => ?_, fun k bs hk => ?_, fun x hx => by cases hx⟩
          · refine I.pending q ?_
            simp only [List.length_append, List.length_singleton] at hq
            rw [← List.drop_drop] at hq
            exact List.mem_of_mem_drop hq
          · simp only at hk
            by_cases hl : k < s.sent.length
            · rw [List.getElem?_append_left hl] at hk
              exact I.sent k bs hk
            · rw [List.getElem?_append_right (by omega)] at hk
              have hk0 : k - s.sent.length = 0 := by
                refine Classical.byContradiction fun hne => ?_
                rw [List.getElem?_eq_none (by simp; omega)] at hk
                cases hk
              rw [hk0] at hk
              cases hk
              have : k = s.sent.length := by omega
              subst this
              exact ⟨p, hp, faithful_of_steps hs hend he⟩
        · cases h
          exact ⟨I.pending, I.sent, fun x hx => I.busy x hx⟩

theorem inv_run {h : Mem} : ∀ (acts : List Act) (s : State), CalmRun (State.init h) acts →
    run State.step (State.init h) acts = some s → Inv s := by
  intro acts
  induction hl : acts.length generalizing acts with
  | zero =>
    intro s _ hr
    rw [List.length_eq_zero_iff.mp hl] at hr
    cases hr
    exact inv_init h
  | succ n ih =>
    intro s hc hr
    rcases List.eq_nil_or_concat acts with rfl | ⟨pre, a, rfl⟩
    · cases hl
    · rw [List.concat_eq_append] at *
      rw [run_append] at hr
      cases hp : run State.step (State.init h) pre with
      | none => rw [hp] at hr; cases hr
      | some t =>
        rw [hp] at hr
        simp only [Option.bind_some, run] at hr
        split at hr
        · cases hr
        · rename_i u hu
          cases hr
          refine inv_step (ih pre (by simpa using hl) t ?_ hp) (hc pre a [] t rfl hp) hu
          intro p b q x e hx
          exact hc p b (q ++ [a]) x (by rw [e]; simp) hx

end Verif.Net.Shared
