import Verif.Net.Fair
import Verif.Props.Net7

/-! # C130: packets that are sent arrive, in fair executions of a connection -/

namespace Verif.Props

open Verif Verif.Net

section
variable {α : Type} {S : Serializer α}

/-- The actions of an execution up to a time. -/
def actsUntil (T : Trace (Link.step S)) (n : Nat) : List (Net.Act α) := (List.range n).filterMap T.act

theorem actsUntil_run (T : Trace (Link.step S)) (h : T.st 0 = Link.init α) (n : Nat) :
    run (Link.step S) (Link.init α) (actsUntil T n) = some (T.st n) := by
  induction n with
  | zero => rw [h]; rfl
  | succ n ih =>
    unfold actsUntil at ih ⊢
    rw [List.range_succ, List.filterMap_append, run_append, ih]
    cases e : T.act n with
    | none => simp [e, run, T.none_step e]
    | some a => simp [e, run, T.some_step e]

private theorem all_some {l : List (Option α)} (h : ∀ x ∈ l, ∃ o, x = some o) : l = (l.filterMap id).map some := by
  induction l with
  | nil => rfl
  | cons x l ih =>
    obtain ⟨o, rfl⟩ := h x List.mem_cons_self
    simpa using ih fun y hy => h y (List.mem_cons_of_mem _ hy)

private theorem arrives {good : α → Prop} {recv : α → α} {enc : α → List Byte} (hS : Faithful S good recv enc)
    (T : Trace (Link.step S)) (F : FairLink S good T) (n : Nat) :
    ∃ m, n ≤ m ∧ ∃ (l rest : List α), (sendsIn (actsUntil T n)).Perm (l.map some ++ (T.st n).dropped.map Prod.fst) ∧
      (T.st m).delivered.Perm (l.map recv ++ rest) ∧
      (T.st n).accepted.map (Option.map recv) <+: (T.st m).delivered.map some := by
  obtain ⟨m, hm, ps, rest, h1, h2, more, h3⟩ := F.arrives hS n
  have e := all_some fun x hx => let ⟨o, h, _⟩ := (F.live hS n).objs x hx; ⟨o, h⟩
  have hp : ps.Perm (((T.st n).accepted ++ (T.st n).pending).filterMap id ++ rest.filterMap id) := by
    have := h1.filterMap id
    rw [List.filterMap_append] at this
    simpa using this
  refine ⟨m, hm, ((T.st n).accepted ++ (T.st n).pending).filterMap id, (rest.filterMap id).map recv ++ more, ?_, ?_, ?_⟩
  · rw [← e]
    exact C122_sent_once S _ _ (actsUntil_run T F.init n)
  · rw [← h3, ← List.append_assoc, ← List.map_append]
    exact (hp.map recv).append_right more
  · rw [← h3, List.map_append, List.map_map]
    have := h2.map (Option.map recv)
    rw [List.map_map] at this
    exact this.trans (List.prefix_append _ _)

end

/-- C130 for the packets of docks and hub.  In every fair execution of a connection (`FairLink`: the two routines go on if they
can, goroutines in `Send` that find room in the channel again and again get it, nobody closes the connection and no write
fails) to which only packets are sent that can be sent (C21): of the packets passed to `Send` up to any time, those that
were not discarded, `l`, have at some time all been handed to `OnPacket` at the other end; and those that were in the
queue by then in the order in which they entered it. -/
theorem C130_arrives (T : Trace (Link.step ferrySerializer)) (F : FairLink ferrySerializer Sendable T) (n : Nat) :
    ∃ m, n ≤ m ∧ ∃ (l rest : List Proto.Packer), (sendsIn (actsUntil T n)).Perm (l.map some ++ (T.st n).dropped.map Prod.fst) ∧
      (T.st m).delivered.Perm (l.map Packer.received ++ rest) ∧
      (T.st n).accepted.map (Option.map Packer.received) <+: (T.st m).delivered.map some :=
  arrives (enc := fun p => Proto.lengthHeader p.body.bytes.length ++ p.body.bytes)
    ⟨rfl, fun p hp => Proto.marshal_ok p hp.2.1, fun p hp => frame_of_sendable p hp⟩ T F n

/-- C130 for text connections. -/
theorem C130_arrives_text (T : Trace (Link.step txtSerializer))
    (F : FairLink txtSerializer (fun x => ∃ t : Str, x = t ++ [0] ∧ 0 ∉ t) T) (n : Nat) :
    ∃ m, n ≤ m ∧ ∃ (l rest : List Str), (sendsIn (actsUntil T n)).Perm (l.map some ++ (T.st n).dropped.map Prod.fst) ∧
      (T.st m).delivered.Perm (l ++ rest) ∧ (T.st n).accepted <+: (T.st m).delivered.map some := by
  have := arrives (S := txtSerializer) (good := fun x => ∃ t : Str, x = t ++ [0] ∧ 0 ∉ t) (recv := id) (enc := id)
    ⟨rfl, fun x _ => rfl, fun x hx => txt_frame x hx⟩ T F n
  simpa using this

/-! ## Two executions -/

/-- An execution that does what a list says and then nothing. -/
def restTrace {σ β : Type} (step : σ → β → Option σ) (s0 : σ) (as : List β) (h : ∀ n, run step s0 (as.take n) ≠ none) : Trace step where
  st := fun n => (run step s0 (as.take n)).getD s0
  act := fun n => as[n]?
  next := by
    intro n
    cases e : as[n]? with
    | none =>
      have : as.length ≤ n := List.getElem?_eq_none_iff.mp e
      simp only [List.take_of_length_le this, List.take_of_length_le (Nat.le_succ_of_le this)]
    | some a =>
      have h1 := h (n + 1)
      have e2 : as.take (n + 1) = as.take n ++ [a] := by rw [List.take_add_one, e]; rfl
      simp only [e2, run_append] at h1 ⊢
      cases hr : run step s0 (as.take n) with
      | none => rw [hr] at h1; exact absurd rfl h1
      | some u =>
        simp only [hr, Option.bind_some, run, Option.getD_some] at h1 ⊢
        cases hs : step u a with
        | none => rw [hs] at h1; exact absurd rfl h1
        | some v => rfl

/-- Three packets are sent by goroutines that overtake each other and read in pieces. -/
def threeActs : List (Net.Act Proto.Packer) :=
  [.check (some ⟨1, .heartbeat⟩), .check (some ⟨5, .queryRequest [0x61]⟩), .push 1, .transmit none, .recv 3, .push 0,
    .check (some ⟨1, .heartbeat⟩), .transmit none, .recv 9, .push 0, .recv 3, .transmit none, .recv 5, .recv 4]

private theorem three_runs (n : Nat) : run (Link.step ferrySerializer) (Link.init _) (threeActs.take n) ≠ none := by
  have h : run (Link.step ferrySerializer) (Link.init _) threeActs ≠ none := by
    intro h; cases (show some _ = none from h)
  intro hn
  rw [← List.take_append_drop n threeActs, run_append, hn] at h
  exact h rfl

/-- They are the beginning of a fair execution. -/
theorem three_fair : ∃ T : Trace (Link.step ferrySerializer), FairLink ferrySerializer Sendable T ∧
    (∀ n, T.act n = threeActs[n]?) ∧
    (T.st 1).pending = [some ⟨1, .heartbeat⟩] ∧ (T.st 13).delivered = [⟨5, .queryRequest [0x61]⟩, ⟨1, .heartbeat⟩] ∧
    (T.st 14).delivered = [⟨5, .queryRequest [0x61]⟩, ⟨1, .heartbeat⟩, ⟨1, .heartbeat⟩] := by
  let T := restTrace (Link.step ferrySerializer) (Link.init _) threeActs three_runs
  have rest : ∀ n, 14 ≤ n → T.st n = (run (Link.step ferrySerializer) (Link.init _) threeActs).getD (Link.init _) := by
    intro n hn
    show (run _ _ (threeActs.take n)).getD _ = _
    rw [List.take_of_length_le (show threeActs.length ≤ n from hn)]
  have stuck : ∀ n, 14 ≤ n → ∀ K, (K = Sends ∨ K = Reads ∨ K = Enters) → ∀ a, K (T.st n) a → Link.step ferrySerializer (T.st n) a = none := by
    intro n hn K hK a ha
    rw [rest n hn] at ha ⊢
    rcases hK with rfl | rfl | rfl
    · cases ha; rfl
    · obtain ⟨c, rfl⟩ := ha
      show (if false = true ∨ c = 0 ∨ cRecvBytesSize < c ∨ 0 < c then none else _) = none
      rw [if_pos (by omega)]
    · cases ha; rfl
  refine ⟨T, ⟨rfl, ?_, ?_, ?_⟩, fun _ => rfl, rfl, rfl, rfl⟩
  · intro n a ha
    have ha : a ∈ threeActs := List.mem_of_getElem? ha
    have h1 : Sendable ⟨1, .heartbeat⟩ := ⟨rfl, rfl, by decide⟩
    have h2 : Sendable ⟨5, .queryRequest [0x61]⟩ := ⟨rfl, rfl, by decide⟩
    simp only [threeActs, List.mem_cons, List.not_mem_nil, or_false] at ha
    refine ⟨fun obj e => ?_, fun k e => ?_⟩
    · subst e
      simp only [Net.Act.check.injEq, reduceCtorEq, false_or, or_false] at ha
      rcases ha with rfl | rfl | rfl
      exacts [⟨_, rfl, h1⟩, ⟨_, rfl, h2⟩, ⟨_, rfl, h1⟩]
    · subst e
      simp at ha
  · intro K hK n h
    obtain ⟨a, h1, h2⟩ := h (max n 14) (by omega)
    exact absurd (stuck _ (by omega) K (by rcases hK with h | h <;> simp [h]) a h1) h2
  · intro K hK n h
    obtain ⟨m, a, hm, h1, h2⟩ := h (max n 14) (by omega)
    exact absurd (stuck m (by omega) K (by simp [hK]) a h1) h2

/-- C130 on them: two packets have been passed to `Send` by time 2. -/
example : ∃ T : Trace (Link.step ferrySerializer), FairLink ferrySerializer Sendable T ∧
    ∃ m, 2 ≤ m ∧ ∃ l rest : List Proto.Packer, (T.st m).delivered.Perm (l.map Packer.received ++ rest) ∧ l.length = 2 := by
  obtain ⟨T, F, ha, _⟩ := three_fair
  obtain ⟨m, hm, l, rest, h1, h2, _⟩ := C130_arrives T F 2
  refine ⟨T, F, m, hm, l, rest, h2, ?_⟩
  have e1 : actsUntil T 2 = threeActs.take 2 := by simp [actsUntil, List.range_succ, ha, threeActs]
  have hr := actsUntil_run T F.init 2
  rw [e1] at hr
  have hd : (T.st 2).dropped = [] := by
    have e : (run (Link.step ferrySerializer) (Link.init _) (threeActs.take 2)).map Link.dropped = some [] := rfl
    rw [hr] at e
    simpa using e
  have := h1.length_eq
  rw [e1, hd] at this
  simpa [threeActs, sendsIn] using this.symm

end Verif.Props
