import Verif.Net.Tables

/-!
# The tables of package network: C91, C92
-/

namespace Verif.Props

open Verif Verif.Net.Tables

/-! ## C91 -/

/-- The serializer that a call registers under a name. -/
def registersAs {σ : Type} (name : String) : Op σ → Option (Option σ)
  | .extend n x => if n = name then some x else none
  | _ => none

/-- The serializer that a program has registered last under a name, if any. -/
def lastRegistered {σ : Type} (name : String) (ops : List (Op σ)) : Option (Option σ) :=
  (ops.filterMap (registersAs name)).getLast?

theorem lastRegistered_cons {σ : Type} (name : String) (op : Op σ) (ops : List (Op σ)) :
    lastRegistered name (op :: ops) = (lastRegistered name ops).or (registersAs name op) := by
  unfold lastRegistered
  rw [List.filterMap_cons]
  cases registersAs name op with
  | none => simp
  | some x => rw [List.getLast?_cons]; cases (ops.filterMap (registersAs name)).getLast? <;> simp

/-- The calls of `NewSocket`. -/
def makesSocket {σ : Type} : Op σ → Bool
  | .newSocket _ => true
  | _ => false

theorem exec_name {σ : Type} (txt : σ) (name : String) (hn : name ≠ "txt") (ops : List (Op σ)) (s : State σ) :
    (ops.foldl (State.exec txt) s).serializers name = (lastRegistered name ops).getD (s.serializers name) := by
  induction ops generalizing s with
  | nil => rfl
  | cons op ops ih =>
    rw [List.foldl_cons, ih, lastRegistered_cons]
    cases lastRegistered name ops with
    | some x => rfl
    | none =>
      cases op with
      | extend n x =>
        by_cases e : n = name
        · simp [State.exec, State.extend, registersAs, upd, e]
        · have e' : ¬ name = n := fun h => e h.symm
          simp [State.exec, State.extend, registersAs, upd, e, e']
      | newSocket n =>
        simp only [State.exec, State.newSocket, registersAs, Option.or_none, Option.getD_none]
        split <;> simp [State.extend, upd, hn]
      | mock n =>
        simp only [State.exec, State.mock, State.bind, registersAs, Option.or_none, Option.getD_none]
        split <;> rfl

theorem exec_done {σ : Type} (txt : σ) (name : String) (ops : List (Op σ)) (s : State σ) (hd : s.done = true) :
    (ops.foldl (State.exec txt) s).serializers name = (lastRegistered name ops).getD (s.serializers name) ∧
      (ops.foldl (State.exec txt) s).done = true := by
  induction ops generalizing s with
  | nil => exact ⟨rfl, hd⟩
  | cons op ops ih =>
    rw [List.foldl_cons]
    have hd' : (s.exec txt op).done = true := by
      cases op with
      | extend n x => exact hd
      | newSocket n => simp [State.exec, State.newSocket, hd]
      | mock n => simp only [State.exec, State.mock, State.bind]; split <;> exact hd
    refine ⟨?_, (ih _ hd').2⟩
    rw [(ih _ hd').1, lastRegistered_cons]
    cases lastRegistered name ops with
    | some x => rfl
    | none =>
      cases op with
      | extend n x =>
        by_cases e : n = name
        · simp [State.exec, State.extend, registersAs, upd, e]
        · have e' : ¬ name = n := fun h => e h.symm
          simp [State.exec, State.extend, registersAs, upd, e, e']
      | newSocket n => simp [State.exec, State.newSocket, registersAs, hd]
      | mock n =>
        simp only [State.exec, State.mock, State.bind, registersAs, Option.or_none, Option.getD_none]
        split <;> rfl

theorem exec_not_done {σ : Type} (txt : σ) (ops : List (Op σ)) (h : ops.all (fun op => !makesSocket op) = true) (s : State σ)
    (hd : s.done = false) : (ops.foldl (State.exec txt) s).done = false := by
  induction ops generalizing s with
  | nil => exact hd
  | cons op ops ih =>
    simp only [List.all_cons, Bool.and_eq_true] at h
    refine ih h.2 _ ?_
    cases op with
    | extend n x => exact hd
    | newSocket n => simp [makesSocket] at h
    | mock n => simp only [State.exec, State.mock, State.bind]; split <;> exact hd

/-- C91 (partial): a socket gets the serializer registered last under its name, or nil if there is none, unless the name
is "txt".  A socket for "txt" gets the one registered last since the first socket was made, or the built-in one.
Missing: registrations of "txt" before the first socket are lost, see `C91_txt_refuted`. -/
theorem C91_lookup_partial {σ : Type} (txt : σ) (ops : List (Op σ)) (name : String) :
    (name ≠ "txt" → ((ops.foldl (State.exec txt) (State.init σ)).exec txt (.newSocket name)).sockets.getLast? =
      some ((lastRegistered name ops).getD none)) ∧
    (∀ pre n post, ops = pre ++ .newSocket n :: post → pre.all (fun op => !makesSocket op) = true →
      ((ops.foldl (State.exec txt) (State.init σ)).exec txt (.newSocket "txt")).sockets.getLast? =
        some ((lastRegistered "txt" post).getD (some txt))) := by
  constructor
  · intro hn
    have h := exec_name txt name hn ops (State.init σ)
    simp only [State.exec, State.newSocket]
    split
    · simp only [List.getLast?_append, List.getLast?_singleton, Option.some_or, h]; rfl
    · simp only [State.extend, List.getLast?_append, List.getLast?_singleton, Option.some_or, upd, if_neg hn, h]; rfl
  · intro pre n post e hp
    subst e
    rw [List.foldl_append, List.foldl_cons]
    have hd := exec_not_done txt pre hp (State.init σ) rfl
    generalize pre.foldl (State.exec txt) (State.init σ) = s at hd
    have h1 : (s.exec txt (.newSocket n)).done = true := by simp [State.exec, State.newSocket, hd]
    have h2 : (s.exec txt (.newSocket n)).serializers "txt" = some txt := by
      simp [State.exec, State.newSocket, hd, State.extend, upd]
    obtain ⟨h3, h4⟩ := exec_done txt "txt" post _ h1
    generalize post.foldl (State.exec txt) (s.exec txt (.newSocket n)) = t at h3 h4
    rw [h2] at h3
    simp [State.exec, State.newSocket, h4, h3]

example : (([Op.extend "ferry" (some 5), .newSocket "ferry", .extend "txt" (some 7), .newSocket "txt", .newSocket "none"].foldl
    (State.exec 0) (State.init Nat)).sockets) = [some 5, some 7, none] := rfl

/-- C91 (refuted): a serializer registered under "txt" before the first socket is made is replaced by the built-in
one. -/
theorem C91_txt_refuted : ∃ (ops : List (Op Nat)) (s : State Nat), s = ops.foldl (State.exec 0) (State.init Nat) ∧
    lastRegistered "txt" ops = some (some 7) ∧ s.sockets.getLast? = some (some 0) :=
  ⟨[.extend "txt" (some 7), .newSocket "txt"], _, rfl, rfl, rfl⟩

/-! ## C92 -/

/-- The calls of `Mock` that have an effect. -/
def mocksTcp {σ : Type} : Op σ → Bool
  | .mock n => n = "tcp"
  | _ => false

/-- C92 (partial): sockets use the mock network from the moment `Mock("tcp")` is called, for good, and the real network
before; no other argument of `Mock` makes a difference to them.  Missing: `Mock` of another name is ignored silently,
see `C92_other_refuted`. -/
theorem C92_mock_partial {σ : Type} (txt : σ) (ops : List (Op σ)) :
    (ops.foldl (State.exec txt) (State.init σ)).socketNet = some (if ops.any mocksTcp then Maker.mock else Maker.tcp) := by
  have : ∀ (ops : List (Op σ)) (s : State σ), (ops.foldl (State.exec txt) s).makers "tcp" =
      if ops.any mocksTcp then some .mock else s.makers "tcp" := by
    intro ops
    induction ops with
    | nil => intro s; simp
    | cons op ops ih =>
      intro s
      rw [List.foldl_cons, ih, List.any_cons]
      cases hm : ops.any mocksTcp with
      | true => simp
      | false =>
        cases op with
        | extend n x => simp [mocksTcp, State.exec, State.extend]
        | newSocket n =>
          cases hd : s.done <;> simp [mocksTcp, State.exec, State.newSocket, State.extend, hd]
        | mock n =>
          simp only [mocksTcp, State.exec, State.mock, State.bind]
          by_cases e : n = ""
          · subst e; simp
          · by_cases e' : n = "tcp"
            · subst e'; simp [upd]
            · have e'' : ¬ "tcp" = n := fun h => e' h.symm
              simp [e, e', e'', upd]
  simp only [State.socketNet, State.makeNet, this ops (State.init σ)]
  cases ops.any mocksTcp <;> simp [State.init, upd]

example : (([Op.mock "udp", .newSocket "txt", .mock "tcp"].foldl (State.exec 0) (State.init Nat)).socketNet) = some .mock := rfl

/-- C92 (refuted): after `Mock("udp")` or `Mock("")` sockets use the real network. -/
theorem C92_other_refuted :
    (([Op.mock "udp"].foldl (State.exec 0) (State.init Nat)).socketNet) = some .tcp ∧
    (([Op.mock ""].foldl (State.exec 0) (State.init Nat)).socketNet) = some .tcp ∧
    (([Op.mock ""].foldl (State.exec 0) (State.init Nat)).resets) = 1 := ⟨rfl, rfl, rfl⟩

end Verif.Props
