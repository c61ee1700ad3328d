import Mathlib.Data.List.Forall2
import Verif.Dock.WholeFacts
import Verif.Codec.ValEq
import Verif.Dock.Hist
import Verif.Props.Chan5
import Verif.Props.Dock1

/-!
# C116 to C118: the features of a dock as seen by its peers
-/

namespace Verif.Props

open Verif Verif.Codec Verif.Proto Verif.Dock

set_option synthInstance.maxSize 2000
set_option synthInstance.maxHeartbeats 200000

deriving instance DecidableEq for Dock.Call, Chan.Handler

/-! ## C116 -/

/-- Callee `k` belongs to the last of the slots with this name. -/
def LastAt (cs : List Carried) (name : Str) (k : Nat) : Prop :=
  ∃ pre f post, cs = pre ++ f :: post ∧ f.name = name ∧ (∀ g ∈ post, g.name ≠ name) ∧ pre.length = k

theorem calleeOf_last {cs : List Carried} {name : Str} {k : Nat} (h : Whole.calleeOf cs name = some k) :
    LastAt cs name k := by
  induction cs using List.reverseRecOn with
  | nil => cases h
  | append_singleton cs c ih =>
    rw [Whole.calleeOf_append] at h
    by_cases e : name = c.name
    · subst e
      rw [upd_same] at h
      cases h
      exact ⟨cs, c, [], rfl, rfl, (by simp), rfl⟩
    · rw [upd_other _ _ e] at h
      obtain ⟨pre, f, post, h1, h2, h3, h4⟩ := ih h
      refine ⟨pre, f, post ++ [c], by simp [h1], h2, ?_, h4⟩
      intro g hg
      rcases List.mem_append.mp hg with hg | hg
      · exact h3 g hg
      · rw [List.mem_singleton.mp hg]; exact fun h => e h.symm

/-- A request of a peer for a feature of this dock: peer, index and call. -/
def askOf (cs : List Carried) : Ev → Option (Nat × BitVec 64 × Call)
  | .recv p (.rpcRequest x slot meth args wr) =>
    if cs.any fun c => c.name = slot then some (p, x, ⟨slot, meth, args, wr⟩) else none
  | _ => none

theorem askOf_asked (cs : List Carried) (log : List Ev) :
    log.filterMap (askOf cs) = (log.filterMap (askedOf cs)).map fun a => (a.1, a.2.1, a.2.2.2) := by
  induction log with
  | nil => rfl
  | cons e log ih =>
    rw [List.filterMap_cons, List.filterMap_cons]
    have : askOf cs e = (askedOf cs e).map fun a => (a.1, a.2.1, a.2.2.2) := by
      unfold askOf askedOf
      split
      · rename_i p x slot meth args wr
        cases hs : slotsOf cs slot with
        | none =>
          have := (slotsOf_none cs slot).mp hs
          rw [if_neg (by simpa using this)]
          simp [hs]
        | some f =>
          have h1 : slotsOf cs slot ≠ none := by rw [hs]; simp
          rw [ne_eq, slotsOf_none] at h1
          rw [if_pos (by simpa using h1)]
          simp [hs]
      · rename_i h
        split
        · exact absurd rfl (h _ _ _ _ _ _)
        · rfl
    rw [this]
    cases askedOf cs e with
    | none => exact ih
    | some a => rw [Option.map_some, List.map_cons, ih]

/-- The response `(peer, index, slot, method, result, error)` answers the request `ask` by the call `i` of package chancall:
the callee is that of the last slot of this name, method and arguments are those asked for, and either the response has no
error, and the result that the method returned (none if none was asked for), or its error says that the call timed out, it
has no result, and the timeout has elapsed since the method was started. -/
def Serves (cs : List Carried) (s : Chan.State) (ans : Nat × BitVec 64 × Str × Str × List Val × Str)
    (ask : Nat × BitVec 64 × Call) (i : Nat) : Prop :=
  ∃ p x c res err, ans = (p, x, c.slot, c.meth, res, err) ∧ ask = (p, x, c) ∧ i < s.n ∧
    LastAt cs c.slot (s.req i).callee ∧ (s.req i).meth = c.meth ∧ (s.req i).args = c.args ∧
    ((err = [] ∧ ∃ r, s.ret i = some r ∧ res = if c.withResult then r.getD [] else []) ∨
      (err = 91#8 :: (c.meth ++ Whole.cTimedOut) ∧ res = [] ∧
        ∃ t0 d t, s.startedAt i = some (t0, d) ∧ (i, .timeout, t) ∈ s.answers ∧ t0 + Chan.sleepTime d ≤ t))

/-- **C116.**  In every reachable state the responses a dock has sent can be matched with requests it has received and with
calls of its callees, different responses with different requests and different calls, so that each response answers its
request by its call. -/
theorem C116_answers (cs : List Carried) (T : Nat → Chan.Target) (as : List Whole.Act) (s : Whole.State)
    (h : run (Whole.State.step cs T) (Whole.State.init T) as = some s) :
    ∃ pairs : List (Nat × Nat), (pairs.map (·.1)).Nodup ∧ (pairs.map (·.2)).Nodup ∧
      List.Forall₂ (fun ans ki => ∃ ask, (s.dock.log.filterMap (askOf cs))[ki.1]? = some ask ∧ Serves cs s.chan ans ask ki.2)
        (s.dock.log.filterMap Whole.answerOf) pairs := by
  have I := Whole.inv_run cs T as s h
  obtain ⟨bs, hb⟩ := Whole.dock_run cs T as s h
  have H := histInv_run cs bs s.dock hb
  obtain ⟨-, us, hu, un⟩ := Whole.chan_run cs T as s h
  have A := allInv_run T un hu
  have lt : ∀ k ∈ s.answered, k < s.dock.nx := fun k hk =>
    Nat.lt_of_not_le fun hge => (I.fresh k hge).2.2 hk
  have sv : ∀ k ∈ s.answered, s.served k ≠ none := by
    intro k hk e
    cases ho : s.outcome k with
    | none => exact I.known k hk ho
    | some r =>
      obtain ⟨i, j, a, h1, -⟩ := I.outcome k r ho
      rw [e] at h1; cases h1
  refine ⟨s.answered.map fun k => (k, (s.served k).getD 0), ?_, ?_, ?_⟩
  · rw [List.map_map]
    have : ((fun x : Nat × Nat => x.1) ∘ fun k => (k, (s.served k).getD 0)) = id := rfl
    rw [this, List.map_id]
    exact I.nodup
  · rw [List.map_map]
    refine List.pairwise_map.mpr (I.nodup.imp_of_mem ?_)
    intro k k' hk hk' hne e
    cases e1 : s.served k with
    | none => exact sv k hk e1
    | some i =>
      cases e2 : s.served k' with
      | none => exact sv k' hk' e2
      | some i' =>
        simp only [Function.comp, e1, e2, Option.getD_some] at e
        subst e
        exact hne (I.inj k k' i e1 e2)
  · rw [I.sent, List.forall₂_map_left_iff, List.forall₂_map_right_iff, List.forall₂_same]
    intro k hk
    have hk' := lt k hk
    refine ⟨((s.dock.exec k).peer, (s.dock.exec k).index, (s.dock.exec k).call), ?_, ?_⟩
    · rw [askOf_asked, H.asked, List.map_map, List.getElem?_map, List.getElem?_range hk']
      rfl
    · cases ho : s.outcome k with
      | none => exact absurd ho (I.known k hk)
      | some r =>
        obtain ⟨i, j, a, h1, h2, h3⟩ := I.outcome k r ho
        obtain ⟨g1, g2, g3, g4, -⟩ := I.served k i h1
        have hj := A.own.own i j a h2
        subst hj
        obtain ⟨t, ht⟩ := A.recd.result _ _ _ h2
        simp only [h1, Option.getD_some]
        refine ⟨_, _, _, _, _, rfl, rfl, g1, calleeOf_last g2, g3, g4, ?_⟩
        cases a with
        | ok v =>
          refine Or.inl ⟨by rw [h3]; rfl, v, A.recd.retOK _ _ _ ht, ?_⟩
          rw [h3]; rfl
        | timeout =>
          obtain ⟨t0, d, k1, k2⟩ := A.recd.late _ _ ht
          refine Or.inr ⟨by rw [h3]; rfl, ?_, t0, d, t, k1, ht, k2⟩
          rw [h3]
          simp [Whole.retOf]

/-- An execution with a view of its final state. -/
theorem wholeWitness {β : Type} {cs : List Carried} {T : Nat → Chan.Target} {as : List Whole.Act} {f : Whole.State → β} {b : β}
    (h : (run (Whole.State.step cs T) (Whole.State.init T) as).map f = some b) :
    ∃ s, run (Whole.State.step cs T) (Whole.State.init T) as = some s ∧ f s = b := Option.map_eq_some_iff.mp h

/-- Features with one method `m` that has no parameters. -/
def wholeDemo : Nat → Chan.Target := fun _ => ⟨fun m => m == methM, fun _ args => !args.isEmpty⟩

/-- The dock of the examples is connected with peer 2, which has made a request for feature `a`, with index 5.  The call has
been handed to the callee, the third one, which has started the method. -/
def servedActs : List Whole.Act :=
  bootActs.map .dock ++
  [.dock (.recv 2 (.rpcRequest 5 nameA methM [] true)), .invoke 0, .chan (.push 0), .chan (.start 2)]

/-- The method returns true, and this is sent to the peer. -/
example : ∃ s, run (Whole.State.step dockDemo wholeDemo) (Whole.State.init wholeDemo) (servedActs ++
    [.chan (.ret 2 [.bool 0 true]), .chan (.settleH 2), .chan (.deliverH 2), .chan (.receive 0), .finish 0, .respond 0]) = some s ∧
    (s.dock.log.filterMap Whole.answerOf, s.dock.log.filterMap (askOf dockDemo)) =
      ([(2, 5, nameA, methM, [.bool 0 true], [])], [(2, 5, ⟨nameA, methM, [], true⟩)]) := wholeWitness (by decide +kernel)

/-- The method takes longer than its timeout, which has been set to 0; the peer is told so, and what the method returns later
is dropped. -/
example : ∃ s, run (Whole.State.step dockDemo wholeDemo) (Whole.State.init wholeDemo) (.chan (.setTimeout 2 methM 0) ::
    servedActs ++ [.chan (.wake 0), .chan (.settleT 0), .chan (.deliverT 0), .chan (.receive 0), .finish 0, .respond 0,
      .chan (.ret 2 [.bool 0 true]), .chan (.settleH 2)]) = some s ∧
    s.dock.log.filterMap Whole.answerOf =
      [(2, 5, nameA, methM, [], "[m] function call timeout!".toList.map fun c => BitVec.ofNat 8 c.toNat)] := wholeWitness (by decide +kernel)

/-! ## C117 -/

theorem keep_step {cs : List Carried} {T : Nat → Chan.Target} {s t : Whole.State} {a : Whole.Act} (I : Whole.Inv cs s)
    (h : s.step cs T a = some t) :
    (∀ k i, s.served k = some i → t.served k = some i) ∧
    (∀ k i, t.served k = some i → s.served k = some i ∨ s.chan.n ≤ i) := by
  unfold Whole.State.step at h
  split at h
  · cases h
  cases a with
  | invoke k =>
    simp only at h
    split at h
    · rename_i c hc
      simp only [bind, Option.bind_eq_some_iff] at h
      obtain ⟨d, hd, e, he, h⟩ := h
      cases h
      have hs := (Whole.invoke_step hd).1
      constructor
      · intro k' i hk
        by_cases e : k' = k
        · subst e; exact absurd hs (I.served _ _ hk).2.2.2.2
        · exact (upd_other _ _ e).trans hk
      · intro k' i hk
        by_cases e : k' = k
        · subst e
          simp only [upd_same] at hk
          cases hk
          exact Or.inr (Nat.le_refl _)
        · simp only [upd_other _ _ e] at hk; exact Or.inl hk
    · cases h
  | _ =>
    simp only at h
    repeat' split at h
    all_goals first
      | (obtain ⟨d, hd, rfl⟩ := Option.map_eq_some_iff.mp h; exact ⟨fun _ _ h => h, fun _ _ h => Or.inl h⟩)
      | (simp only [bind, Option.bind_eq_some_iff] at h
         obtain ⟨d, hd, e, he, h⟩ := h
         cases h
         exact ⟨fun _ _ h => h, fun _ _ h => Or.inl h⟩)
      | (cases h; done)
      | (cases h; exact ⟨fun _ _ h => h, fun _ _ h => Or.inl h⟩)

/-- What callees have accepted only grows. -/
theorem entered_step {T : Nat → Chan.Target} {s t : Chan.State} {a : Chan.Act} (h : s.step T a = some t) (c : Nat) :
    s.entered c <+: t.entered c := by
  unfold Chan.State.step at h
  split at h
  · cases h
  cases a with
  | push i =>
    simp only at h
    split at h
    · cases h
      simp only [upd]
      split
      · rename_i e; rw [← e]; exact List.prefix_append _ _
      · exact List.prefix_refl _
    · cases h
  | _ =>
    simp only at h
    repeat' split at h
    all_goals cases h
    all_goals exact List.prefix_refl _

/-- What a run keeps. -/
theorem keep_run {cs : List Carried} {T : Nat → Chan.Target} (bs : List Whole.Act) (s t : Whole.State) (I : Whole.Inv cs s)
    (h : run (Whole.State.step cs T) s bs = some t) :
    (∀ k i, s.served k = some i → t.served k = some i) ∧
    (∀ k i, t.served k = some i → s.served k = some i ∨ s.chan.n ≤ i) ∧
    (∀ c, s.chan.entered c <+: t.chan.entered c) := by
  have := run_inv (I := fun t => Whole.Inv cs t ∧ s.chan.n ≤ t.chan.n ∧ (∀ k i, s.served k = some i → t.served k = some i) ∧
    (∀ k i, t.served k = some i → s.served k = some i ∨ s.chan.n ≤ i) ∧
    (∀ c, s.chan.entered c <+: t.chan.entered c)) ?_ bs s t
    ⟨I, Nat.le_refl _, fun _ _ h => h, fun _ _ h => Or.inl h, fun _ => List.prefix_refl _⟩ h
  · exact ⟨this.2.2.1, this.2.2.2.1, this.2.2.2.2⟩
  · rintro u a v ⟨J, n, k1, k2, k3⟩ hs
    obtain ⟨l1, l2⟩ := keep_step J hs
    refine ⟨Whole.inv_step cs T u a v J hs, ?_, fun k i h => l1 k i (k1 k i h), ?_, ?_⟩
    · rcases (Whole.step_parts hs).2 with e | ⟨b, -, e⟩ | ⟨k, m, ar, p, e⟩
      · rw [e]; exact n
      · exact Nat.le_trans n (Whole.chan_keep e).1
      · exact Nat.le_trans n (Whole.chan_keep e).1
    · intro k i h
      rcases l2 k i h with e | e
      · exact k2 k i e
      · exact Or.inr (Nat.le_trans n e)
    · intro c
      refine (k3 c).trans ?_
      rcases (Whole.step_parts hs).2 with e | ⟨b, -, e⟩ | ⟨k, m, ar, p, e⟩
      · rw [e]; exact List.prefix_refl _
      · exact entered_step e c
      · exact entered_step e c

theorem before_start {E1 E2 : List Nat} {i : Nat} {l l' : List Chan.HEv} (hi : i ∉ E1)
    (h : l ++ .started i :: l' <+: oneByOne (E1 ++ E2)) : oneByOne E1 <+: l := by
  rw [oneByOne_append] at h
  have h1 : l ++ [.started i] <+: oneByOne E1 ++ oneByOne E2 :=
    (show l ++ [Chan.HEv.started i] <+: l ++ .started i :: l' from ⟨l', by simp⟩).trans h
  have h2 : oneByOne E1 <+: oneByOne E1 ++ oneByOne E2 := List.prefix_append _ _
  by_cases e : (oneByOne E1).length ≤ l.length
  · exact List.prefix_of_prefix_length_le h2 ((List.prefix_append l [.started i]).trans h1) e
  · exfalso
    have h3 : l ++ [.started i] <+: oneByOne E1 :=
      List.prefix_of_prefix_length_le h1 h2 (by simp; omega)
    have : Chan.HEv.started i ∈ oneByOne E1 := h3.subset (by simp)
    simp only [oneByOne, List.mem_flatMap, List.mem_cons, List.not_mem_nil, or_false] at this
    obtain ⟨j, hj, e | e⟩ := this
    · cases e; exact hi hj
    · cases e

/-- **C117, partial.**  When a request arrives after the response to another one for the same feature has been sent (`s` is the
state in between), its method is started only after the method of the other one has returned.  Requests are numbered in the
order of their arrival.  Missing: requests that arrive earlier. -/
theorem C117_sequential_partial (cs : List Carried) (T : Nat → Chan.Target) (as bs : List Whole.Act) (s t : Whole.State)
    (h : run (Whole.State.step cs T) (Whole.State.init T) as = some s) (h' : run (Whole.State.step cs T) s bs = some t)
    (k1 k2 i1 i2 : Nat) (h1 : k1 ∈ s.answered) (h2 : (s.dock.log.filterMap (askOf cs)).length ≤ k2)
    (s1 : t.served k1 = some i1) (s2 : t.served k2 = some i2) (hc : (t.chan.req i1).callee = (t.chan.req i2).callee)
    (l l' : List Chan.HEv) (hl : t.chan.log (t.chan.req i2).callee = l ++ .started i2 :: l') :
    .started i1 ∈ l ∧ .finished i1 ∈ l := by
  have I := Whole.inv_run cs T as s h
  obtain ⟨ds, hd⟩ := Whole.dock_run cs T as s h
  have H := histInv_run cs ds s.dock hd
  obtain ⟨-, us, hu, un⟩ := Whole.chan_run cs T as s h
  have A := allInv_run T un hu
  have O := orderInv_run T hu
  have ht : run (Whole.State.step cs T) (Whole.State.init T) (as ++ bs) = some t := by rw [run_append, h]; exact h'
  have It := Whole.inv_run cs T (as ++ bs) t ht
  obtain ⟨-, ut, hut, unt⟩ := Whole.chan_run cs T (as ++ bs) t ht
  have Ot := orderInv_run T hut
  obtain ⟨m1, m2, m3⟩ := keep_run bs s t I h'
  rw [askOf_asked, List.length_map, H.asked, List.length_map, List.length_range] at h2
  -- the first request was answered by call `i1`, which had been accepted by the callee
  have : ∃ j a, s.served k1 = some i1 ∧ s.chan.result i1 = some (j, a) := by
    cases ho : s.outcome k1 with
    | none => exact absurd ho (I.known k1 h1)
    | some r =>
      obtain ⟨i, j, a, e1, e2, -⟩ := I.outcome k1 r ho
      have := m1 k1 i e1
      rw [s1] at this
      cases this
      exact ⟨j, a, e1, e2⟩
  obtain ⟨j, a, e1, e2⟩ := this
  have ej := A.own.own i1 j a e2
  subst ej
  have hdone := (A.ans.result _ _ _ e2).1
  have hpush : s.chan.pushed j = true := by
    cases e : s.chan.pushed j with
    | true => rfl
    | false => rw [(A.ans.unpushed j e).2] at hdone; cases hdone
  have hlt := (I.served k1 j e1).1
  -- the second call was made later
  have hge : s.chan.n ≤ i2 := by
    rcases m2 k2 i2 s2 with e | e
    · rw [(I.fresh k2 h2).2.1] at e; cases e
    · exact e
  have hreq : t.chan.req j = s.chan.req j := by
    refine (run_inv (I := fun t : Whole.State => j < t.chan.n ∧ t.chan.req j = s.chan.req j) ?_ bs s t ⟨hlt, rfl⟩ h').2
    rintro u b v ⟨g1, g2⟩ hs
    rcases (Whole.step_parts hs).2 with e | ⟨b, -, e⟩ | ⟨k, m, ar, p, e⟩
    · rw [e]; exact ⟨g1, g2⟩
    · exact ⟨Nat.lt_of_lt_of_le g1 (Whole.chan_keep e).1, ((Whole.chan_keep e).2.1 j g1).trans g2⟩
    · exact ⟨Nat.lt_of_lt_of_le g1 (Whole.chan_keep e).1, ((Whole.chan_keep e).2.1 j g1).trans g2⟩
  have in1 : j ∈ s.chan.entered (t.chan.req i2).callee := (O.entered _ _).mpr ⟨hpush, by rw [← hc, hreq]⟩
  have in2 : i2 ∉ s.chan.entered (t.chan.req i2).callee := by
    intro hm
    have := (O.entered _ _).mp hm
    rw [(A.ans.fresh i2 hge).1] at this
    cases this.1
  obtain ⟨E2, hE⟩ := m3 (t.chan.req i2).callee
  have hp := Ot.pre (t.chan.req i2).callee
  rw [hl, ← hE] at hp
  have := before_start in2 hp
  constructor
  · exact this.subset (by simp only [oneByOne, List.mem_flatMap]; exact ⟨j, in1, by simp⟩)
  · exact this.subset (by simp only [oneByOne, List.mem_flatMap]; exact ⟨j, in1, by simp⟩)

/-- Two requests, the second after the response to the first. -/
example : ∃ s, run (Whole.State.step dockDemo wholeDemo) (Whole.State.init wholeDemo) (servedActs ++
    [.chan (.ret 2 [.bool 0 true]), .chan (.settleH 2), .chan (.deliverH 2), .chan (.receive 0), .finish 0, .respond 0,
      .dock (.recv 2 (.rpcRequest 6 nameA methM [] true)), .invoke 1, .chan (.push 1), .chan (.start 2)]) = some s ∧
    (s.answered, s.served 0, s.served 1, s.chan.log 2) = ([0], some 0, some 1, [.started 0, .finished 0, .started 1]) :=
  wholeWitness (by decide +kernel)

/-- **C117, violated.**  A peer makes two requests one after the other; the methods are executed in the other order. -/
theorem C117_order_refuted : ∃ as s, run (Whole.State.step dockDemo wholeDemo) (Whole.State.init wholeDemo) as = some s ∧
    (s.dock.log.filterMap (askOf dockDemo), s.served 0, s.served 1, s.chan.log 2) =
      ([(2, 5, ⟨nameA, methM, [], true⟩), (2, 6, ⟨nameA, methM, [], true⟩)], some 1, some 0,
        [.started 0, .finished 0, .started 1, .finished 1]) :=
  ⟨bootActs.map .dock ++ [.dock (.recv 2 (.rpcRequest 5 nameA methM [] true)),
    .dock (.recv 2 (.rpcRequest 6 nameA methM [] true)), .invoke 1, .invoke 0, .chan (.push 0), .chan (.push 1),
    .chan (.start 2), .chan (.ret 2 []), .chan (.settleH 2), .chan (.deliverH 2), .chan (.start 2), .chan (.ret 2 [])],
    wholeWitness (by decide +kernel)⟩

/-! ## C118 -/

/-- **C118, partial.**  While a callee executes a method it starts no other one: in the log of what it does every start of a
method is followed by its end.  Missing: `OnStart`, and features carried under several names. -/
theorem C118_exclusive_partial (cs : List Carried) (T : Nat → Chan.Target) (as : List Whole.Act) (s : Whole.State)
    (h : run (Whole.State.step cs T) (Whole.State.init T) as = some s) (c i : Nat) (l l' : List Chan.HEv) (e : Chan.HEv)
    (hl : s.chan.log c = l ++ .started i :: e :: l') : e = .finished i := by
  obtain ⟨-, us, hu, un⟩ := Whole.chan_run cs T as s h
  have hp := (orderInv_run T hu).pre c
  generalize s.chan.entered c = E at hp
  rw [hl] at hp
  clear hl hu un h
  induction E generalizing l with
  | nil => simp [oneByOne] at hp
  | cons j E ih =>
    have : oneByOne (j :: E) = .started j :: .finished j :: oneByOne E := rfl
    rw [this] at hp
    match l with
    | [] =>
      simp only [List.nil_append, List.cons_prefix_cons] at hp
      obtain ⟨h1, h2, -⟩ := hp
      cases h1
      exact h2
    | [x] =>
      simp only [List.cons_append, List.nil_append, List.cons_prefix_cons] at hp
      cases hp.2.1
    | x :: y :: l =>
      simp only [List.cons_append, List.cons_prefix_cons] at hp
      exact ih l hp.2.2

/-- **C118, violated.**  `OnStart` of a feature runs while one of its methods is being executed, for a request of a peer. -/
theorem C118_onStart_refuted : ∃ as s, run (Whole.State.step dockDemo wholeDemo) (Whole.State.init wholeDemo) as = some s ∧
    (s.starts, s.chan.handler 2, (s.chan.req 0).meth) = ([⟨[nameB], some nameA⟩], .running 0, methM) :=
  ⟨servedActs ++ [.start, .onStart 0 nameA], wholeWitness (by decide +kernel)⟩

/-- **C118, violated.**  A feature that is carried under two names has two callees; two of its methods are executed at the same
time. -/
theorem C118_two_names_refuted : ∃ as s,
    run (Whole.State.step [⟨nameA, 1, true⟩, ⟨nameB, 1, true⟩] wholeDemo) (Whole.State.init wholeDemo) as = some s ∧
    (s.chan.handler 0, s.chan.handler 1) = (.running 0, .running 1) :=
  ⟨[.call ⟨nameA, methM, [], true⟩ 0 none, .call ⟨nameB, methM, [], true⟩ 0 none, .chan (.push 0), .chan (.push 1),
    .chan (.start 0), .chan (.start 1)], wholeWitness (by decide +kernel)⟩

end Verif.Props
