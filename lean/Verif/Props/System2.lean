import Verif.Props.System1

/-!
# C63: remote execution is at most once and genuine

As in `Verif.Props.System1`, for any number of docks, any features, hosts and calls, and any interleaving.
-/

namespace Verif.Props

open Verif Verif.Codec Verif.Proto Verif.System
open Verif.Dock (Carried LastNamed)

variable (C : Nat → List Carried) (H : Nat → Str) (R : Nat → Str) (black : List Int)

-- for the views of the examples
set_option synthInstance.maxSize 1024

/-! ## Lists -/

/-- If two lists without repetitions have the same image, any list of elements of the first one has the image of a list
of elements of the second one. -/
theorem transfer {α β γ : Type} [DecidableEq α] {f : α → γ} {g : β → γ} {l : List α} {m : List β} (h : l.map f = m.map g)
    (hm : m.Nodup) {ks : List α} (hk : ks.Nodup) (hs : ∀ k ∈ ks, k ∈ l) :
    ∃ js : List β, js.Nodup ∧ (∀ j ∈ js, j ∈ m) ∧ ks.map f = js.map g := by
  have hlen : l.length = m.length := by simpa using congrArg List.length h
  have pos : ∀ k ∈ ks, ∃ j, m[l.idxOf k]? = some j ∧ g j = f k := by
    intro k hk'
    have h1 : l.idxOf k < l.length := List.idxOf_lt_length_of_mem (hs k hk')
    refine ⟨m[l.idxOf k]'(hlen ▸ h1), by simp, ?_⟩
    have h2 : (l.map f)[l.idxOf k]'(by simpa using h1) = (m.map g)[l.idxOf k]'(by simpa [← hlen] using h1) := by
      simp only [h]
    simp only [List.getElem_map, List.getElem_idxOf] at h2
    exact h2.symm
  -- the positions are distinct, so the elements are
  have key : (ks.filterMap fun k => m[l.idxOf k]?).Nodup ∧
      (∀ j ∈ ks.filterMap fun k => m[l.idxOf k]?, ∃ k ∈ ks, m[l.idxOf k]? = some j) ∧
      ks.map f = (ks.filterMap fun k => m[l.idxOf k]?).map g := by
    induction ks with
    | nil => exact ⟨List.nodup_nil, by simp, rfl⟩
    | cons k ks ih =>
      obtain ⟨h1, h2, h3⟩ := ih (List.nodup_cons.mp hk).2 (fun k hk => hs k (List.mem_cons_of_mem _ hk))
        (fun k hk => pos k (List.mem_cons_of_mem _ hk))
      obtain ⟨j, hj, hg⟩ := pos k (List.mem_cons_self ..)
      rw [List.filterMap_cons_some (f := fun k => m[l.idxOf k]?) hj]
      refine ⟨List.nodup_cons.mpr ⟨?_, h1⟩, ?_, ?_⟩
      · intro hmem
        obtain ⟨k', hk', hj'⟩ := h2 j hmem
        obtain ⟨a1, a2⟩ := List.getElem?_eq_some_iff.mp hj
        obtain ⟨b1, b2⟩ := List.getElem?_eq_some_iff.mp hj'
        have e : l.idxOf k = l.idxOf k' := (List.getElem_inj (h₀ := a1) (h₁ := b1) hm).mp (a2.trans b2.symm)
        have ek : k = k' := by
          have c1 := List.getElem_idxOf (List.idxOf_lt_length_of_mem (hs k (List.mem_cons_self ..)))
          have c2 := List.getElem_idxOf (List.idxOf_lt_length_of_mem (hs k' (List.mem_cons_of_mem _ hk')))
          rw [← c1, ← c2]
          simp only [e]
        exact (List.nodup_cons.mp hk).1 (ek ▸ hk')
      · intro j' hj'
        rcases List.mem_cons.mp hj' with e | e
        · exact ⟨k, List.mem_cons_self .., e ▸ hj⟩
        · obtain ⟨k', hk', e⟩ := h2 j' e
          exact ⟨k', List.mem_cons_of_mem _ hk', e⟩
      · rw [List.map_cons, List.map_cons, hg, h3]
  refine ⟨_, key.1, ?_, key.2.2⟩
  intro j hj
  obtain ⟨k, _, e⟩ := key.2.1 j hj
  exact List.mem_of_getElem? e

/-- A list of pairs, split by the first component. -/
theorem split_by {α β γ : Type} [DecidableEq α] (L : List (α × γ)) (ids : List β) (g : β → γ)
    (h : L.map (·.2) = ids.map g) (hn : ids.Nodup) : ∃ P : α → List β,
      (∀ a, (P a).Nodup) ∧ (∀ a b i, i ∈ P a → i ∈ P b → a = b) ∧ (∀ a i, i ∈ P a → i ∈ ids) ∧
      ∀ a, (L.filter (·.1 = a)).map (·.2) = (P a).map g := by
  induction L generalizing ids with
  | nil => exact ⟨fun _ => [], by simp, by simp, by simp, by simp⟩
  | cons x L ih =>
    cases ids with
    | nil => cases h
    | cons i ids =>
      simp only [List.map_cons, List.cons.injEq] at h
      obtain ⟨hi, hn⟩ := List.nodup_cons.mp hn
      obtain ⟨P, h1, h2, h3, h4⟩ := ih ids h.2 hn
      refine ⟨fun a => if x.1 = a then i :: P a else P a, ?_, ?_, ?_, ?_⟩
      · intro a
        simp only
        split
        · exact List.nodup_cons.mpr ⟨fun hm => hi (h3 a i hm), h1 a⟩
        · exact h1 a
      · intro a b j ha hb
        simp only at ha hb
        split at ha <;> split at hb
        · rename_i e1 e2; rw [← e1, ← e2]
        · rcases List.mem_cons.mp ha with e | e
          · exact absurd (h3 b j hb) (e ▸ hi)
          · exact h2 a b j e hb
        · rcases List.mem_cons.mp hb with e | e
          · exact absurd (h3 a j ha) (e ▸ hi)
          · exact h2 a b j ha e
        · exact h2 a b j ha hb
      · intro a j hj
        simp only at hj
        split at hj
        · rcases List.mem_cons.mp hj with e | e
          · exact e ▸ List.mem_cons_self ..
          · exact List.mem_cons_of_mem _ (h3 a j e)
        · exact List.mem_cons_of_mem _ (h3 a j hj)
      · intro a
        by_cases e : x.1 = a
        · simp [e, h4 a, h.1]
        · simp [e, h4 a]

/-! ## Requests sent and received -/

/-- Requests for the execution of a method. -/
def isReq : Proto → Bool
  | .rpcRequest .. => true
  | _ => false

/-- The requests of a dock with their destinations. -/
def destOf : Dock.Ev → Option (Nat × Proto)
  | .sent p (.rpcRequest x slot meth args wr) => some (p, .rpcRequest x slot meth args wr)
  | _ => none

theorem destOf_snd (log : List Dock.Ev) : (log.filterMap destOf).map (·.2) = log.filterMap Dock.requestOf := by
  rw [List.map_filterMap]
  refine filterMap_congr fun a _ => ?_
  cases a with
  | sent p pkt => cases pkt <;> rfl
  | _ => rfl

theorem destOf_filter (e : Nat) (log : List Dock.Ev) :
    ((log.filterMap destOf).filter (·.1 = e)).map (·.2) = (dockSent e log).filter isReq := by
  induction log with
  | nil => rfl
  | cons a log ih =>
    unfold dockSent at ih ⊢
    rw [List.filterMap_cons, List.filterMap_cons]
    cases a with
    | sent p pkt =>
      by_cases h : p = e
      · cases pkt <;> simp [destOf, h, isReq, List.filter_cons] <;> simpa using ih
      · cases pkt <;> simp [destOf, h] <;> simpa using ih
    | _ => simpa [destOf] using ih

/-- The request packet of a call. -/
def asRequest (x : BitVec 64) (c : Dock.Call) : Proto := .rpcRequest x c.slot c.meth c.args c.withResult

theorem requestGot_filter (e : Nat) (log : List Dock.Ev) :
    ((log.filterMap requestGot).filter (·.1 = e)).map (fun y => asRequest y.2.1 y.2.2) = (dockGot e log).filter isReq := by
  induction log with
  | nil => rfl
  | cons a log ih =>
    unfold dockGot at ih ⊢
    rw [List.filterMap_cons, List.filterMap_cons]
    cases a with
    | recv p pkt =>
      by_cases h : p = e
      · cases pkt <;> simp [requestGot, h, isReq, List.filter_cons, asRequest] <;> simpa [asRequest] using ih
      · cases pkt <;> simp [requestGot, h] <;> simpa using ih
    | _ => simpa [requestGot] using ih

/-- What the calls of an end became, filtered. -/
theorem fate_filter (φ : Proto → Bool) (hφ : ∀ p, φ (head p) = φ p) : ∀ (del got : List Proto),
    del.map fate = got.map Fate.arrives → (del.filter φ).map fate = (got.filter φ).map Fate.arrives := by
  intro del
  induction del with
  | nil => intro got h; rw [List.map_eq_nil_iff.mp h.symm]; rfl
  | cons a del ih =>
    intro got h
    cases got with
    | nil => cases h
    | cons b got =>
      simp only [List.map_cons, List.cons.injEq] at h
      have hb : φ b = φ a := by rw [← hφ b, ← hφ a, fate_head h.1]
      have := ih got h.2
      simp only [List.filter_cons, hb]
      split
      · simp [this, h.1]
      · exact this

/-- The calls that a dock executed for peer `e`, with their indices, in the order in which they were started. -/
def executedFor (e : Nat) (log : List Dock.Ev) : List (BitVec 64 × Dock.Call) :=
  log.filterMap fun
    | .invoke (some (p, x)) _ c => if p = e then some (x, c) else none
    | _ => none

theorem executedFor_eq (e : Nat) (log : List Dock.Ev) :
    executedFor e log = ((log.filterMap Dock.remoteOf).filter (·.1 = e)).map (fun y => (y.2.1, y.2.2.2)) := by
  induction log with
  | nil => rfl
  | cons a log ih =>
    unfold executedFor at ih ⊢
    rw [List.filterMap_cons, List.filterMap_cons]
    cases a with
    | invoke src f c =>
      cases src with
      | none => simpa [Dock.remoteOf] using ih
      | some px =>
        obtain ⟨p, x⟩ := px
        by_cases h : p = e
        · simpa [Dock.remoteOf, h] using ih
        · simpa [Dock.remoteOf, h] using ih
    | _ => simpa [Dock.remoteOf] using ih

/-! ## C63 -/

/-- C63, first half: remote executions can be attributed to calls such that no call is attributed two executions.
`ids e` lists the calls executed by the dock at end `e`, in the order of the executions: they are calls of the dock at
the other end, without repetitions, and no call of a dock is listed for two ends.  Each execution has the index, names
and arguments of the packet that the request of its call became on the wire. -/
theorem C63_at_most_once (acts : List System.Act) (S : System.State)
    (h : run (System.State.step C H R black) .init acts = some S) :
    ∃ ids : Nat → List Nat, (∀ e, (ids e).Nodup) ∧
      (∀ e e' i, S.owner (other e) = S.owner (other e') → i ∈ ids e → i ∈ ids e' → e = e') ∧
      (∀ d' e, executedFor e (S.dock d').log ≠ [] →
        S.owner e = some (.dock d') ∧ ∃ d, S.owner (other e) = some (.dock d)) ∧
      ∀ d d' e, S.owner e = some (.dock d') → S.owner (other e) = some (.dock d) →
        (∀ i ∈ ids e, i < (S.dock d).n) ∧
        (executedFor e (S.dock d').log).map
            (fun (x, c) => Fate.arrives (.rpcRequest x c.slot c.meth c.args c.withResult)) =
          (ids e).map fun i => fate (.rpcRequest ((S.dock d).index i) ((S.dock d).call i).slot ((S.dock d).call i).meth
            ((S.dock d).call i).args ((S.dock d).call i).withResult) := by
  have I := inv_run C H R black h
  -- the calls whose requests each dock sent, by destination
  have hP : ∀ d, ∃ P : Nat → List Nat, (∀ a, (P a).Nodup) ∧ (∀ a b i, i ∈ P a → i ∈ P b → a = b) ∧
      (∀ a i, i ∈ P a → i < (S.dock d).n) ∧
      ∀ a, (dockSent a (S.dock d).log).filter isReq = (P a).map (S.dock d).request := by
    intro d
    have hR := (dock_inv I d).2.2.1
    obtain ⟨ids, hn, hm, he⟩ := hR.sent
    rw [← destOf_snd] at he
    obtain ⟨P, h1, h2, h3, h4⟩ := split_by _ _ _ he hn
    refine ⟨P, h1, h2, fun a i hi => hR.lt ((hm i).mp (h3 a i hi)).1, fun a => ?_⟩
    rw [← destOf_filter]
    exact h4 a
  obtain ⟨P, hP⟩ := Classical.axiomOfChoice hP
  have hE : ∀ e, ∃ ids : List Nat, ids.Nodup ∧
      (ids = [] ∨ ∃ d d', S.owner e = some (.dock d') ∧ S.owner (other e) = some (.dock d)) ∧
      ∀ d d', S.owner e = some (.dock d') → S.owner (other e) = some (.dock d) →
        (∀ i ∈ ids, i ∈ P d (other e)) ∧
        (executedFor e (S.dock d').log).map (fun (x, c) => Fate.arrives (asRequest x c)) =
          ids.map fun i => fate ((S.dock d).request i) := by
    intro e
    rcases ho : S.owner e with _ | _ | d'
    · exact ⟨[], List.nodup_nil, Or.inl rfl, fun _ _ h => by cases h⟩
    · exact ⟨[], List.nodup_nil, Or.inl rfl, fun _ _ h => by cases h⟩
    rcases ho' : S.owner (other e) with _ | _ | d
    · exact ⟨[], List.nodup_nil, Or.inl rfl, fun _ _ _ h => by cases h⟩
    · exact ⟨[], List.nodup_nil, Or.inl rfl, fun _ _ _ h => by cases h⟩
    obtain ⟨h1, h2, h3, h4⟩ := hP d
    -- what arrived
    obtain ⟨del, hf, hs⟩ := I.fifo e
    have hf := fate_filter isReq (fun p => by cases p <;> rfl) _ _ hf
    have hs := ((List.sublist_append_left _ _).trans hs).filter isReq
    unfold System.State.sentBy at hs
    rw [ho'] at hs
    simp only at hs
    rw [h4] at hs
    obtain ⟨is, hsub, hdel⟩ := List.sublist_map_iff.mp hs
    rw [hdel] at hf
    have hg := I.got.dock d' e
    rw [if_pos ho] at hg
    rw [← hg, ← requestGot_filter, (C61_executed C H R black acts S h d').1, List.filter_map, List.map_map, List.map_map,
      List.map_map] at hf
    -- what was executed
    obtain ⟨ks, hk1, hk2, hk3⟩ := (dock_inv I d').2.2.2.invoked
    obtain ⟨js, hj1, hj2, hj3⟩ := transfer (ks := ks.filter fun k => ((S.dock d').exec k).peer = e) hf.symm
      (h1 (other e) |>.sublist hsub) (List.Pairwise.filter _ hk1) (by
        intro k hk
        obtain ⟨hk, he⟩ := List.mem_filter.mp hk
        refine List.mem_filter.mpr ⟨List.mem_range.mpr ((hk2 k).mp hk).1, ?_⟩
        simpa using he)
    refine ⟨js, hj1, Or.inr ⟨d, d', rfl, rfl⟩, ?_⟩
    intro d2 d3 e3 e2
    cases e3
    cases e2
    refine ⟨fun i hi => hsub.subset (hj2 i hi), Eq.trans ?_ hj3⟩
    rw [executedFor_eq, hk3, List.filter_map, List.map_map, List.map_map]
    rfl
  obtain ⟨ids, hE⟩ := Classical.axiomOfChoice hE
  refine ⟨ids, fun e => (hE e).1, ?_, ?_, ?_⟩
  · intro e e' i ho hi hi'
    rcases (hE e).2.1 with h0 | ⟨d, d1, h1, h2⟩
    · rw [h0] at hi; cases hi
    rcases (hE e').2.1 with h0 | ⟨d', d1', h1', h2'⟩
    · rw [h0] at hi'; cases hi'
    rw [h2, h2'] at ho
    cases ho
    exact other_inj ((hP d).2.1 _ _ i (((hE e).2.2 _ _ h1 h2).1 i hi) (((hE e').2.2 _ _ h1' h2').1 i hi'))
  · intro d' e hne
    rcases hx : executedFor e (S.dock d').log with _ | ⟨⟨x, c⟩, rest⟩
    · exact absurd hx hne
    have hm : (x, c) ∈ executedFor e (S.dock d').log := by rw [hx]; simp
    rw [executedFor_eq] at hm
    obtain ⟨⟨p, y, f, c'⟩, hm, hxc⟩ := List.mem_map.mp hm
    have hp := List.mem_filter.mp hm
    have hm' := hp.1
    have hp := of_decide_eq_true hp.2
    simp only at hp
    subst hp
    obtain ⟨ks, hk1, hk2, hk3⟩ := (dock_inv I d').2.2.2.invoked
    rw [hk3] at hm'
    obtain ⟨k, hk, hkey⟩ := List.mem_map.mp hm'
    have hr : (p, y, c') ∈ (S.dock d').log.filterMap requestGot := by
      rw [(C61_executed C H R black acts S h d').1]
      refine List.mem_map.mpr ⟨k, List.mem_range.mpr ((hk2 k).mp hk).1, ?_⟩
      unfold Dock.Exec.key at hkey
      simp only [Prod.mk.injEq] at hkey ⊢
      exact ⟨hkey.1, hkey.2.1, hkey.2.2.2⟩
    obtain ⟨a, ha, hg⟩ := List.mem_filterMap.mp hr
    unfold requestGot at hg
    split at hg
    · cases hg
      obtain ⟨ho, d, _, _, ho', _⟩ := request_sent I ha
      exact ⟨ho, d, ho'⟩
    · cases hg
  · intro d d' e h1 h2
    obtain ⟨h3, h4⟩ := (hE e).2.2 d d' h1 h2
    exact ⟨fun i hi => (hP d).2.2.1 _ i (h3 i hi), h4⟩

/-- What a dock executed for a peer it was asked for by this peer. -/
theorem executed_asked {C : Nat → List Carried} {H : Nat → Str} {R : Nat → Str} {black : List Int} {S : System.State}
    (I : System.Inv C H R black S) {d p f : Nat} {x : BitVec 64} {c : Dock.Call}
    (h : Dock.Ev.invoke (some (p, x)) f c ∈ (S.dock d).log) :
    Dock.Ev.recv p (.rpcRequest x c.slot c.meth c.args c.withResult) ∈ (S.dock d).log ∧
      ∃ g, LastNamed (C d) c.slot g ∧ g.feature = f := by
  obtain ⟨ks, hk1, hk2, hk3⟩ := (dock_inv I d).2.2.2.invoked
  have h1 : (p, x, f, c) ∈ (S.dock d).log.filterMap Dock.remoteOf := List.mem_filterMap.mpr ⟨_, h, rfl⟩
  rw [hk3] at h1
  obtain ⟨k, hk, hkey⟩ := List.mem_map.mp h1
  have h2 : (p, x, f, c) ∈ (S.dock d).log.filterMap (Dock.askedOf (C d)) := by
    rw [(dock_inv I d).2.2.2.asked]
    exact List.mem_map.mpr ⟨k, List.mem_range.mpr ((hk2 k).mp hk).1, hkey⟩
  obtain ⟨a, ha, hg⟩ := List.mem_filterMap.mp h2
  unfold Dock.askedOf at hg
  split at hg
  · obtain ⟨g, hg1, hg2⟩ := Option.map_eq_some_iff.mp hg
    cases hg2
    exact ⟨ha, g, (Dock.slotsOf_some _ _ _).mp hg1, rfl⟩
  · cases hg

/-- C63, second half (partial): a remote call that has its result `r` has it from an execution, at the dock that carries
the feature, of a call `j` with the same index by the same dock: `r` is what the response became on the wire, and the
execution has the arguments that the request of `j` became on the wire.  Missing: that `j` is the call itself, see
`C63_genuine_distinct_partial` and `C63_mixed_refuted`. -/
theorem C63_genuine_partial (acts : List System.Act) (S : System.State)
    (h : run (System.State.step C H R black) .init acts = some S) (d i : Nat) (r : Dock.Ret)
    (hr : (S.dock d).phase i = .received r ∨ (S.dock d).phase i = .returned r) :
    ∃ j e d' f args wr r', j < (S.dock d).n ∧ (S.dock d).index j = (S.dock d).index i ∧
      S.owner e = some (.dock d') ∧ S.owner (other e) = some (.dock d) ∧
      LastNamed (C d') ((S.dock d).call j).slot f ∧ f.discoverable = true ∧
      Dock.Ev.returned (e, (S.dock d).index i) f.feature
        ⟨((S.dock d).call j).slot, ((S.dock d).call j).meth, args, wr⟩ r' ∈ (S.dock d').log ∧
      fate (.rpcRequest ((S.dock d).index j) ((S.dock d).call j).slot ((S.dock d).call j).meth ((S.dock d).call j).args
          ((S.dock d).call j).withResult) =
        .arrives (.rpcRequest ((S.dock d).index j) ((S.dock d).call j).slot ((S.dock d).call j).meth args wr) ∧
      fate (.rpcResponse ((S.dock d).index i) ((S.dock d).call j).slot ((S.dock d).call j).meth
          (if wr then r'.result else []) r'.err) =
        .arrives (.rpcResponse ((S.dock d).index i) ((S.dock d).call j).slot ((S.dock d).call j).meth r.result r.err) := by
  have I := inv_run C H R black h
  obtain ⟨as, hrun⟩ := I.parts.dock d
  obtain ⟨p, slot, meth, h1⟩ := C56_own_response (C d) as _ hrun i r hr
  obtain ⟨ho, d', res', err', ho', h2, h3⟩ := response_sent I h1
  obtain ⟨f, args, wr, r', h4, rfl, rfl⟩ := (dock_inv I d').2.2.2.sent _ _ h2
  obtain ⟨h5, g, hg, hgf⟩ := executed_asked I ((dock_inv I d').2.2.2.origin _ _ _ _ _ h4)
  obtain ⟨f', hf', hdisc⟩ := request_discoverable I h5
  obtain ⟨_, d2, args', wr', ho2, h6, h7⟩ := request_sent I h5
  rw [other_other] at ho2 h6
  rw [ho] at ho2
  cases ho2
  have hfe : f' = g := by
    have h1 := (Dock.slotsOf_some _ _ _).mpr hf'
    have h2 := (Dock.slotsOf_some _ _ _).mpr hg
    rw [h1] at h2
    exact Option.some.inj h2
  subst hfe
  have hR := (dock_inv I d).2.2.1
  obtain ⟨ids, hn, hm, he⟩ := hR.sent
  have h8 : Proto.rpcRequest ((S.dock d).index i) slot meth args' wr' ∈ (S.dock d).log.filterMap Dock.requestOf :=
    List.mem_filterMap.mpr ⟨_, h6, rfl⟩
  rw [he] at h8
  obtain ⟨j, hj, hreq⟩ := List.mem_map.mp h8
  unfold Dock.State.request at hreq
  simp only [Proto.rpcRequest.injEq] at hreq
  obtain ⟨e1, rfl, rfl, rfl, rfl⟩ := hreq
  refine ⟨j, other p, d', f', args, wr, r', hR.lt ((hm j).mp hj).1, e1, ho', by rw [other_other]; exact ho, hf', hdisc,
    hgf ▸ h4, ?_, h3⟩
  rw [e1]
  exact h7

/-- C63, second half, if the clock never returns the same reading twice and all arguments and results are among the
values that survive the wire: the result of a call is the result of an execution of this call, up to the normalisation
of values on the wire. -/
theorem C63_genuine_distinct_partial (acts : List System.Act) (S : System.State)
    (h : run (System.State.step C H R black) .init acts = some S) (d i : Nat) (r : Dock.Ret) (hi : i < (S.dock d).n)
    (hd : ∀ i j, i < (S.dock d).n → j < (S.dock d).n → (S.dock d).index i = (S.dock d).index j → i = j)
    (hw : wireOKList ((S.dock d).call i).args = true)
    (hw' : ∀ d' src f c r', Dock.Ev.returned src f c r' ∈ (S.dock d').log → wireOKList r'.result = true)
    (hr : (S.dock d).phase i = .received r ∨ (S.dock d).phase i = .returned r) :
    ∃ e d' f r', S.owner e = some (.dock d') ∧ S.owner (other e) = some (.dock d) ∧
      LastNamed (C d') ((S.dock d).call i).slot f ∧ f.discoverable = true ∧
      Dock.Ev.returned (e, (S.dock d).index i) f.feature ⟨((S.dock d).call i).slot, ((S.dock d).call i).meth,
        canonList ((S.dock d).call i).args, ((S.dock d).call i).withResult⟩ r' ∈ (S.dock d').log ∧
      r.result = (if ((S.dock d).call i).withResult then canonList r'.result else []) ∧ r.err = r'.err := by
  obtain ⟨j, e, d', f, args, wr, r', h1, h2, h3, h4, h5, h6, h7, h8, h9⟩ := C63_genuine_partial C H R black acts S h d i r hr
  have := hd j i h1 hi h2
  subst this
  have h10 := fate_sendable h8 hw
  simp only [Proto.received, Proto.rpcRequest.injEq, true_and] at h10
  obtain ⟨rfl, rfl⟩ := h10
  have hs : wireOKList (if ((S.dock d).call j).withResult then r'.result else []) = true := by
    split
    · exact hw' _ _ _ _ _ h7
    · rfl
  have h11 := fate_sendable h9 hs
  simp only [Proto.received, Proto.rpcResponse.injEq, true_and] at h11
  refine ⟨e, d', f, r', h3, h4, h5, h6, h7, ?_, h11.2⟩
  rw [h11.1]
  split <;> rfl

/-- The result of a call: how many values, and the error. -/
def resultView : Dock.CallPhase → Option (Nat × Str)
  | .returned r => some (r.result.length, r.err)
  | _ => none

example : ∃ S, run (System.State.step sysC sysH sysR []) .init sysDone = some S ∧
    (resultView ((S.dock 1).phase 0), (S.dock 1).n, (executedFor 5 (S.dock 0).log).map (·.1), S.owner 5, S.owner 4) =
      (some (1, []), 1, [77], some (.dock 0), some (.dock 1)) := sysWitness (by decide +kernel)

/-- The methods that have returned in executions for peers. -/
def returnedView : Dock.Ev → Option Str
  | .returned _ _ c _ => some c.meth
  | _ => none

/-- While the call of method `m` is on its way, dock 1 calls method `n` of the same feature, and the clock returns the
same index again.  Method `m` is executed and answered, and the answer is taken for that of the second call. -/
def mixedActs : List System.Act := sysSend ++
  [.dock 1 (.call ⟨nameA, methN, [], true⟩ 77), .dock 1 (.store 1), .dock 1 (.setReq 1), .dock 1 (.commit 1),
   .deliver 5, .dock 0 (.invoke 0), .dock 0 (.finish 0 ⟨[.bool 0 true], []⟩), .dock 0 (.respond 0), .deliver 4,
   .dock 1 (.callback 0), .dock 1 (.receive 1), .dock 1 (.closeChan 1)]

/-- C63, second half (refuted without assumptions on the clock): a call returns without an error although no dock has
finished an execution of the method. -/
theorem C63_mixed_refuted : ∃ C H R black acts S d i r, run (System.State.step C H R black) .init acts = some S ∧
    i < (S.dock d).n ∧ (S.dock d).phase i = .returned r ∧ r.err = [] ∧
    ∀ d' src f c r', Dock.Ev.returned src f c r' ∈ (S.dock d').log → c.meth ≠ ((S.dock d).call i).meth := by
  obtain ⟨S, h, e⟩ := sysWitness (C := sysC) (H := sysH) (R := sysR) (as := mixedActs)
    (f := fun S => (resultView ((S.dock 1).phase 1), (S.dock 1).n, ((S.dock 1).call 1).meth, S.n,
      (List.range 6).map S.owner, (S.dock 0).log.filterMap returnedView, (S.dock 1).log.filterMap returnedView))
    (b := (some (1, []), 2, methN, 3,
      [some (.dock 0), some .hub, some (.dock 1), some .hub, some (.dock 1), some (.dock 0)], [methM], []))
    (by decide +kernel)
  simp only [Prod.mk.injEq] at e
  obtain ⟨e1, e2, e3, e4, e5, e6, e7⟩ := e
  have I := inv_run sysC sysH sysR [] h
  unfold resultView at e1
  split at e1
  case h_2 => cases e1
  rename_i r hr
  refine ⟨sysC, sysH, sysR, [], mixedActs, S, 1, 1, r, h, by omega, hr, ?_, ?_⟩
  · simp only [Option.some.injEq, Prod.mk.injEq] at e1
    exact e1.2
  · rintro d' ⟨p, x⟩ f c r' hm
    obtain ⟨h1, _⟩ := executed_asked I ((dock_inv I d').2.2.2.origin _ _ _ _ _ hm)
    obtain ⟨ho, _⟩ := recv_owner I h1
    have hp : p < 6 := by
      rcases Nat.lt_or_ge p 6 with hp | hp
      · exact hp
      · rw [I.shape.fresh p (by omega)] at ho; cases ho
    have hd : some (Proc.dock d') ∈ (List.range 6).map S.owner := List.mem_map.mpr ⟨p, List.mem_range.mpr hp, ho⟩
    rw [e5] at hd
    have hv : c.meth ∈ (S.dock d').log.filterMap returnedView := List.mem_filterMap.mpr ⟨_, hm, rfl⟩
    rw [e3]
    have hd : d' = 0 ∨ d' = 1 := by simp at hd; omega
    rcases hd with rfl | rfl
    · rw [e6] at hv
      rw [List.mem_singleton.mp hv]
      decide
    · rw [e7] at hv; cases hv

end Verif.Props
