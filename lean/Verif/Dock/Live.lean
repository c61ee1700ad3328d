import Verif.Dock.Facts

/-!
# What the goroutines of a dock can do when nobody disturbs them

For each packet, the steps with which its handler gets to the end, and the state in which it leaves the dock.
-/

namespace Verif.Dock

open Verif Verif.Codec Verif.Proto

theorem upd_upd {ι : Type} [DecidableEq ι] {β : Type} (f : ι → β) (i : ι) (x y : β) : upd (upd f i x) i y = upd f i y := by
  funext j
  by_cases h : j = i
  · subst h; simp
  · rw [upd_other _ _ h, upd_other _ _ h, upd_other _ _ h]

theorem upd_self {ι : Type} [DecidableEq ι] {β : Type} (f : ι → β) (i : ι) : upd f i (f i) = f := by
  funext j
  by_cases h : j = i
  · subst h; simp
  · rw [upd_other _ _ h]

/-- The handler of peer `p` is somewhere else. -/
def State.put (s : State) (p : Nat) (h : Handler) : State := { s with handler := upd s.handler p h }

theorem put_put (s : State) (p : Nat) (a b : Handler) : (s.put p a).put p b = s.put p b := by
  simp only [State.put, upd_upd]

theorem put_self (s : State) (p : Nat) : s.put p (s.handler p) = s := by
  simp only [State.put, upd_self]

/-- Steps of the handler of peer `p`. -/
def Own (p : Nat) (a : Act) : Prop := (∃ o, a = .work p o) ∨ ∃ j, a = .visit p j

/-- From `s` the handler of peer `p` can get to `t` on its own. -/
def Goes (cs : List Carried) (p : Nat) (s t : State) : Prop :=
  ∃ as, (∀ a ∈ as, Own p a) ∧ run (State.step cs) s as = some t

theorem Goes.refl (cs : List Carried) (p : Nat) (s : State) : Goes cs p s s := ⟨[], by simp, rfl⟩

theorem Goes.trans {cs : List Carried} {p : Nat} {s t u : State} (h : Goes cs p s t) (h' : Goes cs p t u) : Goes cs p s u := by
  obtain ⟨as, h1, h2⟩ := h
  obtain ⟨bs, h3, h4⟩ := h'
  refine ⟨as ++ bs, ?_, by rw [run_append, h2]; exact h4⟩
  intro a ha
  rcases List.mem_append.mp ha with ha | ha
  · exact h1 a ha
  · exact h3 a ha

theorem Goes.one {cs : List Carried} {p : Nat} {s t : State} (a : Act) (ha : Own p a) (h : s.step cs a = some t) : Goes cs p s t :=
  ⟨[a], by simpa using ha, by simp [run, h]⟩

section
variable {cs : List Carried}

/-- The rest of the loop over `d.rpcs`, if no unsent call is for the slot. -/
theorem scan_rest (s : State) (p : Nat) (slot : Str) (rest : List Str) (start : List Nat) (hd : s.dead = false)
    (hn : ∀ j, s.req j = true → (s.call j).slot ≠ slot) (todo : List Nat) : ∀ visited : List Nat,
    (∀ j ∈ start, j ∈ visited ∨ j ∈ todo ∨ s.rpcs (s.index j) ≠ some j) →
    Goes cs p (s.put p (.scan slot rest start visited)) (s.put p (.slots rest)) := by
  induction todo with
  | nil =>
    intro visited h
    refine Goes.one (.work p []) (Or.inl ⟨_, rfl⟩) ?_
    have h' : (start.all fun i => decide (i ∈ visited ∨ s.rpcs (s.index i) ≠ some i)) = true := by
      rw [List.all_eq_true]
      intro j hj
      rcases h j hj with h | h | h
      · simp [h]
      · cases h
      · simp [h]
    simp only [State.step, State.put, hd, State.work, upd_same]
    rw [if_neg (by simp), if_pos h', upd_upd]
  | cons j todo ih =>
    intro visited h
    by_cases hj : s.rpcs (s.index j) = some j ∧ j ∉ visited
    · have key := ih (j :: visited) (by
        intro k hk
        rcases h k hk with h | h | h
        · exact Or.inl (List.mem_cons_of_mem _ h)
        · rcases List.mem_cons.mp h with rfl | h
          · exact Or.inl List.mem_cons_self
          · exact Or.inr (Or.inl h)
        · exact Or.inr (Or.inr h))
      refine Goes.trans ?_ key
      cases hr : s.req j with
      | false =>
        refine Goes.one (.visit p j) (Or.inr ⟨_, rfl⟩) ?_
        simp only [State.step, State.put, hd, upd_same]
        rw [if_neg (by simp), if_pos hj, hr, if_neg (by simp), upd_upd]
      | true =>
        refine Goes.trans (t := s.put p (.tested slot rest start (j :: visited) j)) ?_ ?_
        · refine Goes.one (.visit p j) (Or.inr ⟨_, rfl⟩) ?_
          simp only [State.step, State.put, hd, upd_same]
          rw [if_neg (by simp), if_pos hj, hr, upd_upd]
          rfl
        · refine Goes.one (.work p []) (Or.inl ⟨_, rfl⟩) ?_
          simp only [State.step, State.put, hd, State.work, upd_same, hr]
          rw [if_neg (by simp), if_pos trivial, if_neg (hn j hr), upd_upd]
    · refine ih visited ?_
      intro k hk
      rcases h k hk with h | h | h
      · exact Or.inl h
      · rcases List.mem_cons.mp h with rfl | h
        · by_cases hv : k ∈ visited
          · exact Or.inl hv
          · exact Or.inr (Or.inr fun h' => hj ⟨h', hv⟩)
        · exact Or.inr (Or.inl h)
      · exact Or.inr (Or.inr h)

/-- A ready packet, if no unsent call is for one of its slots. -/
theorem ready_none (s : State) (p : Nat) (slots : List Str) (hd : s.dead = false)
    (hn : ∀ j, s.req j = true → (s.call j).slot ∉ slots) : Goes cs p (s.put p (.slots slots)) (s.put p .idle) := by
  induction slots with
  | nil =>
    refine Goes.one (.work p []) (Or.inl ⟨_, rfl⟩) ?_
    simp [State.step, State.put, hd, State.work, upd_upd]
  | cons slot rest ih =>
    refine Goes.trans (t := s.put p (.scan slot rest s.pending [])) ?_ ?_
    · refine Goes.one (.work p []) (Or.inl ⟨_, rfl⟩) ?_
      simp only [State.step, State.put, hd, State.work, upd_same, upd_upd]
      rfl
    · refine Goes.trans (scan_rest s p slot rest s.pending hd ?_ s.pending [] (fun j hj => Or.inr (Or.inl hj))) ?_
      · intro j hj e
        exact hn j hj (by rw [e]; exact List.mem_cons_self)
      · exact ih fun j hj h => hn j hj (List.mem_cons_of_mem _ h)

/-- What is left when the request of call `i` has gone to peer `q`. -/
def State.sends (s : State) (i q : Nat) : State :=
  { s with req := upd s.req i false, log := s.log ++ [.sent q (s.request i)] }

/-- A ready packet, if the only unsent call for one of its slots is `i`. -/
theorem ready_one (s : State) (p : Nat) (slots : List Str) (i q : Nat) (hd : s.dead = false)
    (hn : ∀ j, s.req j = true → (s.call j).slot ∈ slots → j = i) (hi : s.req i = true) (hp : s.rpcs (s.index i) = some i)
    (hr : s.remote (s.call i).slot = some q) (hm : (s.call i).slot ∈ slots) :
    Goes cs p (s.put p (.slots slots)) ((s.sends i q).put p .idle) := by
  induction slots with
  | nil => cases hm
  | cons slot rest ih =>
    refine Goes.trans (t := s.put p (.scan slot rest s.pending [])) ?_ ?_
    · refine Goes.one (.work p []) (Or.inl ⟨_, rfl⟩) ?_
      simp only [State.step, State.put, hd, State.work, upd_same, upd_upd]
      rfl
    · by_cases e : (s.call i).slot = slot
      · refine Goes.trans (t := s.put p (.tested slot rest s.pending [i] i)) ?_ ?_
        · refine Goes.one (.visit p i) (Or.inr ⟨_, rfl⟩) ?_
          simp only [State.step, State.put, hd, upd_same]
          rw [if_neg (by simp), if_pos ⟨hp, by simp⟩, hi, upd_upd]
          rfl
        refine Goes.trans (t := s.put p (.commit slot rest s.pending [i] i)) ?_ ?_
        · refine Goes.one (.work p []) (Or.inl ⟨_, rfl⟩) ?_
          simp only [State.step, State.put, hd, State.work, upd_same, hi]
          rw [if_neg (by simp), if_pos trivial, if_pos e, upd_upd]
        have hn' : ∀ j, (s.sends i q).req j = true → (s.call j).slot ∉ slot :: rest := by
          intro j hj h
          simp only [State.sends] at hj
          by_cases e' : j = i
          · subst e'; simp at hj
          · rw [upd_other _ _ e'] at hj
            exact e' (hn j hj h)
        refine Goes.trans (t := (s.sends i q).put p (.scan slot rest s.pending [i])) ?_ ?_
        · refine Goes.one (.work p []) (Or.inl ⟨_, rfl⟩) ?_
          simp only [State.step, State.put, hd, State.work, upd_same, State.doCommit, hi, hr, State.sends, State.request]
          rw [if_neg (by simp), if_pos trivial, upd_upd]
        refine Goes.trans (scan_rest (s.sends i q) p slot rest s.pending hd ?_ s.pending [i] (fun j hj => Or.inr (Or.inl hj))) ?_
        · intro j hj e'
          exact hn' j hj (by show (s.call j).slot ∈ _; rw [show (s.call j).slot = slot from e']; exact List.mem_cons_self)
        · exact ready_none (s.sends i q) p rest hd fun j hj h => hn' j hj (List.mem_cons_of_mem _ h)
      · refine Goes.trans (scan_rest s p slot rest s.pending hd ?_ s.pending [] (fun j hj => Or.inr (Or.inl hj))) ?_
        · intro j hj e'
          have := hn j hj (by rw [e']; exact List.mem_cons_self)
          subst this
          exact e e'
        · refine ih (fun j hj h => hn j hj (List.mem_cons_of_mem _ h)) ?_
          rcases List.mem_cons.mp hm with h | h
          · exact absurd h e
          · exact h

/-- `remoteSlots` after a register request of peer `p`. -/
def learn (p : Nat) (slots : List Str) (t : Str → Option Nat) : Str → Option Nat :=
  slots.foldl (fun t x => upd t x (some p)) t

theorem learn_other (p : Nat) (slots : List Str) (t : Str → Option Nat) (x : Str) (h : x ∉ slots) : learn p slots t x = t x := by
  induction slots generalizing t with
  | nil => rfl
  | cons y l ih =>
    have h' := not_or.mp (fun hh => h (List.mem_cons.mpr hh))
    show learn p l (upd t y (some p)) x = t x
    rw [ih _ h'.2, upd_other _ _ h'.1]

theorem learn_mem (p : Nat) (slots : List Str) (t : Str → Option Nat) (x : Str) (h : x ∈ slots) : learn p slots t x = some p := by
  induction slots generalizing t with
  | nil => cases h
  | cons y l ih =>
    show learn p l (upd t y (some p)) x = some p
    by_cases hx : x ∈ l
    · exact ih _ hx
    · rw [learn_other _ _ _ _ hx]
      rcases List.mem_cons.mp h with rfl | h
      · simp
      · exact absurd h hx

theorem cache_all (s : State) (p : Nat) (slots : List Str) (hd : s.dead = false) :
    Goes cs p (s.put p (.cache slots)) (({ s with remote := learn p slots s.remote } : State).put p .idle) := by
  induction slots generalizing s with
  | nil =>
    refine Goes.one (.work p []) (Or.inl ⟨_, rfl⟩) ?_
    simp [State.step, State.put, hd, State.work, upd_upd, learn]
  | cons slot rest ih =>
    refine Goes.trans (t := ({ s with remote := upd s.remote slot (some p) } : State).put p (.cache rest)) ?_ ?_
    · refine Goes.one (.work p []) (Or.inl ⟨_, rfl⟩) ?_
      simp [State.step, State.put, hd, State.work, upd_upd]
    · exact ih { s with remote := upd s.remote slot (some p) } hd

theorem isPerm_refl (l : List Str) : l.isPerm l = true := List.isPerm_iff.mpr (List.Perm.refl _)

/-- A register request. -/
theorem reply_all (s : State) (p : Nat) (slots : List Str) (hd : s.dead = false) :
    Goes cs p (s.put p (.reply slots)) (({ s with
      remote := learn p slots s.remote, log := s.log ++ [.sent p (.ready (collectOf cs))] } : State).put p .idle) := by
  refine Goes.trans (t := ({ s with log := s.log ++ [.sent p (.ready (collectOf cs))] } : State).put p (.cache slots)) ?_ ?_
  · refine Goes.one (.work p (collectOf cs)) (Or.inl ⟨_, rfl⟩) ?_
    simp only [State.step, State.put, hd, State.work, upd_same, upd_upd]
    rw [if_neg (by simp), if_pos (isPerm_refl _)]
  · exact cache_all { s with log := s.log ++ [.sent p (.ready (collectOf cs))] } p slots hd

/-- A remote call is on its way: it waits for its answer, and its request has been sent if `rq` is false. -/
def State.calling (s : State) (c : Call) (clock : BitVec 64) (rq : Bool) (l : List Ev) : State :=
  { s with
    n := s.n + 1, call := upd s.call s.n c, index := upd s.index s.n clock, phase := upd s.phase s.n .waiting
    req := upd s.req s.n rq, rpcs := upd s.rpcs clock (some s.n), log := s.log ++ .called c :: l }

/-- A call of a feature of which a peer is known. -/
theorem call_known (s : State) (c : Call) (clock : BitVec 64) (q : Nat) (hd : s.dead = false) (hc : slotsOf cs c.slot = none)
    (hr : s.remote c.slot = some q) :
    run (State.step cs) s [.call c clock, .store s.n, .setReq s.n, .commit s.n] = some (s.calling c clock false
      [.sent q (.rpcRequest clock c.slot c.meth c.args c.withResult)]) := by
  simp [run, State.step, hd, hc, State.doCommit, hr, upd_upd, State.request, State.calling]

/-- A call of a feature of which no peer is known. -/
theorem call_unknown (s : State) (c : Call) (clock : BitVec 64) (e : Nat) (k : Sock) (ks : List Sock) (hd : s.dead = false)
    (hc : slotsOf cs c.slot = none) (hr : s.remote c.slot = none) (hk : s.sockets = k :: ks)
    (hp : s.peers.filter (fun x => x.2 = k) = [(e, k)]) :
    run (State.step cs) s [.call c clock, .store s.n, .setReq s.n, .commit s.n] = some (s.calling c clock true
      [.sent e (.queryRequest c.slot)]) := by
  simp [run, State.step, hd, hc, State.doCommit, hr, upd_upd, State.calling, hk, hp]

/-- What is left when execution `k` has been answered. -/
def State.served (s : State) (k : Nat) (r : Ret) : State :=
  let x := s.exec k
  { s with
    exec := upd s.exec k { x with phase := .over }
    log := s.log ++ [.invoke (some (x.peer, x.index)) x.feature x.call, .returned (x.peer, x.index) x.feature x.call r,
      .sent x.peer (.rpcResponse x.index x.call.slot x.call.meth (if x.call.withResult then r.result else []) r.err)] }

theorem serve (s : State) (k : Nat) (r : Ret) (hd : s.dead = false) (hk : (s.exec k).phase = .spawned) :
    run (State.step cs) s [.invoke k, .finish k r, .respond k] = some (s.served k r) := by
  simp [run, State.step, hd, hk, upd_upd, State.served]

/-- What is left when the callback of index `k` has delivered its result to the call. -/
def State.answered (s : State) (k : Nat) : State :=
  let x := s.cb k
  { s with
    chan := upd s.chan x.rpc none, chanClosed := upd s.chanClosed x.rpc true
    phase := upd s.phase x.rpc (.returned x.ret), rpcs := upd s.rpcs x.index none
    cb := upd s.cb k { x with phase := .over } }

theorem answer (s : State) (k : Nat) (hd : s.dead = false) (hk : (s.cb k).phase = .sending)
    (h1 : s.chanClosed (s.cb k).rpc = false) (h2 : s.chan (s.cb k).rpc = none) (h3 : s.phase (s.cb k).rpc = .waiting) :
    run (State.step cs) s [.callback k, .receive (s.cb k).rpc, .closeChan (s.cb k).rpc, .delete k] = some (s.answered k) := by
  simp [run, State.step, hd, hk, h1, h2, h3, upd_upd, State.answered]

end

end Verif.Dock
