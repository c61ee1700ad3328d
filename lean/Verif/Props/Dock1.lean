import Verif.Dock.Hist

/-!
# C54, C55, C56, C59, C60, C68: the dock

In all theorems `cs` is the list of features passed to `Startup`, and `as` any interleaving of the goroutines of the
dock with any packets from any peers, any clock readings and any results of the features' methods.
-/

namespace Verif.Props

open Verif Verif.Codec Verif.Proto Verif.Dock

/-! ## Example features and packets -/

/-- Names used in examples. -/
def nameA : Str := [97]
/-- Another feature of the examples. -/
def nameB : Str := [98]
/-- A feature of another dock. -/
def nameC : Str := [99]
/-- A method of the examples. -/
def methM : Str := [109]
/-- Another method. -/
def methN : Str := [110]

/-- A discoverable feature `a` carried twice, and a hidden feature `b`. -/
def dockDemo : List Carried := [⟨nameA, 1, false⟩, ⟨nameB, 2, false⟩, ⟨nameA, 3, true⟩]

/-- The dock has dialled the hub (peer 0), has been told to listen on port 20001, and a dock offering `c` (peer 2)
has connected and registered. -/
def bootActs : List Act :=
  [.dialHub 0, .storeHub, .greet 0 [nameA], .recv 0 (.registerResponse 20001), .work 0 [], .work 0 [nameA],
   .accept 2 20001, .greet 2 [nameA], .recv 2 (.registerRequest [nameC]), .work 2 [nameA], .work 2 [], .work 2 []]

/-- An execution with a view of its final state. -/
theorem witness {β : Type} {cs : List Carried} {as : List Act} {f : State → β} {b : β}
    (h : (run (State.step cs) State.init as).map f = some b) :
    ∃ s, run (State.step cs) State.init as = some s ∧ f s = b := Option.map_eq_some_iff.mp h

/-! ## C68: A later feature with the same name wins -/

/-- C68: whatever features are carried, a call to a name that is carried by some feature of the dock is handed to the
last feature carried under this name, and no other feature of that name is ever invoked. -/
theorem C68_last_wins (cs : List Carried) (as : List Act) (s : State)
    (h : run (State.step cs) State.init as = some s) (src : Option (Nat × BitVec 64)) (f : Nat) (c : Call)
    (hc : Ev.invoke src f c ∈ s.log) : ∃ g, LastNamed cs c.slot g ∧ g.feature = f := by
  have hH := histInv_run cs as s h
  cases src with
  | none =>
    have h1 : (f, c) ∈ s.log.filterMap localOf := List.mem_filterMap.mpr ⟨_, hc, rfl⟩
    rw [hH.locals] at h1
    obtain ⟨c', _, h2⟩ := List.mem_filterMap.mp h1
    obtain ⟨g, hg, e⟩ := Option.map_eq_some_iff.mp h2
    cases e
    exact ⟨g, (slotsOf_some _ _ _).mp hg, rfl⟩
  | some px =>
    obtain ⟨p, x⟩ := px
    have h1 : (p, x, f, c) ∈ s.log.filterMap remoteOf := List.mem_filterMap.mpr ⟨_, hc, rfl⟩
    obtain ⟨ids, _, hm, he⟩ := hH.invoked
    rw [he] at h1
    obtain ⟨k, hk, e⟩ := List.mem_map.mp h1
    have h2 : (p, x, f, c) ∈ s.log.filterMap (askedOf cs) := by
      rw [hH.asked]
      exact List.mem_map.mpr ⟨k, List.mem_range.mpr ((hm k).mp hk).1, e⟩
    obtain ⟨ev, _, h3⟩ := List.mem_filterMap.mp h2
    unfold askedOf at h3
    split at h3
    · obtain ⟨g, hg, e⟩ := Option.map_eq_some_iff.mp h3
      cases e
      exact ⟨g, (slotsOf_some _ _ _).mp hg, rfl⟩
    · cases h3

/-- C68: the feature that a name refers to depends only on the features carried under this name. -/
theorem C68_others_unaffected (cs cs' : List Carried) (n : Str)
    (h : cs.filter (·.name = n) = cs'.filter (·.name = n)) (f : Carried) :
    LastNamed cs n f ↔ LastNamed cs' n f := by
  have key : ∀ cs : List Carried, LastNamed cs n f ↔ (cs.filter (·.name = n)).getLast? = some f := by
    intro cs
    rw [← slotsOf_some]
    induction cs with
    | nil => simp [slotsOf]
    | cons c cs ih =>
      rw [slotsOf_cons]
      by_cases e : c.name = n
      · cases hs : slotsOf cs n with
        | some g =>
          rw [hs] at ih
          have : (cs.filter (·.name = n)) ≠ [] := by
            intro h0
            have := (slotsOf_none cs n).mpr (by
              intro d hd hn
              have : d ∈ cs.filter (·.name = n) := List.mem_filter.mpr ⟨hd, by simpa using hn⟩
              rw [h0] at this; cases this)
            rw [this] at hs; cases hs
          rw [List.filter_cons_of_pos (by simpa using e), List.getLast?_cons]
          cases hg : (cs.filter (·.name = n)).getLast? with
          | none => exact absurd (List.getLast?_eq_none_iff.mp hg) this
          | some g' => rw [hg] at ih; simpa using ih
        | none =>
          have : (cs.filter (·.name = n)) = [] := by
            rw [List.filter_eq_nil_iff]
            intro d hd
            simpa using (slotsOf_none cs n).mp hs d hd
          rw [List.filter_cons_of_pos (by simpa using e), this]
          simp [e]
      · rw [List.filter_cons_of_neg (by simpa using e), ← ih]
        simp [e]
  rw [key, key, h]

example : LastNamed dockDemo nameA ⟨nameA, 3, true⟩ :=
  ⟨[⟨nameA, 1, false⟩, ⟨nameB, 2, false⟩], [], rfl, rfl, by simp⟩

example : ∃ s, run (State.step dockDemo) State.init [.call ⟨nameA, methM, [], true⟩ 5] = some s ∧
    Ev.invoke none 3 ⟨nameA, methM, [], true⟩ ∈ s.log := ⟨_, rfl, by simp [State.init]⟩

/-! ## C54: Local features are called locally -/

/-- The dock carries a feature of the name that is called. -/
def hosted (cs : List Carried) (c : Call) : Bool := cs.any fun g => g.name = c.slot

/-- C54: the calls handed to features by goroutines of the dock are exactly the calls made to names carried by the
dock, in this order.  (By `C68_last_wins` each is handed to the feature of that name.) -/
theorem C54_invoked (cs : List Carried) (as : List Act) (s : State)
    (h : run (State.step cs) State.init as = some s) :
    (s.log.filterMap localOf).map (·.2) = (s.log.filterMap calledOf).filter (hosted cs) := by
  have hH := histInv_run cs as s h
  rw [hH.locals]
  generalize s.log.filterMap calledOf = l
  induction l with
  | nil => rfl
  | cons c l ih =>
    cases hs : slotsOf cs c.slot with
    | none =>
      have : ¬ hosted cs c = true := by
        intro ha
        obtain ⟨g, hg, hn⟩ := List.any_eq_true.mp ha
        exact (slotsOf_none cs c.slot).mp hs g hg (by simpa using hn)
      rw [List.filterMap_cons, hs, List.filter_cons_of_neg this]; exact ih
    | some f =>
      have : hosted cs c = true := by
        obtain ⟨pre, post, e, hn, _⟩ := (slotsOf_some cs c.slot f).mp hs
        exact List.any_eq_true.mpr ⟨f, by simp [e], by simpa using hn⟩
      rw [List.filterMap_cons, hs, List.filter_cons_of_pos this]
      simpa using ih

/-- C54: the dock never sends a query or a request for a name that one of its own features carries, whatever other
docks register. -/
theorem C54_no_packet (cs : List Carried) (as : List Act) (s : State)
    (h : run (State.step cs) State.init as = some s) (g : Carried) (hg : g ∈ cs) (p : Nat) :
    Ev.sent p (.queryRequest g.name) ∉ s.log ∧
    ∀ x meth args wr, Ev.sent p (.rpcRequest x g.name meth args wr) ∉ s.log := by
  have hH := histInv_run cs as s h
  have hn : slotsOf cs g.name ≠ none := fun h => (slotsOf_none cs g.name).mp h g hg rfl
  exact ⟨fun h => hn (hH.sent p _ h), fun x meth args wr h => hn (hH.sent p _ h)⟩

/-- The call itself sends nothing at all. -/
theorem C54_call_sends_nothing (cs : List Carried) (s t : State) (c : Call) (clock : BitVec 64) (g : Carried)
    (hg : g ∈ cs) (hn : g.name = c.slot) (h : s.step cs (.call c clock) = some t) :
    (∀ p pkt, Ev.sent p pkt ∈ t.log → Ev.sent p pkt ∈ s.log) ∧ t.n = s.n ∧ t.rpcs = s.rpcs := by
  have hs : slotsOf cs c.slot ≠ none := fun h => (slotsOf_none cs c.slot).mp h g hg hn
  unfold State.step at h
  split at h
  · cases h
  · simp only at h
    split at h
    · cases h
      exact ⟨fun p pkt h => by simpa using h, rfl, rfl⟩
    · rename_i he; exact absurd he hs

/-- Another dock offers `a` as well; the call of `a` is still local. -/
example : ∃ s, run (State.step dockDemo) State.init (bootActs ++
    [.recv 2 (.registerRequest [nameA]), .work 2 [nameA], .work 2 [], .work 2 [],
     .call ⟨nameA, methM, [], true⟩ 5]) = some s ∧
    (s.remote nameA, s.log.filterMap localOf) = (some 2, [(3, ⟨nameA, methM, [], true⟩)]) := witness rfl

/-! ## C55: A remote call is sent at most once -/

/-- C55: the request packets that have left the dock, to whatever peers, are the requests of pairwise distinct calls:
there is a list of calls without repetition such that the `j`-th packet is the request of the `j`-th call. -/
theorem C55_at_most_once (cs : List Carried) (as : List Act) (s : State)
    (h : run (State.step cs) State.init as = some s) :
    ∃ ids : List Nat, ids.Nodup ∧ (∀ i ∈ ids, i < s.n) ∧ s.log.filterMap requestOf = ids.map (fun i =>
      Proto.rpcRequest (s.index i) (s.call i).slot (s.call i).meth (s.call i).args (s.call i).withResult) := by
  have hR := (rpcInv_run cs as s h).1
  obtain ⟨ids, hd, hm, he⟩ := hR.sent
  exact ⟨ids, hd, fun i hi => hR.lt ((hm i).mp hi).1, he⟩

/-- The number of requests with a given index that have left the dock. -/
def sentWith (x : BitVec 64) (log : List Ev) : Nat :=
  (log.filter fun e => match e with
    | .sent _ (.rpcRequest y _ _ _ _) => x = y
    | _ => false).length

theorem sentWith_eq (x : BitVec 64) (log : List Ev) : sentWith x log =
    ((log.filterMap requestOf).filter fun q => match q with
      | .rpcRequest y _ _ _ _ => x = y
      | _ => false).length := by
  unfold sentWith
  induction log with
  | nil => rfl
  | cons e log ih =>
    cases e with
    | sent p pkt =>
      cases pkt with
      | rpcRequest y a b c d =>
        by_cases hx : x = y
        · simp [List.filterMap_cons, requestOf, hx] at ih ⊢; simpa [hx] using ih
        · simp [List.filterMap_cons, requestOf, hx] at ih ⊢; simpa [hx] using ih
      | _ => simpa [List.filterMap_cons, requestOf] using ih
    | _ => simpa [List.filterMap_cons, requestOf] using ih

/-- C55, by index: if the calls have distinct indices, at most one packet with the index of a call is sent. -/
theorem C55_by_index (cs : List Carried) (as : List Act) (s : State)
    (h : run (State.step cs) State.init as = some s)
    (hd : ∀ i j, i < s.n → j < s.n → s.index i = s.index j → i = j) (x : BitVec 64) : sentWith x s.log ≤ 1 := by
  obtain ⟨ids, hn, hlt, he⟩ := C55_at_most_once cs as s h
  rw [sentWith_eq, he, List.filter_map, List.length_map]
  generalize hf : List.filter _ ids = l
  have hl : ∀ i ∈ l, i ∈ ids ∧ x = s.index i := by
    intro i hi
    rw [← hf] at hi
    simpa using List.mem_filter.mp hi
  have hnd : l.Nodup := by rw [← hf]; exact List.Pairwise.filter _ hn
  match l, hl, hnd with
  | [], _, _ => simp
  | [_], _, _ => simp
  | a :: b :: _, hl, hnd =>
    have ha := hl a (by simp)
    have hb := hl b (by simp)
    have : a = b := hd a b (hlt a ha.1) (hlt b hb.1) (by rw [← ha.2, ← hb.2])
    subst this
    simp at hnd

/-- A call of the remote feature `c`, committed when `c` was unknown, found by the hub, and sent when the dock that
offers it is ready; another ready packet does not send it again. -/
def remoteActs : List Act :=
  [.dialHub 0, .storeHub, .call ⟨nameC, methM, [], true⟩ 77, .store 0, .setReq 0, .commit 0,
   .recv 0 (.queryResponse [49]), .dialOK 0 1, .work 0 [],
   .recv 1 (.registerRequest [nameC]), .work 1 [nameA], .work 1 [], .work 1 [],
   .recv 1 (.ready [nameC]), .work 1 [], .visit 1 0, .work 1 [], .work 1 [], .work 1 [], .work 1 [],
   .recv 1 (.ready [nameC]), .work 1 [], .visit 1 0, .work 1 [], .work 1 []]

example : ∃ s, run (State.step dockDemo) State.init remoteActs = some s ∧
    s.log.filterMap requestOf = [.rpcRequest 77 nameC methM [] true] ∧ s.n = 1 := ⟨_, rfl, rfl, rfl⟩

/-! ## C56: Remote answers reach the call they belong to -/

/-- C56: the result of a remote call was carried by a response with the index of this call. -/
theorem C56_own_response (cs : List Carried) (as : List Act) (s : State)
    (h : run (State.step cs) State.init as = some s) (i : Nat) (r : Ret)
    (hr : s.phase i = .received r ∨ s.phase i = .returned r) :
    ∃ p slot meth, Ev.recv p (.rpcResponse (s.index i) slot meth r.result r.err) ∈ s.log := by
  refine (rpcInv_run cs as s h).1.result i r ?_
  rcases hr with hr | hr <;> rw [hr] <;> rfl

theorem phase_stable (cs : List Carried) (s : State) (a : Act) (t : State) (hR : RpcInv s) (i : Nat) (r : Ret)
    (h : (s.phase i).result = some r) (hs : s.step cs a = some t) : (t.phase i).result = some r := by
  have kp : ∀ (j : Nat) (ph : CallPhase), ((s.phase j).result = some r → ph.result = some r) →
      (upd s.phase j ph i).result = some r := by
    intro j ph hj
    by_cases e : i = j
    · subst e; rw [upd_same]; exact hj h
    · rw [upd_other _ _ e]; exact h
  unfold State.step at hs
  split at hs
  · cases hs
  cases a with
  | commit j =>
    simp only at hs
    split at hs
    · rename_i hph; cases hs; exact kp _ _ (by rw [hph]; intro h; cases h)
    · cases hs
  | work p order =>
    simp only [State.work] at hs
    repeat' split at hs
    all_goals cases hs
    all_goals first
      | exact h
      | (show (((s.doCommit _).phase) i).result = some r; rw [(doCommit_same s _).2.2.2.1]; exact h)
  | recv p pkt =>
    simp only [State.onPacket] at hs
    repeat' split at hs
    all_goals cases hs
    all_goals exact h
  | call c clock =>
    simp only at hs
    split at hs
    · cases hs; exact h
    · cases hs
      exact kp _ _ (by rw [hR.fresh s.n (Nat.le_refl _)]; intro h; cases h)
  | _ =>
    simp only [State.connected] at hs
    repeat' split at hs
    all_goals cases hs
    all_goals first
      | exact h
      | (rename_i hph; exact kp _ _ (by rw [hph]; intro h; exact h))
      | (rename_i hph; exact kp _ _ (by rw [hph]; intro h; contradiction))
      | (rename_i hph _; exact kp _ _ (by rw [hph]; intro h; cases h))

/-- C56: a call returns at most once: the result it has got never changes in any continuation. -/
theorem C56_once (cs : List Carried) (as bs : List Act) (s t : State)
    (h : run (State.step cs) State.init as = some s) (h' : run (State.step cs) s bs = some t) (i : Nat) (r r' : Ret)
    (hr : s.phase i = .received r ∨ s.phase i = .returned r)
    (hr' : t.phase i = .received r' ∨ t.phase i = .returned r') : r' = r := by
  have h1 : (s.phase i).result = some r := by rcases hr with hr | hr <;> rw [hr] <;> rfl
  have h2 : (t.phase i).result = some r' := by rcases hr' with hr | hr <;> rw [hr] <;> rfl
  have := (run_inv (I := fun s => (RpcInv s ∧ HandInv s) ∧ (s.phase i).result = some r)
    (fun s a t hI h => ⟨⟨rpcInv_step cs s a t hI.1.2 hI.1.1 h, handInv_step cs s a t hI.1.1 hI.1.2 h⟩,
      phase_stable cs s a t hI.1.1 i r hI.2 h⟩) bs s t ⟨rpcInv_run cs as s h, h1⟩ h').2
  rw [h2] at this
  exact Option.some.inj this

/-- The call of `remoteActs` is answered. -/
def answeredActs : List Act := remoteActs ++
  [.recv 1 (.rpcResponse 77 nameC methM [.bool 0 true] []), .callback 0, .receive 0, .closeChan 0, .delete 0]

example : ∃ s, run (State.step dockDemo) State.init answeredActs = some s ∧
    s.phase 0 = .returned ⟨[.bool 0 true], []⟩ := ⟨_, rfl, rfl⟩

/-! ## C59: Only discoverable features are advertised -/

/-- C59: the names in a register or ready packet sent by the dock are, each once, exactly the names for which the
feature reached by calls is discoverable. -/
theorem C59_advertised (cs : List Carried) (as : List Act) (s : State)
    (h : run (State.step cs) State.init as = some s) (p : Nat) (slots : List Str)
    (hs : Ev.sent p (.registerRequest slots) ∈ s.log ∨ Ev.sent p (.ready slots) ∈ s.log) :
    slots.Nodup ∧ ∀ n, n ∈ slots ↔ ∃ f, LastNamed cs n f ∧ f.discoverable = true := by
  have hH := histInv_run cs as s h
  rcases hs with hs | hs
  · exact isPerm_collect (hH.sent p _ hs)
  · exact isPerm_collect (hH.sent p _ hs)

/-- With pairwise distinct names these are the names of the discoverable features. -/
theorem C59_distinct_names (cs : List Carried) (hd : (cs.map (·.name)).Nodup) (n : Str) :
    (∃ f, LastNamed cs n f ∧ f.discoverable = true) ↔ ∃ f ∈ cs, f.name = n ∧ f.discoverable = true := by
  constructor
  · rintro ⟨f, ⟨pre, post, e, hn, _⟩, hf⟩
    exact ⟨f, by simp [e], hn, hf⟩
  · rintro ⟨f, hm, hn, hf⟩
    obtain ⟨pre, post, e⟩ := List.append_of_mem hm
    refine ⟨f, ⟨pre, post, e, hn, ?_⟩, hf⟩
    intro g hg hgn
    rw [e, List.map_append, List.nodup_append, List.map_cons, List.nodup_cons] at hd
    exact hd.2.1.1 (List.mem_map.mpr ⟨g, hg, by rw [hgn, hn]⟩)

/-- What the dock has sent. -/
def sentOf : Ev → Option (Nat × Proto)
  | .sent p pkt => some (p, pkt)
  | _ => none

example : ∃ s, run (State.step dockDemo) State.init bootActs = some s ∧ s.log.filterMap sentOf =
    [(0, .registerRequest [nameA]), (0, .ready [nameA]), (2, .registerRequest [nameA]), (2, .ready [nameA])] :=
  witness rfl

example : (([⟨nameA, 3, true⟩, ⟨nameB, 2, false⟩] : List Carried).map (·.name)).Nodup := by decide

/-! ## C60: Non-discoverable features are unreachable from outside -/

/-- C60 (refuted): a peer asks for the hidden feature `b` by name, and its method is executed. -/
theorem C60_hidden_refuted : ∃ cs as s p x f c, run (State.step cs) State.init as = some s ∧
    Ev.invoke (some (p, x)) f c ∈ s.log ∧ ∀ g ∈ cs, g.name = c.slot → g.discoverable = false := by
  obtain ⟨s, h, e⟩ := witness (cs := dockDemo) (as := bootActs ++ [.recv 2 (.rpcRequest 9 nameB methM [] true), .invoke 0])
    (f := fun s => s.log.getLast?) (b := some (.invoke (some (2, 9)) 2 ⟨nameB, methM, [], true⟩)) rfl
  exact ⟨dockDemo, _, s, 2, 9, 2, ⟨nameB, methM, [], true⟩, h, List.mem_of_getLast? e, by decide⟩

/-- C60 (partial): what is executed on behalf of a peer was asked for by this peer in a request with this index, slot,
method and arguments, and every such request is executed at most once: the executions are, in some order, those of
pairwise distinct received requests. -/
theorem C60_only_asked_partial (cs : List Carried) (as : List Act) (s : State)
    (h : run (State.step cs) State.init as = some s) :
    ∃ ids : List Nat, ids.Nodup ∧ (∀ k ∈ ids, k < (s.log.filterMap (askedOf cs)).length) ∧
      s.log.filterMap remoteOf = ids.filterMap fun k => (s.log.filterMap (askedOf cs))[k]? := by
  have hH := histInv_run cs as s h
  obtain ⟨ids, h1, h2, h3⟩ := hH.invoked
  refine ⟨ids, h1, ?_, ?_⟩
  · intro k hk
    rw [hH.asked, List.length_map, List.length_range]
    exact ((h2 k).mp hk).1
  · rw [h3, hH.asked]
    have : ∀ k ∈ ids, ((List.range s.nx).map fun k => (s.exec k).key)[k]? = some ((s.exec k).key) := by
      intro k hk
      simp [((h2 k).mp hk).1]
    clear h1 h2 h3
    induction ids with
    | nil => rfl
    | cons k ids ih =>
      rw [List.map_cons, List.filterMap_cons, this k (List.mem_cons_self ..)]
      simp only
      rw [ih fun j hj => this j (List.mem_cons_of_mem _ hj)]

/-- A peer asks twice, for different methods; the second request is executed. -/
example : ∃ s, run (State.step dockDemo) State.init (bootActs ++ [.recv 2 (.rpcRequest 9 nameB methM [] true),
      .recv 2 (.rpcRequest 9 nameA methM [] true), .invoke 1]) = some s ∧
    (s.log.filterMap (askedOf dockDemo)).length = 2 ∧ (s.log.filterMap remoteOf).length = 1 := by
  obtain ⟨s, h, e⟩ := witness (cs := dockDemo) (as := bootActs ++ [.recv 2 (.rpcRequest 9 nameB methM [] true),
      .recv 2 (.rpcRequest 9 nameA methM [] true), .invoke 1])
    (f := fun s => ((s.log.filterMap (askedOf dockDemo)).length, (s.log.filterMap remoteOf).length)) (b := (2, 1)) rfl
  exact ⟨s, h, congrArg Prod.fst e, congrArg Prod.snd e⟩

end Verif.Props
