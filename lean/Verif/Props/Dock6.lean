import Verif.Props.Dock5

/-!
# C85 to C87: answers to registrations, the loop over pending calls, starting the features
-/

namespace Verif.Props

open Verif Verif.Codec Verif.Proto Verif.Dock

/-! ## C85: Every registration is answered -/

/-- The number of ready packets sent to peer `p`. -/
def readyTo (p : Nat) (log : List Ev) : Nat :=
  log.countP fun e => match e with
    | .sent q (.ready _) => q = p
    | _ => false

/-- The number of register packets, requests or responses, received from peer `p`. -/
def registersFrom (p : Nat) (log : List Ev) : Nat :=
  log.countP fun e => match e with
    | .recv q (.registerRequest _) => q = p
    | .recv q (.registerResponse _) => q = p
    | _ => false

/-- The handler has not sent the ready packet yet. -/
def unanswered : Handler → Nat
  | .reply _ => 1
  | .listening _ => 1
  | .announce => 1
  | _ => 0

/-- Every register request of a peer is answered or is going to be by its handler. -/
def ReadyInv (s : State) : Prop :=
  ∀ p, readyTo p s.log + unanswered (s.handler p) = registersFrom p s.log

theorem readyInv_gen {s t : State} (l : List Ev) (I : ReadyInv s) (hl : t.log = s.log ++ l)
    (h : ∀ p, readyTo p l + unanswered (t.handler p) = registersFrom p l + unanswered (s.handler p)) : ReadyInv t := by
  intro p
  have h1 := I p
  have h2 := h p
  have h3 : readyTo p t.log = readyTo p s.log + readyTo p l := by rw [hl]; exact List.countP_append
  have h4 : registersFrom p t.log = registersFrom p s.log + registersFrom p l := by rw [hl]; exact List.countP_append
  omega

/-- `l` has no ready and no register packets. -/
def silent (l : List Ev) : Prop := ∀ p, readyTo p l = 0 ∧ registersFrom p l = 0

theorem readyInv_same {s t : State} (l : List Ev) (I : ReadyInv s) (hl : t.log = s.log ++ l)
    (hh : t.handler = s.handler) (hs : silent l) : ReadyInv t :=
  readyInv_gen l I hl fun p => by rw [hh, (hs p).1, (hs p).2]

theorem readyInv_hand {s t : State} (l : List Ev) (p : Nat) {h : Handler} (I : ReadyInv s) (hl : t.log = s.log ++ l)
    (hh : t.handler = upd s.handler p h)
    (hp : readyTo p l + unanswered h = registersFrom p l + unanswered (s.handler p))
    (hn : ∀ q, q ≠ p → readyTo q l = 0 ∧ registersFrom q l = 0) : ReadyInv t := by
  refine readyInv_gen l I hl fun q => ?_
  rw [hh]
  by_cases e : q = p
  · subst e; rw [upd_same]; exact hp
  · rw [upd_other _ _ e, (hn q e).1, (hn q e).2]

theorem silent_sent {l : List Ev} (h : ∀ e ∈ l, (∃ p pkt, e = .sent p pkt ∧ ∀ slots, pkt ≠ .ready slots) ∨
    (∀ p pkt, e ≠ .sent p pkt ∧ e ≠ .recv p pkt)) : silent l := by
  intro p
  constructor
  · refine List.countP_eq_zero.mpr ?_
    intro e he
    rcases h e he with ⟨q, pkt, rfl, hn⟩ | hn
    · cases pkt <;> first | exact absurd rfl (hn _) | simp
    · cases e <;> first | exact absurd rfl (hn _ _).1 | simp
  · refine List.countP_eq_zero.mpr ?_
    intro e he
    rcases h e he with ⟨q, pkt, rfl, hn⟩ | hn
    · simp
    · cases e <;> first | exact absurd rfl (hn _ _).2 | simp

theorem readyInv_commit {s : State} {i : Nat} (I : ReadyInv s) : ReadyInv (s.doCommit i) := by
  obtain ⟨l, h1, h2⟩ := doCommit_log s i
  refine readyInv_same l I h1 (doCommit_same s i).2.2.2.2.2.2.2.2.2.2.1 (silent_sent ?_)
  intro e he
  obtain ⟨p, pkt, rfl, h3⟩ := h2 e he
  refine Or.inl ⟨p, pkt, rfl, ?_⟩
  rintro slots rfl
  rcases h3 with h3 | h3 <;> cases h3

theorem readyInv_step (cs : List Carried) (s : State) (a : Act) (t : State) (I : ReadyInv s)
    (h : s.step cs a = some t) : ReadyInv t := by
  have nil : silent [] := fun p => ⟨rfl, rfl⟩
  unfold State.step at h
  split at h
  · cases h
  cases a with
  | commit i =>
    simp only at h
    split at h
    · cases h
      exact readyInv_same [] (readyInv_commit (i := i) I) (List.append_nil _).symm rfl nil
    · cases h
  | recv p pkt =>
    simp only at h
    split at h
    · rename_i hp
      split at h
      · cases h
        have hid : s.handler = upd s.handler p .idle := by
          funext q
          by_cases e : q = p
          · subst e; rw [upd_same, hp]
          · rw [upd_other _ _ e]
        cases pkt
        all_goals simp only [State.onPacket]
        all_goals repeat' split
        all_goals first
          | exact readyInv_hand [_] p I rfl rfl (by rw [hp]; simp [readyTo, registersFrom, unanswered])
              (fun q hq => by simp [readyTo, registersFrom, Ne.symm hq])
          | exact readyInv_hand [_, _] p I (List.append_assoc ..) rfl
              (by rw [hp]; simp [readyTo, registersFrom, unanswered])
              (fun q hq => by simp [readyTo, registersFrom, Ne.symm hq])
          | exact readyInv_hand [_] p I rfl hid (by rw [hp]; simp [readyTo, registersFrom, unanswered])
              (fun q hq => by simp [readyTo, registersFrom])
      · cases h
    · cases h
  | visit p i =>
    simp only at h
    split at h
    · rename_i hp
      repeat' split at h
      all_goals cases h
      all_goals exact readyInv_hand [] p I (List.append_nil _).symm rfl (by rw [hp]; rfl) fun q _ => nil q
    · cases h
  | work p order =>
    simp only [State.work] at h
    split at h
    all_goals (rename_i hp; repeat' split at h)
    all_goals cases h
    all_goals first
      | exact readyInv_hand [] p I (List.append_nil _).symm rfl (by rw [hp]; rfl) fun q _ => nil q
      | exact readyInv_same [] I (List.append_nil _).symm rfl nil
      | exact readyInv_hand [_] p I rfl rfl (by rw [hp]; simp [readyTo, registersFrom, unanswered])
          (fun q hq => by simp [readyTo, registersFrom, Ne.symm hq])
      | exact readyInv_hand [_, _] p I rfl rfl (by rw [hp]; simp [readyTo, registersFrom, unanswered])
          (fun q hq => by simp [readyTo, registersFrom, Ne.symm hq])
      | skip
    rename_i slot rest start visited i
    refine readyInv_hand (h := .scan slot rest start visited) [] p (readyInv_commit (i := i) I)
      (List.append_nil _).symm ?_ ?_ fun q _ => nil q
    · simp only [(doCommit_same s _).2.2.2.2.2.2.2.2.2.2.1]
    · rw [(doCommit_same s _).2.2.2.2.2.2.2.2.2.2.1, hp]; rfl
  | dialOK p e =>
    simp only [State.connected] at h
    split at h
    · rename_i hp
      split at h
      · cases h
        exact readyInv_hand [] p I (List.append_nil _).symm rfl (by rw [hp]; rfl) fun q _ => nil q
      · cases h
    · cases h
  | _ =>
    simp only [State.connected] at h
    repeat' split at h
    all_goals cases h
    all_goals first
      | exact readyInv_same [] I (List.append_nil _).symm rfl nil
      | exact readyInv_same [_] I rfl rfl (silent_sent (by simp))
      | exact readyInv_same [_, _] I rfl rfl (silent_sent (by simp))

/-- C85: when the handler of a peer is idle, the dock has sent this peer exactly one ready packet for every register
request and every register response received from it; while it handles one, at most one ready packet is missing.
(By `C59_advertised` each of them lists all features of the dock that are discoverable.) -/
theorem C85_answered (cs : List Carried) (as : List Act) (s : State)
    (h : run (State.step cs) State.init as = some s) (p : Nat) :
    (s.handler p = .idle → readyTo p s.log = registersFrom p s.log) ∧
      readyTo p s.log ≤ registersFrom p s.log ∧ registersFrom p s.log ≤ readyTo p s.log + 1 := by
  have I : ReadyInv s := run_inv (readyInv_step cs) as _ _ (by intro p; rfl) h
  have h1 := I p
  refine ⟨?_, by omega, ?_⟩
  · intro hp
    rw [hp] at h1
    exact h1
  · have : unanswered (s.handler p) ≤ 1 := by
      cases s.handler p <;> simp [unanswered]
    omega

example : ∃ s, run (State.step dockDemo) State.init bootActs = some s ∧ s.handler 0 = .idle ∧ s.handler 2 = .idle ∧
    (readyTo 0 s.log, registersFrom 0 s.log, readyTo 2 s.log, registersFrom 2 s.log) = (1, 1, 1, 1) :=
  ⟨_, rfl, rfl, rfl, rfl⟩

/-! ## C86: Handling a packet ends -/

/-- The steps of the goroutine that handles the packets of peer `p`. -/
def handles (p : Nat) : Act → Bool
  | .visit q _ => q = p
  | .work q _ => q = p
  | .dialOK q _ => q = p
  | .dialFail q => q = p
  | _ => false

/-- The entries of `d.rpcs` that the loop has not visited. -/
def unvisited (s : State) (visited : List Nat) : Nat := s.pending.countP fun i => i ∉ visited

/-- A bound for the number of steps that the handler still takes if no other goroutine runs. -/
def bound (s : State) : Handler → Nat
  | .idle => 0
  | .slots l => l.length * (3 * s.pending.length + 2) + 1
  | .scan _ rest _ visited => rest.length * (3 * s.pending.length + 2) + 3 * unvisited s visited + 2
  | .tested _ rest _ visited _ => rest.length * (3 * s.pending.length + 2) + 3 * unvisited s visited + 4
  | .commit _ rest _ visited _ => rest.length * (3 * s.pending.length + 2) + 3 * unvisited s visited + 3
  | .reply l => l.length + 2
  | .cache l => l.length + 1
  | .listening _ => 2
  | .announce => 1
  | .dialling _ => 2
  | .dialled _ => 1

theorem unvisited_cons (s : State) (visited : List Nat) (i : Nat) (hi : i ∈ s.pending) (hv : i ∉ visited) :
    unvisited s (i :: visited) + 1 ≤ unvisited s visited := by
  unfold unvisited
  obtain ⟨a, b, e⟩ := List.append_of_mem hi
  rw [e, List.countP_append, List.countP_append, List.countP_cons, List.countP_cons]
  have h1 : ∀ l : List Nat, l.countP (fun j => decide (j ∉ i :: visited)) ≤ l.countP (fun j => decide (j ∉ visited)) := by
    intro l
    refine List.countP_mono_left ?_
    intro j _ h
    simp at h ⊢
    exact h.2
  have h2 := h1 a
  have h3 := h1 b
  have h4 : (if decide (i ∉ i :: visited) = true then 1 else 0) = 0 := by simp
  have h5 : (if decide (i ∉ visited) = true then 1 else 0) = 1 := by simp [hv]
  omega

theorem unvisited_nil (s : State) : unvisited s [] = s.pending.length := by
  unfold unvisited
  rw [List.countP_eq_length]
  simp

theorem pending_commit (s : State) (i : Nat) : (s.doCommit i).pending = s.pending := by
  have hs := doCommit_same s i
  unfold State.pending
  rw [hs.1, hs.2.2.1, hs.2.2.2.2.2.2.1]

theorem bound_step (cs : List Carried) (p : Nat) (s : State) (a : Act) (t : State) (R : RpcInv s)
    (ha : handles p a = true) (h : s.step cs a = some t) :
    t.dead = true ∨ bound t (t.handler p) + 1 ≤ bound s (s.handler p) := by
  unfold State.step at h
  split at h
  · cases h
  cases a with
  | visit q i =>
    have e : q = p := by simpa [handles] using ha
    subst e
    simp only at h
    split at h
    · rename_i slot rest start visited hp
      split at h
      · rename_i hv
        have hm : i ∈ s.pending := by
          unfold State.pending
          rw [List.mem_filter, List.mem_range]
          exact ⟨(R.rpcs _ _ hv.1).1, by simpa using hv.1⟩
        have hu := unvisited_cons s visited i hm hv.2
        split at h
        · cases h
          refine Or.inr ?_
          simp only [hp, upd_same]
          show rest.length * (3 * s.pending.length + 2) + 3 * unvisited s (i :: visited) + 4 + 1 ≤ 
            rest.length * (3 * s.pending.length + 2) + 3 * unvisited s visited + 2
          omega
        · cases h
          refine Or.inr ?_
          simp only [hp, upd_same]
          show rest.length * (3 * s.pending.length + 2) + 3 * unvisited s (i :: visited) + 2 + 1 ≤ 
            rest.length * (3 * s.pending.length + 2) + 3 * unvisited s visited + 2
          omega
      · cases h
    · cases h
  | work q order =>
    have e : q = p := by simpa [handles] using ha
    subst e
    simp only [State.work] at h
    split at h
    · cases h
    · rename_i hp
      cases h
      refine Or.inr ?_
      simp only [hp, upd_same, bound]
      omega
    · rename_i slot rest hp
      cases h
      refine Or.inr ?_
      simp only [hp, upd_same]
      show rest.length * (3 * s.pending.length + 2) + 3 * unvisited s [] + 2 + 1 ≤ 
        (rest.length + 1) * (3 * s.pending.length + 2) + 1
      rw [unvisited_nil, Nat.add_mul]
      omega
    · rename_i slot rest start visited hp
      split at h
      · cases h
        refine Or.inr ?_
        simp only [hp, upd_same]
        show rest.length * (3 * s.pending.length + 2) + 1 + 1 ≤ 
          rest.length * (3 * s.pending.length + 2) + 3 * unvisited s visited + 2
        omega
      · cases h
    · rename_i slot rest start visited i hp
      repeat' split at h
      all_goals cases h
      · refine Or.inr ?_
        simp only [hp, upd_same]
        show rest.length * (3 * s.pending.length + 2) + 3 * unvisited s visited + 3 + 1 ≤ 
          rest.length * (3 * s.pending.length + 2) + 3 * unvisited s visited + 4
        omega
      · refine Or.inr ?_
        simp only [hp, upd_same]
        show rest.length * (3 * s.pending.length + 2) + 3 * unvisited s visited + 2 + 1 ≤ 
          rest.length * (3 * s.pending.length + 2) + 3 * unvisited s visited + 4
        omega
      · exact Or.inl rfl
    · rename_i slot rest start visited i hp
      cases h
      refine Or.inr ?_
      simp only [hp, upd_same]
      show rest.length * (3 * (s.doCommit i).pending.length + 2) +
          3 * ((s.doCommit i).pending.countP fun i => i ∉ visited) + 2 + 1 ≤ 
        rest.length * (3 * s.pending.length + 2) + 3 * unvisited s visited + 3
      rw [pending_commit]
      exact Nat.le_refl _
    · rename_i slots hp
      split at h
      · cases h
        refine Or.inr ?_
        simp only [hp, upd_same, bound]
        omega
      · cases h
    · rename_i hp
      cases h
      refine Or.inr ?_
      simp only [hp, upd_same, bound]
      omega
    · rename_i slot rest hp
      cases h
      refine Or.inr ?_
      simp only [hp, upd_same, bound, List.length_cons]
      omega
    · rename_i port hp
      cases h
      refine Or.inr ?_
      simp only [hp, upd_same, bound]
      omega
    · rename_i hp
      split at h
      · cases h
        refine Or.inr ?_
        simp only [hp, upd_same, bound]
        omega
      · cases h
    · cases h
    · rename_i e hp
      cases h
      refine Or.inr ?_
      simp only [hp, upd_same, bound]
      omega
  | dialOK q e =>
    have e : q = p := by simpa [handles] using ha
    subst e
    simp only [State.connected] at h
    split at h
    · rename_i hp
      split at h
      · cases h
        refine Or.inr ?_
        simp only [hp, upd_same, bound]
        omega
      · cases h
    · cases h
  | dialFail q =>
    simp only at h
    split at h
    · cases h; exact Or.inl rfl
    · cases h
  | _ => cases ha

theorem run_cons {σ α : Type} {step : σ → α → Option σ} {s t : σ} {a : α} {as : List α} (h : run step s (a :: as) = some t) :
    ∃ u, step s a = some u ∧ run step u as = some t := by
  cases hu : step s a with
  | none => simp [run, hu] at h
  | some u => exact ⟨u, rfl, by simpa [run, hu] using h⟩

/-- C86, first half: from any reachable state, the goroutine handling a packet of peer `p` can take at most a bounded
number of steps in a row, the bound being linear in the number of names in the packet times the number of pending
calls: the loop over `d.rpcs` visits every entry at most once per name, even though `commit` is called in between. -/
theorem C86_ends (cs : List Carried) (as bs : List Act) (s t : State) (p : Nat)
    (h : run (State.step cs) State.init as = some s) (hb : bs.all (handles p) = true)
    (h' : run (State.step cs) s bs = some t) : bs.length ≤ bound s (s.handler p) + 1 := by
  have hI := rpcInv_run cs as s h
  clear h
  induction bs generalizing s with
  | nil => simp
  | cons a bs ih =>
    simp only [List.all_cons, Bool.and_eq_true] at hb
    obtain ⟨u, hu, h'⟩ := run_cons h'
    have hI' := And.intro (rpcInv_step cs s a u hI.2 hI.1 hu) (handInv_step cs s a u hI.1 hI.2 hu)
    rcases bound_step cs p s a u hI.1 hb.1 hu with hd | hd
    · have : bs = [] := by
        cases bs with
        | nil => rfl
        | cons b bs =>
          obtain ⟨v, hv, _⟩ := run_cons h'
          simp [State.step, hd] at hv
      subst this
      simp
    · have := ih u hb.2 h' hI'
      simp only [List.length_cons]
      omega

/-- C86, second half: the goroutine is never stuck: whatever it is doing, it can take a step, except that a `Dial` in
progress needs the network, which can let it fail at any time. -/
theorem C86_not_stuck (cs : List Carried) (as : List Act) (s : State) (p : Nat)
    (h : run (State.step cs) State.init as = some s) (hd : s.dead = false) (hp : s.handler p ≠ .idle) :
    ∃ a t, handles p a = true ∧ s.step cs a = some t := by
  have work : ∀ order t, s.work cs p order = some t → ∃ a t, handles p a = true ∧ s.step cs a = some t := by
    intro order t ht
    exact ⟨.work p order, t, by simp [handles], by simp [State.step, hd, ht]⟩
  have hperm : (collectOf cs).isPerm (collectOf cs) = true := List.isPerm_iff.mpr (List.Perm.refl _)
  cases hh : s.handler p with
  | idle => exact absurd hh hp
  | slots l => cases l <;> exact work [] _ (by simp only [State.work, hh]; rfl)
  | scan slot rest start visited =>
    by_cases ha : (start.all fun i => i ∈ visited ∨ s.rpcs (s.index i) ≠ some i) = true
    · exact work [] _ (by simp only [State.work, hh]; rw [if_pos ha])
    · rw [Bool.not_eq_true, List.all_eq_false] at ha
      obtain ⟨i, _, hi⟩ := ha
      simp only [Bool.decide_or, Bool.or_eq_true, decide_eq_true_eq, not_or, ne_eq, not_not] at hi
      by_cases hr : s.req i
      · exact ⟨.visit p i, _, by simp [handles], by
          simp only [State.step, hd, hh]; rw [if_neg (by simp), if_pos ⟨hi.2, hi.1⟩, if_pos hr]⟩
      · exact ⟨.visit p i, _, by simp [handles], by
          simp only [State.step, hd, hh]; rw [if_neg (by simp), if_pos ⟨hi.2, hi.1⟩, if_neg hr]⟩
  | tested slot rest start visited i =>
    by_cases h1 : s.req i
    · by_cases h2 : (s.call i).slot = slot
      · exact work [] _ (by simp only [State.work, hh]; rw [if_pos h1, if_pos h2])
      · exact work [] _ (by simp only [State.work, hh]; rw [if_pos h1, if_neg h2])
    · exact work [] _ (by simp only [State.work, hh]; rw [if_neg h1])
  | commit slot rest start visited i => exact work [] _ (by simp only [State.work, hh]; rfl)
  | reply l => exact work (collectOf cs) _ (by simp only [State.work, hh]; rw [if_pos hperm])
  | cache l => cases l <;> exact work [] _ (by simp only [State.work, hh]; rfl)
  | listening port => exact work [] _ (by simp only [State.work, hh]; rfl)
  | announce => exact work (collectOf cs) _ (by simp only [State.work, hh]; rw [if_pos hperm])
  | dialling addr => exact ⟨.dialFail p, _, by simp [handles], by simp only [State.step, hd, hh]; rfl⟩
  | dialled e => exact work [] _ (by simp only [State.work, hh]; rfl)

/-- Two calls are pending when a ready packet with two names arrives; the handler has 1 + 2 * (3 * 2 + 2) steps at most. -/
example : ∃ s, run (State.step dockDemo) State.init (bootActs ++
      [.call ⟨[100], methM, [], true⟩ 5, .call ⟨[100], methN, [], true⟩ 6, .store 0, .store 1, .setReq 0, .setReq 1,
       .commit 0, .commit 1, .recv 2 (.registerRequest [[100]]), .work 2 [nameA], .work 2 [], .work 2 [],
       .recv 2 (.ready [[101], [100]])]) = some s ∧ s.dead = false ∧ bound s (s.handler 2) = 17 ∧
    ∃ t, run (State.step dockDemo) s [.work 2 [], .visit 2 1, .work 2 [], .visit 2 0, .work 2 [], .work 2 [], .work 2 [],
      .visit 2 0, .work 2 [], .work 2 [], .visit 2 1, .work 2 [], .work 2 [], .work 2 [], .work 2 []] = some t ∧
      t.handler 2 = .idle ∧ t.log.filterMap requestOf = [.rpcRequest 5 [100] methM [] true, .rpcRequest 6 [100] methN [] true] :=
  ⟨_, rfl, rfl, rfl, _, rfl, rfl, rfl⟩

/-! ## C87: Features are started once, when the dock can be reached -/

/-- The number of times `d.start` was called, which calls `OnStart` of all features, /repo/dock.go:132 and 218-222. -/
def starts (log : List Ev) : Nat :=
  log.countP fun e => match e with
    | .start => true
    | _ => false

/-- The number of register responses received, from whatever peer. -/
def granted (log : List Ev) : Nat :=
  log.countP fun e => match e with
    | .recv _ (.registerResponse _) => true
    | _ => false

/-- The handler has received a register response and has not yet started the features. -/
def opening : Handler → Nat
  | .listening _ => 1
  | .announce => 1
  | _ => 0

/-- The number of handlers that are going to start the features. -/
def openings (s : State) : Nat := ((s.peers.map (·.1)).map fun e => opening (s.handler e)).sum

theorem sum_upd {f : Handler → Nat} {g : Nat → Handler} {p : Nat} {h : Handler} :
    ∀ {l : List Nat}, l.Nodup → p ∈ l →
      (l.map fun e => f (upd g p h e)).sum + f (g p) = (l.map fun e => f (g e)).sum + f h := by
  intro l
  induction l with
  | nil => intro _ h; cases h
  | cons a l ih =>
    intro hn hp
    obtain ⟨h1, h2⟩ := List.nodup_cons.mp hn
    simp only [List.map_cons, List.sum_cons]
    by_cases e : p = a
    · subst e
      rw [upd_same]
      have : (l.map fun e => f (upd g p h e)) = l.map fun e => f (g e) := by
        refine List.map_congr_left ?_
        intro e he
        rw [upd_other _ _ (by rintro rfl; exact h1 he)]
      rw [this]
      omega
    · rw [upd_other _ _ (Ne.symm e)]
      have := ih h2 ((List.mem_cons.mp hp).resolve_left e)
      omega

/-- The dock has started its features once for every granted port, apart from the handlers that are about to do so. -/
structure StartInv (s : State) : Prop where
  nodup : (s.peers.map (·.1)).Nodup
  busy : ∀ p, s.handler p ≠ .idle → p ∈ s.peers.map (·.1)
  count : starts s.log + openings s = granted s.log

theorem startInv_same {s t : State} (l : List Ev) (I : StartInv s) (hl : t.log = s.log ++ l) (hp : t.peers = s.peers)
    (hh : t.handler = s.handler) (h1 : starts l = 0) (h2 : granted l = 0) : StartInv t := by
  have h3 : starts t.log = starts s.log + starts l := by rw [hl]; exact List.countP_append
  have h4 : granted t.log = granted s.log + granted l := by rw [hl]; exact List.countP_append
  refine ⟨hp ▸ I.nodup, ?_, ?_⟩
  · rw [hp, hh]; exact I.busy
  · have := I.count
    have ho : openings t = openings s := by unfold openings; rw [hp, hh]
    omega

theorem startInv_hand {s t : State} (l : List Ev) (p : Nat) {h : Handler} (I : StartInv s) (hl : t.log = s.log ++ l)
    (hp : t.peers = s.peers) (hh : t.handler = upd s.handler p h) (hm : p ∈ s.peers.map (·.1))
    (hc : starts l + opening h = granted l + opening (s.handler p)) : StartInv t := by
  have h3 : starts t.log = starts s.log + starts l := by rw [hl]; exact List.countP_append
  have h4 : granted t.log = granted s.log + granted l := by rw [hl]; exact List.countP_append
  refine ⟨hp ▸ I.nodup, ?_, ?_⟩
  · rw [hp, hh]
    intro q hq
    by_cases e : q = p
    · subst e; exact hm
    · rw [upd_other _ _ e] at hq; exact I.busy q hq
  · have h5 := I.count
    have h6 := sum_upd (f := opening) (g := s.handler) (h := h) I.nodup hm
    have h7 : openings t = ((s.peers.map (·.1)).map fun e => opening (upd s.handler p h e)).sum := by
      unfold openings; rw [hp, hh]
    unfold openings at h5
    omega

/-- A new peer. -/
theorem startInv_peer {s t : State} (e : Nat) (k : Sock) (I : StartInv s) (hl : t.log = s.log)
    (hp : t.peers = s.peers ++ [(e, k)]) (hh : t.handler = s.handler) (hn : e ∉ s.peers.map (·.1)) : StartInv t := by
  refine ⟨?_, ?_, ?_⟩
  · rw [hp, List.map_append, List.nodup_append]
    refine ⟨I.nodup, by simp, ?_⟩
    intro a ha b hb
    simp at hb
    rintro rfl
    exact hn (hb ▸ ha)
  · rw [hp, hh, List.map_append]
    intro p hq
    exact List.mem_append_left _ (I.busy p hq)
  · rw [hl]
    have h0 : s.handler e = .idle := Classical.byContradiction fun h => hn (I.busy e h)
    have : openings t = openings s := by
      unfold openings
      rw [hp, hh, List.map_append, List.map_append, List.sum_append]
      simp [h0, opening]
    rw [this]
    exact I.count

theorem isNew_iff (s : State) (e : Nat) : s.isNew e = true ↔ e ∉ s.peers.map (·.1) := by
  unfold State.isNew
  rw [List.all_eq_true, List.mem_map]
  constructor
  · rintro h ⟨x, hx, rfl⟩
    simpa using h x hx
  · intro h x hx
    simp only [ne_eq, decide_not, Bool.not_eq_eq_eq_not, Bool.not_true, decide_eq_false_iff_not]
    exact fun e => h ⟨x, hx, e⟩

theorem isPeer_iff (s : State) (e : Nat) : s.isPeer e = true ↔ e ∈ s.peers.map (·.1) := by
  unfold State.isPeer
  rw [List.any_eq_true, List.mem_map]
  simp

theorem startInv_commit {s : State} {i : Nat} (I : StartInv s) : StartInv (s.doCommit i) := by
  obtain ⟨l, h1, h2⟩ := doCommit_log s i
  have hs := doCommit_same s i
  refine startInv_same l I h1 hs.2.2.2.2.2.2.2.2.2.1 hs.2.2.2.2.2.2.2.2.2.2.1 ?_ ?_
  · refine List.countP_eq_zero.mpr ?_
    intro e he
    obtain ⟨p, pkt, rfl, _⟩ := h2 e he
    simp
  · refine List.countP_eq_zero.mpr ?_
    intro e he
    obtain ⟨p, pkt, rfl, _⟩ := h2 e he
    simp

theorem startInv_step (cs : List Carried) (s : State) (a : Act) (t : State) (I : StartInv s)
    (h : s.step cs a = some t) : StartInv t := by
  have busy : ∀ {p : Nat} {h : Handler}, s.handler p = h → h ≠ .idle → p ∈ s.peers.map (·.1) :=
    fun e hn => I.busy _ (e ▸ hn)
  unfold State.step at h
  split at h
  · cases h
  cases a with
  | dialHub e =>
    simp only [State.connected] at h
    split at h
    · rename_i hc
      cases h
      exact startInv_peer e .hub I rfl rfl rfl (by rw [hc.2.2]; simp)
    · cases h
  | accept e port =>
    simp only [State.connected] at h
    split at h
    · rename_i hc
      cases h
      exact startInv_peer e _ I rfl rfl rfl ((isNew_iff s e).mp hc.1)
    · cases h
  | commit i =>
    simp only at h
    split at h
    · cases h
      exact startInv_same [] (startInv_commit (i := i) I) (List.append_nil _).symm rfl rfl rfl rfl
    · cases h
  | recv p pkt =>
    simp only at h
    split at h
    · rename_i hp
      split at h
      · rename_i hpp
        cases h
        have hpp := (isPeer_iff s p).mp hpp
        have hid : s.handler = upd s.handler p .idle := by
          funext q
          by_cases e : q = p
          · subst e; rw [upd_same, hp]
          · rw [upd_other _ _ e]
        cases pkt
        all_goals simp only [State.onPacket]
        all_goals repeat' split
        all_goals first
          | exact startInv_hand [_] p I rfl rfl rfl hpp (by rw [hp]; simp [starts, granted, opening])
          | exact startInv_hand [_, _] p I (List.append_assoc ..) rfl rfl hpp
              (by rw [hp]; simp [starts, granted, opening])
          | exact startInv_hand [_] p I rfl rfl hid hpp (by rw [hp]; simp [starts, granted, opening])
      · cases h
    · cases h
  | visit p i =>
    simp only at h
    split at h
    · rename_i hp
      repeat' split at h
      all_goals cases h
      all_goals exact startInv_hand [] p I (List.append_nil _).symm rfl rfl (busy hp (by simp)) (by rw [hp]; rfl)
    · cases h
  | work p order =>
    simp only [State.work] at h
    split at h
    all_goals (rename_i hp; repeat' split at h)
    all_goals cases h
    all_goals first
      | exact startInv_hand [] p I (List.append_nil _).symm rfl rfl (busy hp (by simp)) (by rw [hp]; rfl)
      | exact startInv_same [] I (List.append_nil _).symm rfl rfl rfl rfl
      | exact startInv_hand [_] p I rfl rfl rfl (busy hp (by simp)) (by rw [hp]; simp [starts, granted, opening])
      | exact startInv_hand [_, _] p I rfl rfl rfl (busy hp (by simp)) (by rw [hp]; simp [starts, granted, opening])
      | skip
    rename_i slot rest start visited i
    have hs := doCommit_same s i
    refine startInv_hand (h := .scan slot rest start visited) [] p (startInv_commit (i := i) I)
      (List.append_nil _).symm rfl ?_ ?_ ?_
    · simp only [hs.2.2.2.2.2.2.2.2.2.2.1]
    · rw [hs.2.2.2.2.2.2.2.2.2.1]; exact busy hp (by simp)
    · rw [hs.2.2.2.2.2.2.2.2.2.2.1, hp]; rfl
  | dialOK p e =>
    simp only [State.connected] at h
    split at h
    · rename_i hp
      split at h
      · rename_i hn
        cases h
        have hm := busy hp (by simp)
        refine startInv_peer (s := { s with handler := upd s.handler p (.dialled e) }) e _ ?_ rfl rfl rfl
          ((isNew_iff s e).mp hn)
        exact startInv_hand [] p I (List.append_nil _).symm rfl rfl hm (by rw [hp]; rfl)
      · cases h
    · cases h
  | _ =>
    simp only at h
    repeat' split at h
    all_goals cases h
    all_goals first
      | exact startInv_same [] I (List.append_nil _).symm rfl rfl rfl rfl
      | exact startInv_same [_] I rfl rfl rfl rfl rfl
      | exact startInv_same [_, _] I rfl rfl rfl rfl rfl

theorem startInv_run (cs : List Carried) (as : List Act) (s : State) (h : run (State.step cs) State.init as = some s) :
    StartInv s :=
  run_inv (startInv_step cs) as _ _ (by constructor <;> simp [State.init, openings, starts, granted]) h

/-- C87 (partial): the features of a dock are started at most once per register response received, and exactly as often
when no handler is at work.  Missing: a peer can send register responses at will, see `C87_twice_refuted`; in a system of
unmodified processes there is only one, see `C87_once_honest_partial`. -/
theorem C87_starts_partial (cs : List Carried) (as : List Act) (s : State)
    (h : run (State.step cs) State.init as = some s) :
    starts s.log ≤ granted s.log ∧ ((∀ p, s.handler p = .idle) → starts s.log = granted s.log) := by
  have I := (startInv_run cs as s h).count
  refine ⟨by omega, ?_⟩
  intro hp
  have : openings s = 0 := by
    unfold openings
    generalize s.peers.map (·.1) = l
    induction l with
    | nil => rfl
    | cons e l ih => rw [List.map_cons, List.sum_cons, ih, hp e]; rfl
  omega

/-- Before the features are started. -/
def Opened (pre : List Ev) : Prop :=
  ∃ p port order, Ev.recv p (.registerResponse port) ∈ pre ∧ Ev.listen port ∈ pre ∧
    pre.getLast? = some (.sent p (.ready order))

/-- The dock listens on the ports that it was told to, before it starts its features. -/
structure OpenInv (s : State) : Prop where
  listen : ∀ p port, Ev.recv p (.registerResponse port) ∈ s.log → Ev.listen port ∈ s.log
  start : ∀ pre post, s.log = pre ++ .start :: post → Opened pre

theorem openInv_gen {s t : State} (l : List Ev) (I : OpenInv s) (hl : t.log = s.log ++ l)
    (h1 : ∀ p port, Ev.recv p (.registerResponse port) ∈ l → Ev.listen port ∈ l) (h2 : Ev.start ∉ l) : OpenInv t := by
  constructor
  · intro p port h
    rw [hl, List.mem_append] at h ⊢
    rcases h with h | h
    · exact Or.inl (I.listen p port h)
    · exact Or.inr (h1 p port h)
  · intro pre post e
    rw [hl, List.append_eq_append_iff] at e
    rcases e with ⟨x, e1, e2⟩ | ⟨x, e1, e2⟩
    · exact absurd (by rw [e2]; simp) h2
    · cases x with
      | nil =>
        rw [List.nil_append] at e2
        exact absurd (by rw [← e2]; simp) h2
      | cons a x =>
        simp only [List.cons_append, List.cons.injEq] at e2
        rw [← e2.1] at e1
        exact I.start pre x e1

theorem openInv_commit {s : State} {i : Nat} (I : OpenInv s) : OpenInv (s.doCommit i) := by
  obtain ⟨l, h1, h2⟩ := doCommit_log s i
  refine openInv_gen l I h1 ?_ ?_
  · intro p port h
    obtain ⟨_, _, e, _⟩ := h2 _ h
    cases e
  · intro h
    obtain ⟨_, _, e, _⟩ := h2 _ h
    cases e

theorem openInv_step (cs : List Carried) (s : State) (a : Act) (t : State) (O : OrigInv s) (I : OpenInv s)
    (h : s.step cs a = some t) : OpenInv t := by
  unfold State.step at h
  split at h
  · cases h
  cases a with
  | commit i =>
    simp only at h
    split at h
    · cases h
      exact openInv_gen [] (openInv_commit (i := i) I) (List.append_nil _).symm (by simp) (by simp)
    · cases h
  | recv p pkt =>
    simp only at h
    repeat' split at h
    all_goals cases h
    cases pkt
    all_goals simp only [State.onPacket]
    all_goals repeat' split
    all_goals first
      | exact openInv_gen [_] I rfl (by simp) (by simp)
      | exact openInv_gen [_, _] I (List.append_assoc ..) (by simp) (by simp)
  | work p order =>
    simp only [State.work] at h
    split at h
    all_goals (rename_i hp; repeat' split at h)
    all_goals cases h
    all_goals first
      | exact openInv_gen [] I (List.append_nil _).symm (by simp) (by simp)
      | exact openInv_gen [] (openInv_commit I) (List.append_nil _).symm (by simp) (by simp)
      | exact openInv_gen [_] I rfl (by simp) (by simp)
      | skip
    have ho := O.hand p
    rw [hp] at ho
    obtain ⟨port, hr⟩ := ho
    refine ⟨?_, ?_⟩
    · intro q x hq
      simp at hq ⊢
      exact I.listen q x hq
    · intro pre post e
      simp only at e
      have e' : (s.log ++ [Ev.sent p (.ready order)]) ++ [.start] = pre ++ .start :: post := by simpa using e
      rw [List.append_eq_append_iff] at e'
      rcases e' with ⟨x, e1, e2⟩ | ⟨x, e1, e2⟩
      · cases x with
        | nil =>
          rw [List.append_nil] at e1
          rw [e1]
          exact ⟨p, port, order, by simp [hr], by simp [I.listen p port hr], by simp⟩
        | cons a x => simp at e2
      · cases x with
        | nil =>
          rw [List.append_nil] at e1
          rw [← e1]
          exact ⟨p, port, order, by simp [hr], by simp [I.listen p port hr], by simp⟩
        | cons a x =>
          simp only [List.cons_append, List.cons.injEq] at e2
          rw [← e2.1, List.append_eq_append_iff] at e1
          rcases e1 with ⟨y, f1, f2⟩ | ⟨y, f1, f2⟩
          · cases y with
            | nil => simp at f2
            | cons b y => simp at f2
          · cases y with
            | nil => simp at f2
            | cons b y =>
              simp only [List.cons_append, List.cons.injEq] at f2
              rw [← f2.1] at f1
              exact I.start pre y f1
  | _ =>
    simp only [State.connected] at h
    repeat' split at h
    all_goals cases h
    all_goals first
      | exact openInv_gen [] I (List.append_nil _).symm (by simp) (by simp)
      | exact openInv_gen [_] I rfl (by simp) (by simp)
      | exact openInv_gen [_, _] I rfl (by simp) (by simp)

/-- C87: when the features are started, the dock listens on the port it was given and has announced itself with a ready
packet to the peer that gave it the port. -/
theorem C87_reachable (cs : List Carried) (as : List Act) (s : State)
    (h : run (State.step cs) State.init as = some s) (pre post : List Ev) (e : s.log = pre ++ .start :: post) :
    ∃ p port order, Ev.recv p (.registerResponse port) ∈ pre ∧ Ev.listen port ∈ pre ∧
      pre.getLast? = some (.sent p (.ready order)) :=
  (run_inv (I := fun s => OrigInv s ∧ OpenInv s)
    (fun s a t hI h => ⟨origInv_step cs s a t hI.1 h, openInv_step cs s a t hI.1 hI.2 h⟩) as _ _
    ⟨OrigInv.init, by constructor <;> simp [State.init]⟩ h).2.start pre post e

example : ∃ s, run (State.step dockDemo) State.init bootActs = some s ∧ starts s.log = 1 ∧
    s.log.take 5 = [.sent 0 (.registerRequest [nameA]), .recv 0 (.registerResponse 20001), .listen 20001,
      .sent 0 (.ready [nameA])] ++ .start :: [] := ⟨_, rfl, rfl, rfl⟩

/-- C87 (refuted): the second register response starts the features again. -/
theorem C87_twice_refuted : ∃ cs as s, run (State.step cs) State.init as = some s ∧ starts s.log = 2 := by
  obtain ⟨s, h, e⟩ := witness (cs := dockDemo)
    (as := bootActs ++ [.recv 2 (.registerResponse 20001), .work 2 [], .work 2 [nameA]])
    (f := fun s => starts s.log) (b := 2) rfl
  exact ⟨_, _, s, h, e⟩

/-- C87 (refuted): a request of a peer is executed before the features are started. -/
theorem C87_early_refuted : ∃ cs as s p x f c, run (State.step cs) State.init as = some s ∧
    Ev.invoke (some (p, x)) f c ∈ s.log ∧ starts s.log = 0 := by
  obtain ⟨s, h, e⟩ := witness (cs := dockDemo)
    (as := [.dialHub 0, .storeHub, .greet 0 [nameA], .recv 0 (.registerResponse 20001), .accept 2 20001,
      .recv 2 (.rpcRequest 9 nameA methM [] true), .invoke 0])
    (f := fun s => (starts s.log, s.log.getLast?)) (b := (0, some (.invoke (some (2, 9)) 3 ⟨nameA, methM, [], true⟩))) rfl
  simp only [Prod.mk.injEq] at e
  exact ⟨_, _, s, _, _, _, _, h, List.mem_of_getLast? e.2, e.1⟩

end Verif.Props
