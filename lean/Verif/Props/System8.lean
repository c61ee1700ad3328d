import Verif.System.Quiet
import Verif.Props.System3
import Verif.Props.System6

/-!
# C125, C126: calls return in every fair execution of the system

Fair executions in which no packet is lost and no process stops, see `System.Fair`.
-/

namespace Verif.Props

open Verif Verif.Codec Verif.Proto Verif.System
open Verif.Dock (Carried LastNamed)

variable {C : Nat → List Carried} {H : Nat → Str} {R : Nat → Str} {black : List Int}
  {E : System.Course C H R black}

/-- The clock of dock `d` gives no reading twice. -/
def DistinctReadings (E : System.Course C H R black) (d : Nat) : Prop :=
  ∀ n i j, i < ((E.st n).dock d).n → j < ((E.st n).dock d).n → ((E.st n).dock d).index i = ((E.st n).dock d).index j → i = j

/-- The methods that docks execute on behalf of peers return. -/
def MethodsReturn (E : System.Course C H R black) : Prop :=
  ∀ n d k, (((E.st n).dock d).exec k).phase = .running → ∃ m, n ≤ m ∧ (((E.st m).dock d).exec k).phase ≠ .running

/-- A response to a call on its way to the dock makes the call return. -/
theorem response_returns (F : System.Fair E) {d : Nat} (hd : DistinctReadings E d) {n e k i : Nat} {slot meth : Str} {res : List Val}
    {err : Str} (hi : i < ((E.st n).dock d).n) (hph : ((E.st n).dock d).phase i ≠ .created)
    (hk : ((E.st n).queue e)[k]? = some (.rpcResponse (((E.st n).dock d).index i) slot meth res err))
    (ho : (E.st n).owner e = some (.dock d)) (hp : ((E.st n).dock d).isPeer e = true) :
    ∃ m r, n ≤ m ∧ ((E.st m).dock d).phase i = .returned r := by
  obtain ⟨m, q, hm, hf, hh, hnx⟩ := F.gets hk ho hp
  have hq := fate_head hf
  cases q <;> simp [head] at hq
  rename_i x slot' meth' res' err'
  obtain ⟨rfl, rfl, rfl⟩ := hq
  have hcall := Dock.course_call (T := dockCourse E d) hm hi
  have hcall' := Dock.course_call (T := dockCourse E d) (show n ≤ m + 1 by omega) hi
  have e1 : ((E.st m).dock d).index i = ((E.st n).dock d).index i := hcall.2.2
  have e2 : ((E.st (m + 1)).dock d).index i = ((E.st n).dock d).index i := hcall'.2.2
  -- it is the first response
  have hresp := one_answer C H R black (exec_inv (m + 1)) d (hd (m + 1)) (((E.st n).dock d).index i)
  have hlog : ((E.st (m + 1)).dock d).log = ((E.st m).dock d).log ++ [.recv e (.rpcResponse (((E.st n).dock d).index i) slot' meth' res' err')] := by
    rw [hnx]
    simp only [Dock.State.onPacket]
    split <;> rfl
  have hnone : ∀ r, ¬ Dock.Answered ((E.st m).dock d).log (((E.st m).dock d).index i) r := by
    rintro r ⟨p, a, b, h⟩
    rw [hlog, responses_append] at hresp
    have h1 : 0 < responses (((E.st n).dock d).index i) ((E.st m).dock d).log :=
      List.countP_pos_iff.mpr ⟨_, h, by simp [e1]⟩
    have h2 : 0 < responses (((E.st n).dock d).index i) [.recv e (.rpcResponse (((E.st n).dock d).index i) slot' meth' res' err')] :=
      List.countP_pos_iff.mpr ⟨_, List.mem_singleton.mpr rfl, by simp⟩
    omega
  -- the call is in the table
  have hph' : ((E.st m).dock d).phase i ≠ .created := by
    refine Trace.keep (P := fun m => ((E.st m).dock d).phase i ≠ .created) hph ?_ m hm
    intro j hj h
    have hij := (Dock.course_call (T := dockCourse E d) hj hi).1
    rcases Dock.course_phase (T := dockCourse E d) j i hij with h1 | ⟨_, _, h1⟩ | ⟨_, _, h1⟩ | ⟨_, _, h1⟩ | ⟨_, _, r, _, h1⟩ | ⟨_, r, _, h1⟩
    all_goals
      show ((dockCourse E d).st (j + 1)).phase i ≠ .created
      rw [h1]
    · exact h
    all_goals simp
  obtain ⟨as, hrun⟩ := (exec_inv (E := E) m).parts.dock d
  have htab := Dock.kept_run as _ hrun i hcall.1 hph' (fun j hj e => hd m j i hj hcall.1 e) hnone
  rw [e1] at htab
  -- it is delivered
  have hcb : ((E.st (m + 1)).dock d).nc = ((E.st m).dock d).nc + 1 ∧ ((E.st (m + 1)).dock d).cb ((E.st m).dock d).nc =
      ⟨i, ((E.st n).dock d).index i, ⟨res', err'⟩, .sending⟩ := by
    rw [hnx]
    simp [Dock.State.onPacket, htab]
  have hfree : ∀ j, m + 1 ≤ j → (((E.st j).dock d).cb ((E.st m).dock d).nc).phase = .sending →
      ¬ (((E.st j).dock d).chan (((E.st j).dock d).cb ((E.st m).dock d).nc).rpc ≠ none ∨
        ((E.st j).dock d).chanClosed (((E.st j).dock d).cb ((E.st m).dock d).nc).rpc = true ∨
        (((E.st j).dock d).phase (((E.st j).dock d).cb ((E.st m).dock d).nc).rpc).result ≠ none) := by
    intro j hj hs
    obtain ⟨as, hrun⟩ := (exec_inv (E := E) j).parts.dock d
    exact single_unused (C d) as _ hrun _ hs (one_answer C H R black (exec_inv j) d (hd j) _)
  obtain ⟨j, hj, h⟩ := (F.docks d).delivers (n := m + 1) (k := ((E.st m).dock d).nc)
    (show ((E.st m).dock d).nc < ((E.st (m + 1)).dock d).nc by omega)
    (show (((E.st (m + 1)).dock d).cb ((E.st m).dock d).nc).phase = .sending by rw [hcb.2])
    (fun j hj hs => by
      have := hfree j hj hs
      constructor
      · cases h : ((dockCourse E d).st j).chanClosed (((dockCourse E d).st j).cb ((E.st m).dock d).nc).rpc with
        | false => rfl
        | true => exact absurd (Or.inr (Or.inl h)) this
      · cases h : ((dockCourse E d).st j).chan (((dockCourse E d).st j).cb ((E.st m).dock d).nc).rpc with
        | none => rfl
        | some r =>
          refine absurd (Or.inl ?_) this
          show ((dockCourse E d).st j).chan _ ≠ none
          intro h'
          exact absurd (h.symm.trans h') (by simp))
    (fun j hj hs r => by
      have := hfree j hj hs
      constructor
      · intro h
        refine this (Or.inr (Or.inr ?_))
        show (((dockCourse E d).st j).phase (((dockCourse E d).st j).cb ((E.st m).dock d).nc).rpc).result ≠ none
        rw [h]; simp [Dock.CallPhase.result]
      · intro h
        refine this (Or.inr (Or.inr ?_))
        show (((dockCourse E d).st j).phase (((dockCourse E d).st j).cb ((E.st m).dock d).nc).rpc).result ≠ none
        rw [h]; simp [Dock.CallPhase.result])
  have hr : (((dockCourse E d).st (m + 1)).cb ((E.st m).dock d).nc).rpc = i := by
    show (((E.st (m + 1)).dock d).cb ((E.st m).dock d).nc).rpc = i
    rw [hcb.2]
  rw [hr] at h
  exact ⟨j, _, by omega, h⟩

/-- C125, each request: in every fair execution in which nothing is lost and nothing stops, if the clock of a dock gives no
reading twice, every request that the dock sends is that of a call, the dock at the other end of the connection carries the
feature and executes it, and if the method returns then so does the call. -/
theorem C125_executed (F : System.Fair E) (d : Nat) (hd : DistinctReadings E d) (n e : Nat) (x : BitVec 64) (slot meth : Str)
    (args : List Val) (wr : Bool) (h : Dock.Ev.sent e (.rpcRequest x slot meth args wr) ∈ ((E.st n).dock d).log) :
    ∃ i d' k m args' wr' f, i < ((E.st n).dock d).n ∧ ((E.st n).dock d).index i = x ∧
      ((E.st n).dock d).call i = ⟨slot, meth, args, wr⟩ ∧ LastNamed (C d') slot f ∧
      (E.st m).owner e = some (.dock d) ∧ (E.st m).owner (other e) = some (.dock d') ∧ k < ((E.st m).dock d').nx ∧
      ((E.st m).dock d').exec k = ⟨other e, x, ⟨slot, meth, args', wr'⟩, f.feature, .spawned⟩ ∧
      ((∀ m', m ≤ m' → (((E.st m').dock d').exec k).phase = .running →
          ∃ m'', m' ≤ m'' ∧ (((E.st m'').dock d').exec k).phase ≠ .running) →
        ∃ m' r, n ≤ m' ∧ ((E.st m').dock d).phase i = .returned r) := by
  -- the step that sent it
  obtain ⟨k, _, hk, hfirst⟩ := Trace.first (P := fun k => Dock.Ev.sent e (.rpcRequest x slot meth args wr) ∈ ((E.st k).dock d).log)
    ⟨n, Nat.zero_le n, h⟩
  have hkn : k ≤ n := Nat.le_of_not_lt fun hlt => hfirst n (Nat.zero_le _) hlt h
  cases k with
  | zero => rw [E.init] at hk; simp [System.State.init, Dock.State.init] at hk
  | succ k =>
    have hno := hfirst k (Nat.zero_le _) (by omega)
    have hstep : ∃ l, ((E.st (k + 1)).dock d).log = ((E.st k).dock d).log ++ l ∧ Dock.Ev.sent e (.rpcRequest x slot meth args wr) ∈ l ∧
        ∃ i, ((E.st k).dock d).req i = true ∧ ((E.st k).dock d).remote (((E.st k).dock d).call i).slot = some e ∧
          ((E.st k).dock d).request i = .rpcRequest x slot meth args wr := by
      cases ha : (dockCourse E d).act k with
      | none =>
        have hsame : (E.st (k + 1)).dock d = (E.st k).dock d := (dockCourse E d).none_step ha
        rw [hsame] at hk
        exact absurd hk hno
      | some a =>
        have hs : ((E.st k).dock d).step (C d) a = some ((E.st (k + 1)).dock d) := (dockCourse E d).some_step ha
        obtain ⟨l, hl⟩ := Dock.log_step hs
        have hm : Dock.Ev.sent e (.rpcRequest x slot meth args wr) ∈ l := by
          rw [hl] at hk
          exact (List.mem_append.mp hk).resolve_left hno
        exact ⟨l, hl, hm, Dock.request_step hs hl hm⟩
    obtain ⟨l, hl, hm, i, hreq, hrem, hrq⟩ := hstep
    have I := exec_inv (E := E) k
    have hRpc := (dock_inv I d).2.2.1
    -- its call
    have hset : (((E.st k).dock d).phase i).isSet = true := by
      cases hs : (((E.st k).dock d).phase i).isSet with
      | true => rfl
      | false => rw [hRpc.unset i hs] at hreq; cases hreq
    have hi := hRpc.lt hset
    simp only [Dock.State.request, Proto.rpcRequest.injEq] at hrq
    obtain ⟨rfl, rfl, rfl, rfl, rfl⟩ := hrq
    -- the dock that it goes to
    have htold := (dock_inv I d).1.remote _ _ hrem
    obtain ⟨ho, d', f, ho', hf, _⟩ := told_true I htold
    obtain ⟨hp, hp'⟩ := told_peers I htold ho'
    obtain ⟨j, hj⟩ := F.queued ho hl hm
    -- it arrives and is answered
    obtain ⟨m1, q, hm1, hf1, hh1, hn1⟩ := F.gets hj (exec_owner (by omega) ho').1 hp'
    have hq := fate_head hf1
    cases q <;> simp [head] at hq
    rename_i x' slot' meth' args' wr'
    obtain ⟨rfl, rfl, rfl⟩ := hq
    have hslot := (Dock.slotsOf_some (C d') _ f).mpr hf
    have hex : ((E.st (m1 + 1)).dock d').nx = ((E.st m1).dock d').nx + 1 ∧ ((E.st (m1 + 1)).dock d').exec ((E.st m1).dock d').nx =
        ⟨other e, ((E.st k).dock d).index i, ⟨(((E.st k).dock d).call i).slot, (((E.st k).dock d).call i).meth, args', wr'⟩,
          f.feature, .spawned⟩ := by
      rw [hn1]
      simp [Dock.State.onPacket, hslot]
    have hin := Dock.course_call (T := dockCourse E d) (show k ≤ n by omega) hi
    refine ⟨i, d', ((E.st m1).dock d').nx, m1 + 1, args', wr', f, hin.1, hin.2.2, hin.2.1, hf,
      (exec_owner (by omega) ho).1, (exec_owner (by omega) ho').1, by omega, hex.2, fun hfin => ?_⟩
    obtain ⟨m2, r, hm2, hl2⟩ := (F.docks d').answers (n := m1 + 1) (k := ((E.st m1).dock d').nx)
      (show ((E.st m1).dock d').nx < ((E.st (m1 + 1)).dock d').nx by omega)
      (show (((E.st (m1 + 1)).dock d').exec ((E.st m1).dock d').nx).phase ≠ .over by rw [hex.2]; simp) hfin
    have hst : ((dockCourse E d').st (m1 + 1)).exec ((E.st m1).dock d').nx = _ := hex.2
    rw [hst] at hl2
    -- the response arrives
    obtain ⟨j', hj'⟩ := F.queued (exec_owner (show k ≤ m2 by omega) ho').1 hl2 (List.mem_singleton.mpr rfl)
    rw [other_other] at hj'
    have hcall := Dock.course_call (T := dockCourse E d) (show k ≤ m2 + 1 by omega) hi
    have hx : ((E.st (m2 + 1)).dock d).index i = ((E.st k).dock d).index i := hcall.2.2
    have hphase : ((E.st (m2 + 1)).dock d).phase i ≠ .created := by
      refine Trace.keep (n := k) (P := fun m => ((E.st m).dock d).phase i ≠ .created) ?_ ?_ (m2 + 1) (by omega)
      · intro h; rw [h] at hset; cases hset
      intro j hj h
      have hij := (Dock.course_call (T := dockCourse E d) hj hi).1
      rcases Dock.course_phase (T := dockCourse E d) j i hij with h1 | ⟨_, _, h1⟩ | ⟨_, _, h1⟩ | ⟨_, _, h1⟩ | ⟨_, _, r, _, h1⟩ | ⟨_, r, _, h1⟩
      all_goals
        show ((dockCourse E d).st (j + 1)).phase i ≠ .created
        rw [h1]
      · exact h
      all_goals simp
    obtain ⟨m3, r', hm3, hret⟩ := response_returns F hd (n := m2 + 1) (i := i) (e := e) (k := j') hcall.1 hphase
      (by rw [hx]; exact hj') (exec_owner (by omega) ho).1 (exec_isPeer (by omega) hp)
    -- it stays returned
    have hstay : ∀ m, m3 ≤ m → ((E.st m).dock d).phase i = .returned r' := by
      refine Trace.keep (P := fun m => ((E.st m).dock d).phase i = .returned r') hret ?_
      intro j hj h
      have hij := (Dock.course_call (T := dockCourse E d) (show k ≤ j by omega) hi).1
      have h : ((dockCourse E d).st j).phase i = .returned r' := h
      rcases Dock.course_phase (T := dockCourse E d) j i hij with h1 | ⟨_, h1, _⟩ | ⟨_, h1, _⟩ | ⟨_, h1, _⟩ | ⟨_, h1, _⟩ | ⟨_, r, h1, _⟩
      · exact h1.trans h
      all_goals rw [h] at h1; cases h1
    exact ⟨max n m3, r', by omega, hstay _ (by omega)⟩

/-- C125: in every fair execution in which nothing is lost and nothing stops, and in which methods return, every request that
a dock sends is that of a call, and the call returns. -/
theorem C125_answered (F : System.Fair E) (M : MethodsReturn E) (d : Nat) (hd : DistinctReadings E d) (n e : Nat) (x : BitVec 64)
    (slot meth : Str) (args : List Val) (wr : Bool)
    (h : Dock.Ev.sent e (.rpcRequest x slot meth args wr) ∈ ((E.st n).dock d).log) :
    ∃ m i r, n ≤ m ∧ i < ((E.st m).dock d).n ∧ ((E.st m).dock d).index i = x ∧ ((E.st m).dock d).call i = ⟨slot, meth, args, wr⟩ ∧
      ((E.st m).dock d).phase i = .returned r := by
  obtain ⟨i, d', k, m, _, _, _, hi, hx, hc, _, _, _, _, _, hret⟩ := C125_executed F d hd n e x slot meth args wr h
  obtain ⟨m', r, hm', hr⟩ := hret fun m' _ hrun => M m' d' k hrun
  have hin := Dock.course_call (T := dockCourse E d) hm' hi
  exact ⟨m', i, r, hm', hin.1, hin.2.2.trans hx, hin.2.1.trans hc, hr⟩

/-! ## C126: calls of features that are offered return -/

/-- A packet without payload that a dock sends to another dock makes the other dock handle it. -/
theorem sent_gets (F : System.Fair E) {n t d d' e : Nat} {pkt : Proto} (ho : (E.st n).owner e = some (.dock d))
    (ho' : (E.st n).owner (other e) = some (.dock d')) (hp : ((E.st t).dock d').isPeer (other e) = true) (h7 : pkt.kind < 7)
    (hl : ((E.st (n + 1)).dock d).log = ((E.st n).dock d).log ++ [.sent e pkt]) :
    ∃ m, n < m ∧ (E.st (m + 1)).dock d' =
      ({ (E.st m).dock d' with log := ((E.st m).dock d').log ++ [.recv (other e) pkt] } : Dock.State).onPacket (C d') (other e) pkt := by
  obtain ⟨k, hk⟩ := F.queued ho hl (List.mem_singleton.mpr rfl)
  obtain ⟨m, hm, h⟩ := F.gets_whole hk (exec_owner (by omega) ho').1 hp h7
  exact ⟨m, by omega, h⟩

/-- What a register request from a dock does: the dock is told the features, and takes down those of the sender. -/
theorem registers (F : System.Fair E) {n t d d' e : Nat} {order : List Str} (ho : (E.st n).owner e = some (.dock d))
    (ho' : (E.st n).owner (other e) = some (.dock d')) (hp : ((E.st t).dock d').isPeer (other e) = true)
    (hp' : ((E.st t).dock d).isPeer e = true)
    (hl : ((E.st (n + 1)).dock d).log = ((E.st n).dock d).log ++ [.sent e (.registerRequest order)]) :
    (∃ m l, n < m ∧ (∀ x, x ∈ l ↔ x ∈ Dock.collectOf (C d')) ∧ ((E.st m).dock d).handler e = .slots l) ∧
    ∀ slot ∈ order, ∃ m, n < m ∧ ∀ k, m ≤ k → ((E.st k).dock d').remote slot ≠ none := by
  obtain ⟨m, hm, hst⟩ := sent_gets F ho ho' hp (by simp [Proto.kind]) hl
  obtain ⟨m1, l, hm1, hl1, hlog, hh⟩ := (F.docks d').replies (n := m + 1) (p := other e) (l := order) (by
    show ((E.st (m + 1)).dock d').handler (other e) = _
    rw [hst]; simp [Dock.State.onPacket])
  constructor
  · obtain ⟨m2, hm2, hst2⟩ := sent_gets F (t := t) (exec_owner (show n ≤ m1 by omega) ho').1
      (by rw [other_other]; exact (exec_owner (show n ≤ m1 by omega) ho).1) (by rw [other_other]; exact hp')
      (by simp [Proto.kind]) hlog
    rw [other_other] at hst2
    refine ⟨m2 + 1, l, by omega, hl1, ?_⟩
    rw [hst2]; simp [Dock.State.onPacket]
  · intro slot hs
    obtain ⟨m2, hm2, h2⟩ := (F.docks d').learns hh hs
    exact ⟨m2, by omega, h2⟩

/-- The hub is asked for a feature: it is answered by the address of a dock that carries it, and the dock that asked makes a
connection to that dock. -/
theorem asked_connects (F : System.Fair E) {n d e : Nat} {slot : Str} (ho : (E.st n).owner e = some (.dock d))
    (ho' : (E.st n).owner (other e) = some .hub) (hp : ((E.st n).dock d).isPeer e = true)
    (hl : ((E.st (n + 1)).dock d).log = ((E.st n).dock d).log ++ [.sent e (.queryRequest slot)])
    {n0 : Nat} {st : Hub.Stub} (hst : st ∈ (E.st n0).hub.stubs slot) (hr : st.ready = true) :
    ∃ m c d' f, n < m ∧ LastNamed (C d') slot f ∧ f.discoverable = true ∧ (E.st m).owner (2 * c) = some (.dock d) ∧
      (E.st m).owner (2 * c + 1) = some (.dock d') ∧ (E.st m).port (2 * c + 1) ∈ ((E.st m).dock d').ports ∧
      ((E.st m).dock d').isNew (2 * c + 1) = true ∧ ((E.st m).dock d).isPeer (2 * c) = true ∧
      ((E.st m).dock d).greeting (2 * c) = true := by
  -- the hub gets the query
  obtain ⟨k, hk⟩ := F.queued ho hl (List.mem_singleton.mpr rfl)
  obtain ⟨m1, hm1, hs1⟩ := F.gets_hub_whole hk (exec_owner (by omega) ho').1 (by simp [Proto.kind])
  have hq1 : (E.st (m1 + 1)).hub.n = (E.st m1).hub.n + 1 ∧ (E.st (m1 + 1)).hub.query (E.st m1).hub.n = ⟨other e, slot, .top⟩ := by
    simp only [Hub.State.step] at hs1
    repeat' split at hs1
    all_goals first
      | (rw [← Option.some.inj hs1]; simp; done)
      | cases hs1
  -- and answers it
  obtain ⟨m2, addr, hm2, hl2, hd2⟩ := F.hubs.answered (n := m1 + 1) (q := (E.st m1).hub.n) (n0 := n0) (st := st)
    (show (E.st m1).hub.n < (E.st (m1 + 1)).hub.n by omega)
    (by
      show st ∈ (E.st n0).hub.stubs ((E.st (m1 + 1)).hub.query (E.st m1).hub.n).slot
      rw [hq1.2]; exact hst) hr
    (by
      intro addr h
      have h : ((E.st (m1 + 1)).hub.query (E.st m1).hub.n).phase = .done addr := h
      rw [hq1.2] at h; cases h)
  have hslot : ((E.st (m2 + 1)).hub.query (E.st m1).hub.n).slot = slot := by
    have := (Hub.course_query (T := hubCourse E) (show m1 + 1 ≤ m2 + 1 by omega)
      (show (E.st m1).hub.n < (E.st (m1 + 1)).hub.n by omega)).2
    have h : ((E.st (m2 + 1)).hub.query (E.st m1).hub.n).slot = ((E.st (m1 + 1)).hub.query (E.st m1).hub.n).slot := this
    rw [h, hq1.2]
  have hpeer : (((hubCourse E).st (m1 + 1)).query (E.st m1).hub.n).peer = other e := by
    show ((E.st (m1 + 1)).hub.query (E.st m1).hub.n).peer = other e
    rw [hq1.2]
  rw [hpeer] at hl2
  obtain ⟨_, hreach⟩ := E.reach (m2 + 1)
  obtain ⟨d', x, f, haddr, hx, hf, hdisc⟩ := C62_listening C H R black _ _ hreach _ addr hd2
  rw [hslot] at hf
  -- the answer arrives
  obtain ⟨k2, hk2⟩ := F.queued_hub (exec_owner (show n ≤ m2 by omega) ho').1 hl2 (List.mem_singleton.mpr rfl)
  rw [other_other] at hk2
  obtain ⟨m3, hm3, hs3⟩ := F.gets_whole hk2 (exec_owner (by omega) ho).1 hp (by simp [Proto.kind])
  have hh3 : ((E.st (m3 + 1)).dock d).handler e = .dialling addr := by rw [hs3]; simp [Dock.State.onPacket]
  -- the dock dials
  obtain ⟨m4, e', hm4, hh4, ha4⟩ := (F.docks d).dials (m3 + 1) e addr hh3
  have hh4 : ((E.st m4).dock d).handler e = .dialling addr := hh4
  obtain ⟨b4, hb4, hx4, hs4⟩ := dock_act ha4
  obtain ⟨d2, port, hact, rfl⟩ := dockAct_dial hs4 hx4
  rw [hact] at hs4
  simp only [System.State.step, hh4] at hs4
  split at hs4
  case isFalse => cases hs4
  rename_i hcond
  obtain ⟨_, _, hport, haddr'⟩ := hcond
  -- it reaches the dock that was meant
  obtain ⟨d3, x3, _, _, huniq⟩ := C80_dial C H R black _ _ (E.reach m4).choose_spec d e addr hh4
  obtain ⟨rfl, rfl⟩ := huniq d' x haddr (exec_ports (by omega) hx)
  obtain ⟨rfl, rfl⟩ := huniq d2 port haddr' hport
  split at hs4
  case h_2 => cases hs4
  rename_i s hs
  have hS := Option.some.inj hs4
  have hdock : (E.st (m4 + 1)).dock d = s := by rw [← hS]; simp [System.State.setDock]
  have hnew := fun x => isNew_fresh (exec_inv (E := E) m4) (exec_ends m4) (d := x) (e := 2 * (E.st m4).n + 1) (by omega)
  have hsd : ((E.st m4).dock d).connected (2 * (E.st m4).n) (.dialled (2 * (E.st m4).n)) =
      { s with handler := ((E.st m4).dock d).handler } := by
    simp only [Dock.State.step, hh4] at hs
    repeat' split at hs
    all_goals first
      | (rw [← Option.some.inj hs]; done)
      | (rw [← Option.some.inj hs]; rfl)
      | cases hs
  have hpeers : s.peers = ((E.st m4).dock d).peers ++ [(2 * (E.st m4).n, .dialled (2 * (E.st m4).n))] := by
    have := congrArg Dock.State.peers hsd
    exact this.symm
  have hgreet : s.greeting (2 * (E.st m4).n) = true := by
    have := congrFun (congrArg Dock.State.greeting hsd) (2 * (E.st m4).n)
    rw [show s.greeting = ({ s with handler := ((E.st m4).dock d).handler } : Dock.State).greeting from rfl, ← this]
    simp [Dock.State.connected]
  refine ⟨m4 + 1, (E.st m4).n, d2, f, by omega, hf, hdisc, ?_, ?_, ?_, ?_, ?_, ?_⟩
  · rw [← hS]; simp [System.State.setDock, System.State.connect, upd]
  · rw [← hS]; simp [System.State.setDock, System.State.connect]
  · have : (E.st (m4 + 1)).port (2 * (E.st m4).n + 1) = port := by rw [← hS]; simp [System.State.setDock, System.State.connect]
    rw [this]
    exact exec_ports (by omega) hport
  · by_cases e2 : d2 = d
    · subst e2
      rw [hdock]
      have := hnew d2
      unfold Dock.State.isNew at this ⊢
      rw [hpeers, List.all_append, this]
      simp
    · have : (E.st (m4 + 1)).dock d2 = (E.st m4).dock d2 := by
        rw [← hS]
        exact upd_other _ _ e2
      rw [this]
      exact hnew d2
  · rw [hdock, isPeer_mem]
    exact ⟨_, by rw [hpeers]; exact List.mem_append_right _ (List.mem_singleton.mpr rfl)⟩
  · rw [hdock]; exact hgreet

/-- Two docks introduce themselves over a new connection. -/
theorem introduced (F : System.Fair E) {n c d d' : Nat} (ho : (E.st n).owner (2 * c) = some (.dock d))
    (ho' : (E.st n).owner (2 * c + 1) = some (.dock d')) (hport : (E.st n).port (2 * c + 1) ∈ ((E.st n).dock d').ports)
    (hnew : ((E.st n).dock d').isNew (2 * c + 1) = true) (hp : ((E.st n).dock d).isPeer (2 * c) = true)
    (hg : ((E.st n).dock d).greeting (2 * c) = true) {slot : Str} (hs : slot ∈ Dock.collectOf (C d')) :
    (∃ m l, n < m ∧ slot ∈ l ∧ ((E.st m).dock d).handler (2 * c) = .slots l) ∧
    ∃ m, n < m ∧ ∀ k, m ≤ k → ((E.st k).dock d).remote slot ≠ none := by
  obtain ⟨t, ht, hp', hg'⟩ := F.accepts ho' (by omega) hport hnew
  have hp2 := exec_isPeer (show n ≤ t + 1 by omega) hp
  constructor
  · obtain ⟨m, order, hm, _, hl⟩ := (F.docks d).greets hg
    obtain ⟨m1, l, hm1, h1, h2⟩ := (registers F (t := t + 1) (exec_owner hm ho).1 (by rw [other_even]; exact (exec_owner hm ho').1)
      (by rw [other_even]; exact hp') hp2 hl).1
    exact ⟨m1, l, by omega, (h1 slot).mpr hs, h2⟩
  · obtain ⟨m, order, hm, horder, hl⟩ := (F.docks d').greets hg'
    obtain ⟨m1, hm1, h1⟩ := (registers F (t := t + 1) (exec_owner (show n ≤ m by omega) ho').1
      (by rw [other_odd]; exact (exec_owner (show n ≤ m by omega) ho).1)
      (by rw [other_odd]; exact hp2) hp' hl).2 slot ((horder slot).mpr hs)
    exact ⟨m1, by omega, h1⟩

/-- A call is committed while the dock knows nobody who carries the feature: it is told about the feature by a dock that
carries it, and remembers it. -/
theorem commit_round (F : System.Fair E) {n d i : Nat} (hreq : ((E.st n).dock d).req i = true)
    (hrem : ((E.st n).dock d).remote (((E.st n).dock d).call i).slot = none)
    (hhub : ((E.st n).dock d).sockets.head? = some .hub)
    (hl : ((E.st (n + 1)).dock d).log = (((E.st n).dock d).doCommit i).log)
    {n0 : Nat} {st : Hub.Stub} (hst : st ∈ (E.st n0).hub.stubs (((E.st n).dock d).call i).slot) (hr : st.ready = true) :
    (∃ m p l, n < m ∧ (((E.st n).dock d).call i).slot ∈ l ∧ ((E.st m).dock d).handler p = .slots l) ∧
    ∃ m, n < m ∧ ∀ k, m ≤ k → ((E.st k).dock d).remote (((E.st n).dock d).call i).slot ≠ none := by
  obtain ⟨e, hfil, ho, ho', hp⟩ := hub_peer (exec_inv (E := E) n) (exec_ends n) hhub
  have hlog : ((E.st (n + 1)).dock d).log = ((E.st n).dock d).log ++ [.sent e (.queryRequest (((E.st n).dock d).call i).slot)] := by
    rw [hl]
    unfold Dock.State.doCommit
    rw [if_pos hreq, hrem]
    cases hs : ((E.st n).dock d).sockets with
    | nil => rw [hs] at hhub; cases hhub
    | cons k ks =>
      rw [hs] at hhub
      cases hhub
      simp only
      rw [hfil]
      rfl
  obtain ⟨m, c, d', f, hm, hf, hdisc, h1, h2, h3, h4, h5, h6⟩ := asked_connects F ho ho' hp hlog hst hr
  obtain ⟨⟨m1, l, hm1, hl1, hh1⟩, m2, hm2, hr2⟩ := introduced F h1 h2 h3 h4 h5 h6 ((Dock.mem_collectOf _ _).mpr ⟨f, hf, hdisc⟩)
  exact ⟨⟨m1, _, l, by omega, hl1, hh1⟩, m2, by omega, hr2⟩

/-- C126, first half: in every fair execution in which nothing is lost and nothing stops, the request of a call of a feature
that the dock does not carry is sent, provided that the hub knows a ready dock with that feature at some time, before or after
the call, and that the first socket of the dock was the one to the hub. -/
theorem C126_sent (F : System.Fair E) (d : Nat) (hd : DistinctReadings E d) (n : Nat) (c : Dock.Call) (clock : BitVec 64)
    (hcall : E.act n = some (.dock d (.call c clock))) (hc : ∀ f ∈ C d, f.name ≠ c.slot)
    (hhub : ((E.st n).dock d).sockets.head? = some .hub) (n0 : Nat) (st : Hub.Stub)
    (hst : st ∈ (E.st n0).hub.stubs c.slot) (hr : st.ready = true) :
    ∃ m e, n < m ∧ ((E.st n).dock d).n < ((E.st m).dock d).n ∧ ((E.st m).dock d).call ((E.st n).dock d).n = c ∧
      ((E.st m).dock d).index ((E.st n).dock d).n = clock ∧
      Dock.Ev.sent e (.rpcRequest clock c.slot c.meth c.args c.withResult) ∈ ((E.st m).dock d).log := by
  have hact : (dockCourse E d).act n = some (.call c clock) := by
    simp [dock_acts hcall, System.State.dockAct]
  have hs : ((E.st n).dock d).step (C d) (.call c clock) = some ((E.st (n + 1)).dock d) := (dockCourse E d).some_step hact
  have hnone : Dock.slotsOf (C d) c.slot = none := (Dock.slotsOf_none _ _).mpr hc
  simp only [Dock.State.step, F.dock n d, hnone] at hs
  rw [if_neg (by simp)] at hs
  have hS := Option.some.inj hs
  generalize hi : ((E.st n).dock d).n = i at *
  have hin : i < ((E.st (n + 1)).dock d).n := by rw [← hS]; simp
  have hci : ((E.st (n + 1)).dock d).call i = c := by rw [← hS]; simp
  have hph : ((E.st (n + 1)).dock d).phase i = .created := by rw [← hS]; simp
  -- the call stays
  have hcc := fun m (hm : n + 1 ≤ m) => Dock.course_call (T := dockCourse E d) hm hin
  have hcc1 : ∀ m, n + 1 ≤ m → i < ((E.st m).dock d).n := fun m hm => (hcc m hm).1
  have hcc2 : ∀ m, n + 1 ≤ m → ((E.st m).dock d).call i = c := fun m hm => ((hcc m hm).2.1).trans hci
  have hcc3 : ∀ m, n + 1 ≤ m → ((E.st m).dock d).index i = ((E.st (n + 1)).dock d).index i := fun m hm => (hcc m hm).2.2
  -- its request is sent
  obtain ⟨m, e, slot, meth, args, wr, hm, hsent⟩ : ∃ m e slot meth args wr, n < m ∧
      Dock.Ev.sent e (.rpcRequest (((E.st (n + 1)).dock d).index i) slot meth args wr) ∈ ((E.st m).dock d).log := by
    refine Classical.byContradiction fun hno => ?_
    obtain ⟨m0, hm0, hp0, ha0, _⟩ := (F.docks d).commits (n := n + 1) (i := i) hin (Or.inl hph)
    have hset : ∀ m, m0 ≤ m → (((E.st m).dock d).phase i).isSet = true := by
      have hp0 : ((E.st m0).dock d).phase i = .set := hp0
      refine Trace.keep (P := fun m => (((E.st m).dock d).phase i).isSet = true) (by rw [hp0]; rfl) ?_
      intro m hm h
      rcases Dock.course_phase (T := dockCourse E d) m i (hcc1 m (by omega)) with h1 | ⟨_, h1, _⟩ | ⟨_, h1, _⟩ | ⟨_, _, h1⟩ | ⟨_, _, r, _, h1⟩ | ⟨_, r, _, h1⟩
      · have h1 : ((E.st (m + 1)).dock d).phase i = ((E.st m).dock d).phase i := h1
        rw [h1]; exact h
      · have h1 : ((E.st m).dock d).phase i = .created := h1
        rw [h1] at h; cases h
      · have h1 : ((E.st m).dock d).phase i = .stored := h1
        rw [h1] at h; cases h
      all_goals
        show (((dockCourse E d).st (m + 1)).phase i).isSet = true
        rw [h1]
        rfl
    have hreq : ∀ m, m0 ≤ m → ((E.st m).dock d).req i = true := by
      intro m hm
      cases hq : ((E.st m).dock d).req i with
      | true => rfl
      | false =>
        exfalso
        obtain ⟨ids, _, hids, he⟩ := (dock_inv (exec_inv (E := E) m) d).2.2.1.sent
        have : ((E.st m).dock d).request i ∈ ((E.st m).dock d).log.filterMap Dock.requestOf := by
          rw [he]; exact List.mem_map.mpr ⟨i, (hids i).mpr ⟨hset m hm, hq⟩, rfl⟩
        obtain ⟨a, ha, hb⟩ := List.mem_filterMap.mp this
        unfold Dock.requestOf at hb
        split at hb
        · have hb := Option.some.inj hb
          simp only [Dock.State.request, Proto.rpcRequest.injEq] at hb
          obtain ⟨h1, h2, h3, h4, h5⟩ := hb
          rw [h1, hcc3 m (by omega)] at ha
          exact hno ⟨m, _, _, _, _, _, by omega, ha⟩
        · cases hb
    have hwait : ∀ m, m0 ≤ m → ((E.st m).dock d).rpcs (((E.st m).dock d).index i) = some i ∧ ((E.st m).dock d).req i = true := by
      intro m hm
      refine ⟨?_, hreq m hm⟩
      obtain ⟨as, hrun⟩ := (exec_inv (E := E) m).parts.dock d
      refine Dock.kept_run as _ hrun i (hcc1 m (by omega)) (by intro h; have := hset m hm; rw [h] at this; cases this)
        (fun j hj e => hd m j i hj (hcc1 m (by omega)) e) ?_
      rintro r ⟨p, a, b, hrecv⟩
      have hpos : 0 < (dockGot p ((E.st m).dock d).log).countP (isRespOf (((E.st m).dock d).index i)) :=
        List.countP_pos_iff.mpr ⟨_, mem_dockGot.mpr hrecv, by simp [isRespOf]⟩
      have hpos := Nat.lt_of_lt_of_le hpos (answers_le C H R black (exec_inv (E := E) m) d p _)
      obtain ⟨pkt, hpkt, hx⟩ := List.countP_pos_iff.mp hpos
      have hpkt := mem_dockSent.mp hpkt
      cases pkt <;> simp [isReqOf] at hx
      rw [hx, hcc3 m (by omega)] at hpkt
      exact hno ⟨m, _, _, _, _, _, by omega, hpkt⟩
    have hhead : ∀ m, n ≤ m → ((E.st m).dock d).sockets.head? = some .hub := by
      refine (dockCourse E d).stays (P := fun s => s.sockets.head? = some .hub) ?_ hhub
      intro s a t h hs
      obtain ⟨l, hl⟩ := Dock.sockets_step hs
      rw [hl]
      cases hk : s.sockets with
      | nil => rw [hk] at h; cases h
      | cons x l => rw [hk] at h; exact h
    -- commits find no dock
    have hunk : ∀ m, m0 ≤ m → ((E.st (m + 1)).dock d).log = (((E.st m).dock d).doCommit i).log → ((E.st m).dock d).remote c.slot = none := by
      intro m hm hl
      cases hrem : ((E.st m).dock d).remote c.slot with
      | none => rfl
      | some e =>
        exfalso
        refine hno ⟨m + 1, e, c.slot, c.meth, c.args, c.withResult, by omega, ?_⟩
        rw [hl]
        unfold Dock.State.doCommit
        rw [if_pos (hreq m hm), hcc2 m (by omega), hrem]
        simp [Dock.State.request, hcc2 m (by omega), hcc3 m (by omega)]
    have round : ∀ m, m0 ≤ m → ((E.st (m + 1)).dock d).log = (((E.st m).dock d).doCommit i).log →
        (∃ m', m < m' ∧ ((E.st (m' + 1)).dock d).log = (((E.st m').dock d).doCommit i).log) ∧
        ∃ m', m < m' ∧ ∀ k, m' ≤ k → ((E.st k).dock d).remote c.slot ≠ none := by
      intro m hm hl
      have hcm := hcc2 m (by omega)
      have := commit_round F (hreq m hm) (by rw [hcm]; exact hunk m hm hl) (hhead m (by omega)) hl (n0 := n0) (st := st)
        (by rw [hcm]; exact hst) hr
      rw [hcm] at this
      obtain ⟨⟨m1, p, l, hm1, hl1, hh1⟩, h2⟩ := this
      refine ⟨?_, h2⟩
      obtain ⟨m2, hm2, h', heq⟩ := (F.docks d).ready (n := m1) (p := p) (i := i) (l := l) hh1
        (by
          show (((E.st m1).dock d).call i).slot ∈ l
          rw [hcc2 m1 (by omega)]; exact hl1)
        (hcc1 m1 (by omega)) (fun k hk => hwait k (by omega))
      have heq : (E.st (m2 + 1)).dock d = { ((E.st m2).dock d).doCommit i with handler := h' } := heq
      exact ⟨m2, by omega, by rw [heq]⟩
    have first : ((E.st (m0 + 1)).dock d).log = (((E.st m0).dock d).doCommit i).log := by
      have h := (dockCourse E d).some_step ha0
      have hp0 : ((E.st m0).dock d).phase i = .set := hp0
      have h : ((E.st m0).dock d).step (C d) (.commit i) = some ((E.st (m0 + 1)).dock d) := h
      simp only [Dock.State.step, F.dock m0 d, hp0] at h
      rw [if_neg (by simp)] at h
      rw [← Option.some.inj h]
    obtain ⟨M, hM, hknown⟩ := (round m0 (Nat.le_refl _) first).2
    -- there are commits after any time
    have again : ∀ N, ∃ m, m0 ≤ m ∧ N ≤ m ∧ ((E.st (m + 1)).dock d).log = (((E.st m).dock d).doCommit i).log := by
      intro N
      induction N with
      | zero => exact ⟨m0, Nat.le_refl _, Nat.zero_le _, first⟩
      | succ N ih =>
        obtain ⟨m, h1, h2, h3⟩ := ih
        obtain ⟨m', h4, h5⟩ := (round m h1 h3).1
        exact ⟨m', by omega, by omega, h5⟩
    obtain ⟨m, h1, h2, h3⟩ := again M
    exact hknown m h2 (hunk m h1 h3)
  -- it is the request of this call
  obtain ⟨j, _, _, _, _, _, _, hj, hx, hc', _⟩ := C125_executed F d hd m e _ slot meth args wr hsent
  have : j = i := hd m j i hj (hcc1 m (by omega)) (hx.trans (hcc3 m (by omega)).symm)
  subst this
  have hix : ((E.st (n + 1)).dock d).index j = clock := by rw [← hS]; simp
  rw [hcc2 m (by omega)] at hc'
  subst hc'
  exact ⟨m, e, hm, hj, hcc2 m (by omega), hx.trans hix, hix ▸ hsent⟩

/-- C126: in every fair execution in which nothing is lost and nothing stops, and in which methods return, a call of a feature
that the dock does not carry returns, provided that the hub knows a ready dock with that feature at some time, before or after
the call, and that the first socket of the dock was the one to the hub. -/
theorem C126_returns (F : System.Fair E) (M : MethodsReturn E) (d : Nat) (hd : DistinctReadings E d) (n : Nat) (c : Dock.Call)
    (clock : BitVec 64) (hcall : E.act n = some (.dock d (.call c clock))) (hc : ∀ f ∈ C d, f.name ≠ c.slot)
    (hhub : ((E.st n).dock d).sockets.head? = some .hub) (n0 : Nat) (st : Hub.Stub)
    (hst : st ∈ (E.st n0).hub.stubs c.slot) (hr : st.ready = true) :
    ∃ m r, n < m ∧ ((E.st m).dock d).call ((E.st n).dock d).n = c ∧ ((E.st m).dock d).phase ((E.st n).dock d).n = .returned r := by
  obtain ⟨m, e, hm, hi, hcm, hx, hsent⟩ := C126_sent F d hd n c clock hcall hc hhub n0 st hst hr
  obtain ⟨m', j, r, hm', hj, hx', _, hret⟩ := C125_answered F M d hd m e _ _ _ _ _ hsent
  have hin := Dock.course_call (T := dockCourse E d) hm' hi
  have : j = ((E.st n).dock d).n := hd m' j _ hj hin.1 (hx'.trans (hin.2.2.trans hx).symm)
  subst this
  exact ⟨m', r, by omega, hin.2.1.trans hcm, hret⟩

/-- A dock that joins gets its discoverable features registered at the hub, and they become ready. -/
theorem join_offers (F : System.Fair E) {n d : Nat} (h : E.act n = some (.join d)) {slot : Str} {f : Carried} (hf : LastNamed (C d) slot f)
    (hdisc : f.discoverable = true) : ∃ m st, n < m ∧ st ∈ (E.st m).hub.stubs slot ∧ st.ready = true := by
  have hcol : slot ∈ Dock.collectOf (C d) := (Dock.mem_collectOf _ _).mpr ⟨f, hf, hdisc⟩
  -- the connection
  have hs := E.some_step h
  simp only [System.State.step] at hs
  split at hs
  case isFalse => cases hs
  split at hs
  case h_2 => cases hs
  rename_i s hs'
  have hS := Option.some.inj hs
  have ho : (E.st (n + 1)).owner (2 * (E.st n).n) = some (.dock d) := by
    rw [← hS]; simp [System.State.setDock, System.State.connect, upd]
  have ho' : (E.st (n + 1)).owner (2 * (E.st n).n + 1) = some .hub := by
    rw [← hS]; simp [System.State.setDock, System.State.connect]
  have hdock : (E.st (n + 1)).dock d = s := by rw [← hS]; simp [System.State.setDock]
  have hpg : s.isPeer (2 * (E.st n).n) = true ∧ s.greeting (2 * (E.st n).n) = true := by
    simp only [Dock.State.step] at hs'
    repeat' split at hs'
    all_goals first
      | (rw [← Option.some.inj hs']; simp [Dock.State.connected, Dock.State.isPeer]; done)
      | cases hs'
  rw [← hdock] at hpg
  generalize (E.st n).n = c at ho ho' hpg
  -- the dock registers
  obtain ⟨m1, order, hm1, horder, hl1⟩ := (F.docks d).greets hpg.2
  obtain ⟨k1, hk1⟩ := F.queued (exec_owner hm1 ho).1 hl1 (List.mem_singleton.mpr rfl)
  rw [other_even] at hk1
  obtain ⟨m2, hm2, hs2⟩ := F.gets_hub_whole hk1 (exec_owner (by omega) ho').1 (by simp [Proto.kind])
  obtain ⟨addr, port, ht2⟩ : ∃ addr port, (E.st (m2 + 1)).hub.task (2 * c + 1) = .adding addr port order := by
    have hd := F.hub (m2 + 1)
    simp only [Hub.State.step] at hs2
    repeat' split at hs2
    all_goals first
      | (rw [← Option.some.inj hs2] at hd; cases hd; done)
      | (rw [← Option.some.inj hs2]; exact ⟨_, _, upd_same ..⟩)
      | cases hs2
  -- and gets a port
  obtain ⟨m3, hm3, hl3, hst3⟩ := F.hubs.adds ht2
  obtain ⟨st, hst, hpeer⟩ := hst3 slot ((horder slot).mpr hcol)
  obtain ⟨k3, hk3⟩ := F.queued_hub (exec_owner (show n + 1 ≤ m3 by omega) ho').1 hl3 (List.mem_singleton.mpr rfl)
  rw [other_odd] at hk3
  obtain ⟨m4, hm4, hs4⟩ := F.gets_whole hk3 (exec_owner (by omega) ho).1 hpg.1 (by simp [Proto.kind])
  -- it announces its features
  obtain ⟨m5, order5, hm5, horder5, hl5⟩ := (F.docks d).announces (n := m4 + 1) (p := 2 * c) (port := BitVec.ofNat 64 port) (by
    show ((E.st (m4 + 1)).dock d).handler (2 * c) = _
    rw [hs4]; simp [Dock.State.onPacket])
  obtain ⟨k5, hk5⟩ := F.queued (exec_owner (show n + 1 ≤ m5 by omega) ho).1 hl5 List.mem_cons_self
  rw [other_even] at hk5
  obtain ⟨m6, hm6, hs6⟩ := F.gets_hub_whole hk5 (exec_owner (by omega) ho').1 (by simp [Proto.kind])
  have ht6 : (E.st (m6 + 1)).hub.task (2 * c + 1) = .marking order5 := by
    simp only [Hub.State.step] at hs6
    repeat' split at hs6
    all_goals first
      | (rw [← Option.some.inj hs6]; exact upd_same ..)
      | cases hs6
  obtain ⟨m7, hm7, st7, h7, hr7⟩ := F.hubs.marks ht6 ((horder5 slot).mpr hcol) (by
    obtain ⟨j, hj⟩ := List.mem_iff_getElem?.mp hst
    obtain ⟨st', h3, _, h4, _⟩ := Hub.course_grows (T := hubCourse E) (show m3 + 1 ≤ m6 + 1 by omega) _ _ _ hj
    exact ⟨st', List.mem_of_getElem? h3, h4.trans hpeer⟩)
  exact ⟨m7, st7, by omega, h7, hr7⟩

/-- C126, with docks only: in every fair execution in which nothing is lost and nothing stops, a call of a feature that the
dock does not carry returns if a dock that carries it as discoverable joins at some time, before or after the call. -/
theorem C126_joined (F : System.Fair E) (M : MethodsReturn E) (d : Nat) (hd : DistinctReadings E d) (n : Nat) (c : Dock.Call)
    (clock : BitVec 64) (hcall : E.act n = some (.dock d (.call c clock))) (hc : ∀ f ∈ C d, f.name ≠ c.slot)
    (hhub : ((E.st n).dock d).sockets.head? = some .hub) (n0 d' : Nat) (hj : E.act n0 = some (.join d')) (f : Carried)
    (hf : LastNamed (C d') c.slot f) (hdisc : f.discoverable = true) :
    ∃ m r, n < m ∧ ((E.st m).dock d).call ((E.st n).dock d).n = c ∧ ((E.st m).dock d).phase ((E.st n).dock d).n = .returned r := by
  obtain ⟨m, st, _, hst, hr⟩ := join_offers F hj hf hdisc
  exact C126_returns F M d hd n c clock hcall hc hhub m st hst hr

/-! ## A fair execution -/

/-- A fair execution: dock 1 calls feature `a` of dock 0 as in `sysDone`, and after that dock 0 calls its own feature
again and again. -/
theorem sysFair : ∃ E : System.Course sysC sysH sysR [], System.Fair E ∧ MethodsReturn E ∧ DistinctReadings E 1 ∧
    (∀ n, n < 61 → E.act n = sysDone[n]?) ∧
    ∀ n, n ≤ 61 → run (System.State.step sysC sysH sysR []) .init (sysDone.take n) = some (E.st n) := by
  obtain ⟨S, h, hv⟩ := sysWitness (C := sysC) (H := sysH) (R := sysR) (as := sysDone)
    (f := fun S => (quietOn false 2 S, (S.dock 1).n)) (b := (true, 1)) (by decide +kernel)
  simp only [Prod.mk.injEq] at hv
  obtain ⟨E, F, hact, hst, htail⟩ := System.fair_of (D := 2) h (by decide +kernel) hv.1 0 ⟨nameA, methM, [], true⟩ 5 ⟨nameA, 3, true⟩
    (by decide +kernel)
  have hS : E.st 61 = S := by
    have h1 := hst 61 (Nat.le_refl 61)
    rw [List.take_of_length_le (l := sysDone) (i := 61) (by decide +kernel), h] at h1
    exact (Option.some.inj h1).symm
  refine ⟨courseOf E, F, ?_, ?_, hact, hst⟩
  · intro n d k _
    refine ⟨max n 61, by omega, ?_⟩
    have := ((htail (max n 61) (Nat.le_max_right n 61)).1.dock d).exec k
    show (((E.st (max n 61)).dock d).exec k).phase ≠ .running
    rcases this with h | ⟨h, _⟩
    · rw [h]; simp
    · cases h
  have hlate : ∀ m, (E.st (61 + m)).dock 1 = S.dock 1 := by
    intro m
    induction m with
    | zero => rw [Nat.add_zero, hS]
    | succ m ih =>
      have hn := System.dock_part (E.next (61 + m)) 1
      rw [(htail (61 + m) (Nat.le_add_right 61 m)).2] at hn
      simp only [System.State.dockAct] at hn
      rw [← ih]
      rw [show 61 + (m + 1) = 61 + m + 1 from rfl]
      simpa using hn
  have hone : ∀ n, ((E.st n).dock 1).n ≤ 1 := by
    intro n
    have h1 := hlate n
    refine Nat.le_of_not_lt fun hlt => ?_
    have h2 := (Dock.course_call (T := dockCourse (courseOf E) 1) (show n ≤ 61 + n by omega) (i := 1) hlt).1
    have h2 : 1 < ((E.st (61 + n)).dock 1).n := h2
    rw [h1, hv.2] at h2
    omega
  intro n i j hi hj _
  have : (((courseOf E).st n).dock 1).n ≤ 1 := hone n
  omega

/-- The requests in a history, with the number of arguments. -/
def requestWhole : Dock.Ev → Option (Nat × BitVec 64 × Str × Str × Nat × Bool)
  | .sent p (.rpcRequest x slot meth args wr) => some (p, x, slot, meth, args.length, wr)
  | _ => none

set_option synthInstance.maxSize 100000 in
/-- The request of dock 1 is answered. -/
example : ∃ E : System.Course sysC sysH sysR [], System.Fair E ∧ MethodsReturn E ∧ DistinctReadings E 1 ∧
    Dock.Ev.sent 4 (.rpcRequest 77 nameA methM [] true) ∈ ((E.st 61).dock 1).log ∧
    ∃ m i r, 61 ≤ m ∧ i < ((E.st m).dock 1).n ∧ ((E.st m).dock 1).index i = 77 ∧
      ((E.st m).dock 1).call i = ⟨nameA, methM, [], true⟩ ∧ ((E.st m).dock 1).phase i = .returned r := by
  obtain ⟨E, F, M, hd, _, hst⟩ := sysFair
  obtain ⟨S, h, hv⟩ := sysWitness (C := sysC) (H := sysH) (R := sysR) (as := sysDone)
    (f := fun S => (S.dock 1).log.filterMap requestWhole) (b := [(4, 77, nameA, methM, 0, true)]) (by decide +kernel)
  have h1 := hst 61 (Nat.le_refl 61)
  rw [List.take_of_length_le (l := sysDone) (i := 61) (by decide +kernel), h] at h1
  have hm : (4, 77, nameA, methM, 0, true) ∈ (S.dock 1).log.filterMap requestWhole := by rw [hv]; simp
  obtain ⟨ev, hev, hq⟩ := List.mem_filterMap.mp hm
  have hsent : Dock.Ev.sent 4 (.rpcRequest 77 nameA methM [] true) ∈ ((E.st 61).dock 1).log := by
    rw [← Option.some.inj h1]
    unfold requestWhole at hq
    split at hq
    · rename_i p x slot meth args wr
      simp only [Option.some.injEq, Prod.mk.injEq] at hq
      obtain ⟨rfl, rfl, rfl, rfl, ha, rfl⟩ := hq
      rw [List.length_eq_zero_iff.mp ha] at hev
      exact hev
    · cases hq
  exact ⟨E, F, M, hd, hsent, C125_answered F M 1 hd 61 4 77 nameA methM [] true hsent⟩

/-- The call of dock 1 returns, as dock 0 has joined. -/
example : ∃ E : System.Course sysC sysH sysR [], System.Fair E ∧ MethodsReturn E ∧ DistinctReadings E 1 ∧
    E.act 0 = some (.join 0) ∧ E.act 20 = some (.dock 1 (.call ⟨nameA, methM, [], true⟩ 77)) ∧
    (∃ st ∈ (E.st 20).hub.stubs nameA, st.ready = true) ∧
    ∃ m r, 20 < m ∧ ((E.st m).dock 1).call ((E.st 20).dock 1).n = ⟨nameA, methM, [], true⟩ ∧
      ((E.st m).dock 1).phase ((E.st 20).dock 1).n = .returned r := by
  obtain ⟨E, F, M, hd, hact, hst⟩ := sysFair
  have h0 : E.act 0 = some (.join 0) := hact 0 (by omega)
  have h20 : E.act 20 = some (.dock 1 (.call ⟨nameA, methM, [], true⟩ 77)) := hact 20 (by omega)
  obtain ⟨S, h, hv⟩ := sysWitness (C := sysC) (H := sysH) (R := sysR) (as := sysDone.take 20)
    (f := fun S => ((S.dock 1).sockets.head?, (S.hub.stubs nameA).map (·.ready))) (b := (some .hub, [true])) (by decide +kernel)
  simp only [Prod.mk.injEq] at hv
  have hS : E.st 20 = S := by
    have h1 := hst 20 (by omega)
    rw [h] at h1
    exact (Option.some.inj h1).symm
  obtain ⟨st, hst', hr⟩ : ∃ st ∈ S.hub.stubs nameA, st.ready = true := by
    have : true ∈ (S.hub.stubs nameA).map (·.ready) := by rw [hv.2]; simp
    obtain ⟨st, h1, h2⟩ := List.mem_map.mp this
    exact ⟨st, h1, h2⟩
  refine ⟨E, F, M, hd, h0, h20, ⟨st, by rw [hS]; exact hst', hr⟩, ?_⟩
  exact C126_joined F M 1 hd 20 _ 77 h20 (by decide +kernel) (by rw [hS]; exact hv.1) 0 0 h0 ⟨nameA, 3, true⟩
    ⟨[], [], rfl, rfl, by simp⟩ rfl

end Verif.Props
