import Verif.Dock.Hist
import Verif.Dock.Origin
import Verif.Dock.Peers
import Verif.Dock.Live

/-!
# How steps change a dock

For each part of the state: which steps change it, and how.
-/

namespace Verif.Dock

open Verif Verif.Codec Verif.Proto

/-! ## The parts of the state -/

section
variable (s : State) (i : Nat)
theorem doCommit_n : (s.doCommit i).n = s.n := (doCommit_same s i).1
theorem doCommit_call : (s.doCommit i).call = s.call := (doCommit_same s i).2.1
theorem doCommit_index : (s.doCommit i).index = s.index := (doCommit_same s i).2.2.1
theorem doCommit_phase : (s.doCommit i).phase = s.phase := (doCommit_same s i).2.2.2.1
theorem doCommit_chan : (s.doCommit i).chan = s.chan := (doCommit_same s i).2.2.2.2.1
theorem doCommit_chanClosed : (s.doCommit i).chanClosed = s.chanClosed := (doCommit_same s i).2.2.2.2.2.1
theorem doCommit_rpcs : (s.doCommit i).rpcs = s.rpcs := (doCommit_same s i).2.2.2.2.2.2.1
theorem doCommit_remote : (s.doCommit i).remote = s.remote := (doCommit_same s i).2.2.2.2.2.2.2.1
theorem doCommit_sockets : (s.doCommit i).sockets = s.sockets := (doCommit_same s i).2.2.2.2.2.2.2.2.1
theorem doCommit_peers : (s.doCommit i).peers = s.peers := (doCommit_same s i).2.2.2.2.2.2.2.2.2.1
theorem doCommit_handler : (s.doCommit i).handler = s.handler := (doCommit_same s i).2.2.2.2.2.2.2.2.2.2.1
theorem doCommit_nc : (s.doCommit i).nc = s.nc := (doCommit_same s i).2.2.2.2.2.2.2.2.2.2.2.1
theorem doCommit_cb : (s.doCommit i).cb = s.cb := (doCommit_same s i).2.2.2.2.2.2.2.2.2.2.2.2.1
theorem doCommit_nx : (s.doCommit i).nx = s.nx := (doCommit_same s i).2.2.2.2.2.2.2.2.2.2.2.2.2.1
theorem doCommit_exec : (s.doCommit i).exec = s.exec := (doCommit_same s i).2.2.2.2.2.2.2.2.2.2.2.2.2.2.1
theorem doCommit_greeting : (s.doCommit i).greeting = s.greeting := (doCommit_same s i).2.2.2.2.2.2.2.2.2.2.2.2.2.2.2.1
theorem doCommit_ports : (s.doCommit i).ports = s.ports := (doCommit_same s i).2.2.2.2.2.2.2.2.2.2.2.2.2.2.2.2.1
theorem doCommit_hubPending : (s.doCommit i).hubPending = s.hubPending :=
  (doCommit_same s i).2.2.2.2.2.2.2.2.2.2.2.2.2.2.2.2.2.1
theorem doCommit_log : ∃ l, (s.doCommit i).log = s.log ++ l := (doCommit_same s i).2.2.2.2.2.2.2.2.2.2.2.2.2.2.2.2.2.2
end

/-- All the ways in which a step can happen. -/
macro "dock_cases" h:ident a:ident : tactic => `(tactic| (
  unfold State.step at $h:ident
  split at $h:ident
  · cases $h:ident
  cases $a:ident <;> simp only [State.work, State.onPacket, State.connected] at $h:ident <;>
    (repeat' split at $h:ident) <;> cases $h:ident))

section
variable {cs : List Carried} {s t : State} {a : Act}

/-- A step makes the log longer. -/
theorem log_step (h : s.step cs a = some t) : ∃ l, t.log = s.log ++ l := by
  dock_cases h a
  all_goals first
    | exact ⟨[], (List.append_nil _).symm⟩
    | exact ⟨_, rfl⟩
    | exact ⟨_, List.append_assoc ..⟩
    | exact doCommit_log _ _

/-- A step keeps the calls there are. -/
theorem call_step (h : s.step cs a = some t) :
    s.n ≤ t.n ∧ ∀ i, i < s.n → t.call i = s.call i ∧ t.index i = s.index i := by
  dock_cases h a
  all_goals first
    | exact ⟨Nat.le_refl _, fun _ _ => ⟨rfl, rfl⟩⟩
    | exact ⟨Nat.le_of_eq (doCommit_n _ _).symm, fun i _ => ⟨congrFun (doCommit_call _ _) i, congrFun (doCommit_index _ _) i⟩⟩
    | exact ⟨Nat.le_succ _, fun i hi => ⟨upd_other _ _ (Nat.ne_of_lt hi), upd_other _ _ (Nat.ne_of_lt hi)⟩⟩

/-- A step adds sockets. -/
theorem sockets_step (h : s.step cs a = some t) : ∃ l, t.sockets = s.sockets ++ l := by
  dock_cases h a
  all_goals first
    | exact ⟨[], (List.append_nil _).symm⟩
    | exact ⟨_, rfl⟩
    | exact ⟨[], by rw [doCommit_sockets, List.append_nil]⟩
    | exact ⟨[], by simp [doCommit_sockets]⟩

/-- A step adds peers. -/
theorem peers_step (h : s.step cs a = some t) : ∃ l, t.peers = s.peers ++ l := by
  dock_cases h a
  all_goals first
    | exact ⟨[], (List.append_nil _).symm⟩
    | exact ⟨_, rfl⟩
    | exact ⟨[], by rw [doCommit_peers, List.append_nil]⟩
    | exact ⟨[], by simp [doCommit_peers]⟩

/-- A step adds ports. -/
theorem ports_step (h : s.step cs a = some t) : ∃ l, t.ports = s.ports ++ l := by
  dock_cases h a
  all_goals first
    | exact ⟨[], (List.append_nil _).symm⟩
    | exact ⟨_, rfl⟩
    | exact ⟨[], by simp [doCommit_ports]⟩

/-- What is known to be remote stays so. -/
theorem remote_step (h : s.step cs a = some t) {slot : Str} (hr : s.remote slot ≠ none) : t.remote slot ≠ none := by
  dock_cases h a
  all_goals first
    | exact hr
    | (simp only [doCommit_remote]; exact hr)
    | (simp only [upd]; split
       · simp
       · exact hr)

/-- How the phase of a call changes. -/
theorem phase_step (h : s.step cs a = some t) (i : Nat) : t.phase i = s.phase i ∨
    (i = s.n ∧ ∃ c x, a = .call c x) ∨
    (a = .store i ∧ s.phase i = .created ∧ t.phase i = .stored ∧ t.rpcs = upd s.rpcs (s.index i) (some i)) ∨
    (a = .setReq i ∧ s.phase i = .stored ∧ t.phase i = .set ∧ t.req = upd s.req i true) ∨
    (a = .commit i ∧ s.phase i = .set ∧ t.phase i = .waiting ∧ t = { s.doCommit i with phase := upd s.phase i .waiting }) ∨
    (a = .receive i ∧ s.phase i = .waiting ∧ ∃ r, s.chan i = some r ∧ t.phase i = .received r) ∨
    (a = .closeChan i ∧ ∃ r, s.phase i = .received r ∧ t.phase i = .returned r) := by
  dock_cases h a
  all_goals first
    | exact Or.inl rfl
    | exact Or.inl (congrFun (doCommit_phase _ _) i)
    | skip
  all_goals simp only [upd]
  all_goals split
  all_goals first
    | exact Or.inl rfl
    | skip
  all_goals first
    | (rename_i e; subst e; simp_all [doCommit_phase]; done)
    | (simp [doCommit_phase]; done)

/-- How the table of calls changes. -/
theorem rpcs_step (h : s.step cs a = some t) (x : BitVec 64) : t.rpcs x = s.rpcs x ∨
    (∃ i, a = .store i ∧ s.phase i = .created ∧ s.index i = x ∧ i < s.n ∧ t.rpcs x = some i) ∨
    (∃ k, a = .delete k ∧ (s.cb k).phase = .deleting ∧ (s.cb k).index = x ∧ t.rpcs x = none) := by
  dock_cases h a
  all_goals first
    | exact Or.inl rfl
    | exact Or.inl (congrFun (doCommit_rpcs _ _) x)
    | skip
  all_goals simp only [upd]
  all_goals split
  all_goals first
    | exact Or.inl rfl
    | skip
  all_goals (rename_i e; subst e; simp_all)

/-- How `r.req` changes. -/
theorem req_step (h : s.step cs a = some t) (i : Nat) (hr : s.req i = true) : t.req i = true ∨ t.dead = true ∨
    ∃ p, s.remote (s.call i).slot = some p ∧ t.req i = false ∧ t.log = s.log ++ [.sent p (s.request i)] := by
  have key : ∀ j, (s.doCommit j).req i = true ∨ (s.doCommit j).dead = true ∨
    ∃ p, s.remote (s.call i).slot = some p ∧ (s.doCommit j).req i = false ∧
      (s.doCommit j).log = s.log ++ [.sent p (s.request i)] := by
    intro j
    unfold State.doCommit
    split
    · split
      · by_cases e : i = j
        · subst e; exact Or.inr (Or.inr ⟨_, ‹s.remote _ = some _›, by simp, rfl⟩)
        · left; simp [upd, e, hr]
      · split
        · right; left; rfl
        · left; exact hr
    · right; left; rfl
  dock_cases h a
  all_goals first
    | exact Or.inl hr
    | exact key _
    | skip
  all_goals simp only [upd]
  all_goals split
  all_goals simp_all

/-- How the executions change. -/
theorem exec_step (h : s.step cs a = some t) (k : Nat) : t.exec k = s.exec k ∨
    (k = s.nx ∧ ∃ p pkt, a = .recv p pkt) ∨
    (a = .invoke k ∧ (s.exec k).phase = .spawned ∧ t.exec k = { s.exec k with phase := .running }) ∨
    (∃ r, a = .finish k r ∧ (s.exec k).phase = .running ∧ t.exec k = { s.exec k with phase := .returned r }) ∨
    (∃ r, a = .respond k ∧ (s.exec k).phase = .returned r ∧ t.exec k = { s.exec k with phase := .over } ∧
      t.log = s.log ++ [.sent (s.exec k).peer (.rpcResponse (s.exec k).index (s.exec k).call.slot (s.exec k).call.meth
        (if (s.exec k).call.withResult then r.result else []) r.err)]) := by
  dock_cases h a
  all_goals first
    | exact Or.inl rfl
    | exact Or.inl (congrFun (doCommit_exec _ _) k)
    | skip
  all_goals simp only [upd]
  all_goals split
  all_goals first
    | exact Or.inl rfl
    | skip
  all_goals (rename_i e; subst e; simp_all)

/-- The executions there are stay. -/
theorem nx_step (h : s.step cs a = some t) : s.nx ≤ t.nx := by
  dock_cases h a
  all_goals first
    | exact Nat.le_refl _
    | exact Nat.le_of_eq (doCommit_nx _ _).symm
    | exact Nat.le_succ _

/-- How the goroutines that deliver results change. -/
theorem cb_step (h : s.step cs a = some t) (k : Nat) : t.cb k = s.cb k ∨
    (k = s.nc ∧ ∃ p pkt, a = .recv p pkt) ∨
    (a = .callback k ∧ (s.cb k).phase = .sending ∧ (t.dead = true ∨ t.chan (s.cb k).rpc = some (s.cb k).ret ∧
      t.cb k = { s.cb k with phase := .deleting })) ∨
    (a = .delete k ∧ (s.cb k).phase = .deleting ∧ t.cb k = { s.cb k with phase := .over }) := by
  dock_cases h a
  all_goals first
    | exact Or.inl rfl
    | exact Or.inl (congrFun (doCommit_cb _ _) k)
    | skip
  all_goals simp only [upd]
  all_goals split
  all_goals first
    | exact Or.inl rfl
    | skip
  all_goals (rename_i e; subst e; simp_all)

/-- The goroutines that deliver results stay. -/
theorem nc_step (h : s.step cs a = some t) : s.nc ≤ t.nc := by
  dock_cases h a
  all_goals first
    | exact Nat.le_refl _
    | exact Nat.le_of_eq (doCommit_nc _ _).symm
    | exact Nat.le_succ _

/-- A result stays in the channel until it is taken out. -/
theorem chan_step (h : s.step cs a = some t) {i : Nat} {r : Ret} (hc : s.chan i = some r) : t.chan i = some r ∨ a = .receive i := by
  dock_cases h a
  all_goals first
    | exact Or.inl hc
    | exact Or.inl ((congrFun (doCommit_chan _ _) i).trans hc)
    | skip
  all_goals simp only [upd]
  all_goals split
  all_goals first
    | exact Or.inl hc
    | skip
  all_goals (rename_i e; subst e; simp_all)

/-- The register request is sent once the goroutine of `OnConnected` does so. -/
theorem greeting_step (h : s.step cs a = some t) {e : Nat} (hg : s.greeting e = true) : t.greeting e = true ∨
    ∃ o, a = .greet e o := by
  dock_cases h a
  all_goals first
    | exact Or.inl hg
    | exact Or.inl ((congrFun (doCommit_greeting _ _) e).trans hg)
    | skip
  all_goals simp only [upd]
  all_goals split
  all_goals first
    | exact Or.inl hg
    | skip
  all_goals (rename_i e; subst e; simp_all)

/-- How handlers go on. -/
inductive HandNext (s t : State) (p : Nat) : Act → Prop where
  | starts (pkt : Proto) (h : s.handler p = .idle) : HandNext s t p (.recv p pkt)
  | visits (i : Nat) (slot : Str) (rest : List Str) (start visited : List Nat) (h : s.handler p = .scan slot rest start visited)
      (hi : s.rpcs (s.index i) = some i)
      (h' : t.handler p = if s.req i then .tested slot rest start (i :: visited) i else .scan slot rest start (i :: visited)) :
      HandNext s t p (.visit p i)
  | works (o : List Str) : HandNext s t p (.work p o)
  | dials (e : Nat) (addr : Str) (h : s.handler p = .dialling addr) (h' : t.handler p = .dialled e) : HandNext s t p (.dialOK p e)

/-- Only the handler itself goes on. -/
theorem hand_step (h : s.step cs a = some t) (p : Nat) : t.handler p = s.handler p ∨ HandNext s t p a := by
  dock_cases h a
  all_goals first
    | exact Or.inl rfl
    | exact Or.inl (congrFun (doCommit_handler _ _) p)
    | skip
  all_goals simp only [upd]
  all_goals split
  all_goals first
    | exact Or.inl rfl
    | skip
  all_goals rename_i e
  all_goals subst e
  all_goals right
  all_goals first
    | exact .works _
    | exact .starts _ ‹_›
    | skip
  · exact .visits _ _ _ _ _ ‹_› (by simp_all) (by simp_all)
  · exact .visits _ _ _ _ _ ‹_› (by simp_all) (by simp_all)
  · exact .dials _ _ ‹_› (by simp)


/-- What a step of a handler does. -/
theorem work_step {p : Nat} {o : List Str} (h : s.step cs (.work p o) = some t) (hd : t.dead = false) :
    match s.handler p with
    | .idle => False
    | .slots [] => t.handler p = .idle
    | .slots (slot :: rest) => t.handler p = .scan slot rest s.pending []
    | .scan _ rest start visited => (∀ i ∈ start, i ∈ visited ∨ s.rpcs (s.index i) ≠ some i) ∧ t.handler p = .slots rest
    | .tested slot rest start visited i => s.req i = true ∧
        t.handler p = if (s.call i).slot = slot then .commit slot rest start visited i else .scan slot rest start visited
    | .commit slot rest start visited i => t = { s.doCommit i with handler := upd s.handler p (.scan slot rest start visited) }
    | .reply slots => t.handler p = .cache slots ∧ ∃ order, (∀ x, x ∈ order ↔ x ∈ collectOf cs) ∧
        t.log = s.log ++ [.sent p (.ready order)]
    | .cache [] => t.handler p = .idle
    | .cache (slot :: rest) => t.handler p = .cache rest ∧ t.remote slot = some p
    | .listening _ => t.handler p = .announce
    | .announce => t.handler p = .idle ∧ ∃ order, (∀ x, x ∈ order ↔ x ∈ collectOf cs) ∧
        t.log = s.log ++ [.sent p (.ready order), .start]
    | .dialling _ => False
    | .dialled _ => t.handler p = .idle := by
  unfold State.step at h
  split at h
  · cases h
  simp only [State.work] at h
  repeat' split at h
  all_goals cases h
  all_goals simp_all
  all_goals exact fun x => (List.isPerm_iff.mp ‹_›).mem_iff

/-- A handler that is neither waiting for a packet nor in a loop over the calls nor dialling can go on. -/
theorem work_can {p : Nat} (hd : s.dead = false) (h1 : s.handler p ≠ .idle) (h2 : ∀ a b c d, s.handler p ≠ .scan a b c d)
    (h3 : ∀ a, s.handler p ≠ .dialling a) : ∃ o, s.step cs (.work p o) ≠ none := by
  refine ⟨collectOf cs, ?_⟩
  simp only [State.step, hd, State.work, isPerm_refl]
  rw [if_neg (by simp)]
  split
  all_goals first
    | exact absurd ‹_› h1
    | exact absurd ‹_› (h2 _ _ _ _)
    | exact absurd ‹_› (h3 _)
    | (simp; done)
    | skip
  repeat' split
  all_goals simp

/-- Requests are sent for calls that wait to be sent, to the peer that has the feature. -/
theorem request_step (h : s.step cs a = some t) {l : List Ev} (hl : t.log = s.log ++ l) {e : Nat} {x : BitVec 64} {slot meth : Str}
    {args : List Val} {wr : Bool} (hm : Ev.sent e (.rpcRequest x slot meth args wr) ∈ l) :
    ∃ i, s.req i = true ∧ s.remote (s.call i).slot = some e ∧ s.request i = .rpcRequest x slot meth args wr := by
  have key : ∀ i (u : State), u.log = (s.doCommit i).log → u.log = s.log ++ l → ∃ i, s.req i = true ∧ s.remote (s.call i).slot = some e ∧
      s.request i = .rpcRequest x slot meth args wr := by
    intro i u hu hl
    rw [hu] at hl
    unfold State.doCommit at hl
    repeat' split at hl
    · have := List.append_cancel_left hl
      subst this
      simp at hm
      exact ⟨i, ‹_›, by rw [hm.1]; assumption, hm.2.symm⟩
    · have : s.log ++ [] = s.log ++ l := by rw [List.append_nil]; exact hl
      have := List.append_cancel_left this
      subst this
      cases hm
    · have := List.append_cancel_left hl
      subst this
      simp at hm
    · have : s.log ++ [] = s.log ++ l := by rw [List.append_nil]; exact hl
      have := List.append_cancel_left this
      subst this
      cases hm
  have nil : t.log = s.log → False := by
    intro e
    rw [e] at hl
    have := congrArg List.length hl
    simp at this
    subst this
    cases hm
  dock_cases h a
  all_goals first
    | exact (nil rfl).elim
    | exact key _ _ rfl hl
    | skip
  all_goals
    simp only [List.append_assoc] at hl
    have := List.append_cancel_left hl
    subst this
    simp at hm

/-- Peers come with connections. -/
theorem peer_step (h : s.step cs a = some t) {e : Nat} (he : s.isNew e = true) (ht : t.isNew e = false) :
    a = .dialHub e ∨ (∃ port, a = .accept e port) ∨ ∃ p, a = .dialOK p e := by
  have key : ∀ (e' : Nat) (k : Sock) (u : State), u.peers = s.peers ++ [(e', k)] → u.isNew e = false → e' = e := by
    intro e' k u hu h
    refine Classical.byContradiction fun hne => ?_
    have : u.isNew e = true := by
      unfold State.isNew at he ⊢
      simp only [hu, List.all_append, Bool.and_eq_true]
      exact ⟨he, by simpa using hne⟩
    rw [this] at h
    cases h
  dock_cases h a
  all_goals first
    | (exact absurd (he.symm.trans ht) (by simp))
    | (cases key _ _ _ rfl ht; simp)
    | (rw [show State.isNew _ e = s.isNew e from by simp [State.isNew, doCommit_peers]] at ht; exact absurd (he.symm.trans ht) (by simp))

end

end Verif.Dock
