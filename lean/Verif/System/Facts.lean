import Verif.System.Inv

/-! # What processes know about each other -/

namespace Verif.System

open Verif Verif.Codec Verif.Proto

theorem colon_notMem_decimal (n : Nat) : colon ∉ decimal n := by
  induction n using Nat.strongRecOn with
  | _ n ih =>
    have key : ∀ k, k < 10 → colon ≠ BitVec.ofNat 8 (48 + k) := by
      intro k hk h
      have := congrArg BitVec.toNat h
      simp [colon] at this
      omega
    rw [decimal_eq]
    split
    · rename_i h; simpa using key n h
    · rw [List.mem_append]
      rintro (h | h)
      · exact ih (n / 10) (by omega) h
      · exact key (n % 10) (Nat.mod_lt _ (by omega)) (by simpa using h)

/-- An address determines host and port. -/
theorem address_inj {h h' : Str} {n n' : Nat} (e : h ++ colon :: decimal n = h' ++ colon :: decimal n') : h = h' ∧ n = n' := by
  have h1 := congrArg lastSegment e
  rw [lastSegment_append _ _ (colon_notMem_decimal n), lastSegment_append _ _ (colon_notMem_decimal n')] at h1
  have := decimal_inj _ _ h1
  subst this
  exact ⟨List.append_cancel_right e, rfl⟩

/-- The hub sends nothing but responses. -/
theorem hub_sends {R : Nat → Str} {black : List Int} {s : Hub.State} (h : Reachable (Hub.State.step R black) .init s)
    (p : Nat) (pkt : Proto) (hs : Hub.Ev.sent p pkt ∈ s.log) :
    (∃ port, pkt = .registerResponse port) ∨ ∃ addr, pkt = .queryResponse addr := by
  obtain ⟨as, h⟩ := h
  refine run_inv (I := fun s : Hub.State => ∀ p pkt, Hub.Ev.sent p pkt ∈ s.log →
    (∃ port, pkt = .registerResponse port) ∨ ∃ addr, pkt = .queryResponse addr) ?_ as _ _ (by simp [Hub.State.init]) h p pkt hs
  intro s a t I h p pkt hs
  unfold Hub.State.step at h
  split at h
  · cases h
  cases a <;> simp only at h <;> repeat' split at h
  all_goals cases h
  all_goals first
    | exact I p pkt hs
    | (simp at hs; exact I p pkt hs)
    | (simp at hs; rcases hs with hs | ⟨_, rfl⟩
       · exact I p pkt hs
       · simp)

section
variable {C : Nat → List Dock.Carried} {H : Nat → Str} {R : Nat → Str} {black : List Int} {S : State}

/-- The peers of a dock are ends of the dock. -/
theorem recv_owner (I : Inv C H R black S) {d e : Nat} {q : Proto} (h : Dock.Ev.recv e q ∈ (S.dock d).log) :
    S.owner e = some (.dock d) ∧ q ∈ S.got e := by
  have h1 := mem_dockGot.mpr h
  rw [I.got.dock d e] at h1
  split at h1
  · exact ⟨by assumption, h1⟩
  · cases h1

/-- What arrives was sent. -/
theorem got_sent (I : Inv C H R black S) {e : Nat} {q : Proto} (h : q ∈ S.got e) :
    ∃ pkt, fate pkt = .arrives q ∧ pkt ∈ S.sentBy (other e) := by
  obtain ⟨del, h1, h2⟩ := I.fifo e
  have : Fate.arrives q ∈ del.map fate := by rw [h1]; exact List.mem_map.mpr ⟨q, h, rfl⟩
  obtain ⟨pkt, hp, hf⟩ := List.mem_map.mp this
  exact ⟨pkt, hf, h2.subset (List.mem_append_left _ hp)⟩

/-- A packet that only docks send comes from a dock. -/
theorem sent_dock (I : Inv C H R black S) {e : Nat} {pkt : Proto} (h : pkt ∈ S.sentBy e)
    (h1 : ∀ port, pkt ≠ .registerResponse port) (h2 : ∀ addr, pkt ≠ .queryResponse addr) :
    ∃ d, S.owner e = some (.dock d) ∧ Dock.Ev.sent e pkt ∈ (S.dock d).log := by
  unfold State.sentBy at h
  split at h
  · rename_i d ho; exact ⟨d, ho, mem_dockSent.mp h⟩
  · rcases hub_sends I.parts.hub e pkt (mem_hubSent.mp h) with ⟨x, hx⟩ | ⟨x, hx⟩
    · exact absurd hx (h1 x)
    · exact absurd hx (h2 x)
  · cases h

theorem head_eq {p q : Proto} (h : head q = head p) (hp : p.kind < 7) : q = p := by
  cases p <;> cases q <;> simp_all [head, Proto.kind]

theorem head_kind (p : Proto) : (head p).kind = p.kind := by cases p <;> rfl

/-- Control packets arrive as they were sent. -/
theorem fate_control {pkt q : Proto} (h : fate pkt = .arrives q) (hq : q.kind < 7) : pkt = q := by
  have h' := fate_head h
  exact head_eq h'.symm hq

/-- What a dock learns from a register request is true. -/
theorem told_true (I : Inv C H R black S) {d e : Nat} {slot : Str} (h : Dock.Told (S.dock d).log e slot) :
    S.owner e = some (.dock d) ∧ ∃ d' f, S.owner (other e) = some (.dock d') ∧ Dock.LastNamed (C d') slot f ∧ f.discoverable = true := by
  obtain ⟨slots, h, hs⟩ := h
  obtain ⟨ho, hg⟩ := recv_owner I h
  refine ⟨ho, ?_⟩
  obtain ⟨pkt, hf, hp⟩ := got_sent I hg
  have := fate_control hf (by simp [Proto.kind])
  subst this
  obtain ⟨d', ho', hp⟩ := sent_dock I hp (by simp) (by simp)
  obtain ⟨as, hr⟩ := I.parts.dock d'
  obtain ⟨f, hf⟩ := ((Dock.isPerm_collect ((Dock.histInv_run (C d') as _ hr).sent _ _ hp)).2 slot).mp hs
  exact ⟨d', f, ho', hf⟩

theorem dock_inv (I : Inv C H R black S) (d : Nat) : Dock.OrigInv (S.dock d) ∧ Dock.PeerInv (S.dock d) ∧
    Dock.RpcInv (S.dock d) ∧ Dock.HistInv (C d) (S.dock d) := by
  obtain ⟨as, hr⟩ := I.parts.dock d
  exact ⟨(Dock.peerInv_run (C d) as _ hr).1, (Dock.peerInv_run (C d) as _ hr).2, (Dock.rpcInv_run (C d) as _ hr).1,
    Dock.histInv_run (C d) as _ hr⟩

/-- What a dock received as a request was sent as a request by a dock. -/
theorem request_sent (I : Inv C H R black S) {d e : Nat} {x : BitVec 64} {slot meth : Str} {args : List Val} {wr : Bool}
    (h : Dock.Ev.recv e (.rpcRequest x slot meth args wr) ∈ (S.dock d).log) :
    S.owner e = some (.dock d) ∧ ∃ d' args' wr', S.owner (other e) = some (.dock d') ∧
      Dock.Ev.sent (other e) (.rpcRequest x slot meth args' wr') ∈ (S.dock d').log ∧
      fate (.rpcRequest x slot meth args' wr') = .arrives (.rpcRequest x slot meth args wr) := by
  obtain ⟨ho, hg⟩ := recv_owner I h
  refine ⟨ho, ?_⟩
  obtain ⟨pkt, hf, hp⟩ := got_sent I hg
  have hh := fate_head hf
  cases pkt <;> simp [head] at hh
  rename_i x' slot' meth' args' wr'
  obtain ⟨rfl, rfl, rfl⟩ := hh
  obtain ⟨d', ho', hp⟩ := sent_dock I hp (by simp) (by simp)
  exact ⟨d', args', wr', ho', hp, hf⟩

/-- What a dock received as a response was sent as a response by a dock. -/
theorem response_sent (I : Inv C H R black S) {d e : Nat} {x : BitVec 64} {slot meth : Str} {res : List Val} {err : Str}
    (h : Dock.Ev.recv e (.rpcResponse x slot meth res err) ∈ (S.dock d).log) :
    S.owner e = some (.dock d) ∧ ∃ d' res' err', S.owner (other e) = some (.dock d') ∧
      Dock.Ev.sent (other e) (.rpcResponse x slot meth res' err') ∈ (S.dock d').log ∧
      fate (.rpcResponse x slot meth res' err') = .arrives (.rpcResponse x slot meth res err) := by
  obtain ⟨ho, hg⟩ := recv_owner I h
  refine ⟨ho, ?_⟩
  obtain ⟨pkt, hf, hp⟩ := got_sent I hg
  have hh := fate_head hf
  cases pkt <;> simp [head] at hh
  rename_i x' slot' meth' res' err'
  obtain ⟨rfl, rfl, rfl⟩ := hh
  obtain ⟨d', ho', hp⟩ := sent_dock I hp (by simp) (by simp)
  exact ⟨d', res', err', ho', hp, hf⟩

end

end Verif.System
