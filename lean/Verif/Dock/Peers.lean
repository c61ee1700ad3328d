import Verif.Dock.Inv

/-! # The peers of a dock and its sockets -/

namespace Verif.Dock

open Verif Verif.Codec Verif.Proto

/-- How a step changes the list of peers. -/
inductive NewPeer (s t : State) : Act → Prop where
  | same (a : Act) (h : t.peers = s.peers) : NewPeer s t a
  | hub (e : Nat) (h0 : s.peers = []) (h : t.peers = [(e, .hub)]) : NewPeer s t (.dialHub e)
  | accept (e : Nat) (port : BitVec 64) (h : t.peers = s.peers ++ [(e, .listener port)]) : NewPeer s t (.accept e port)
  | dial (p e : Nat) (h : t.peers = s.peers ++ [(e, .dialled e)]) : NewPeer s t (.dialOK p e)

theorem newPeer_step (cs : List Carried) (s : State) (a : Act) (t : State) (h : s.step cs a = some t) : NewPeer s t a := by
  unfold State.step at h
  split at h
  · cases h
  cases a with
  | dialHub e =>
    simp only at h
    split at h
    · rename_i hp
      cases h
      exact .hub e hp.2.2 (by simp [State.connected, hp.2.2])
    · cases h
  | accept e port =>
    simp only at h
    split at h
    · cases h; exact .accept e port rfl
    · cases h
  | dialOK p e =>
    simp only at h
    repeat' split at h
    all_goals first | cases h; done | skip
    cases h; exact .dial p e rfl
  | commit i =>
    simp only at h
    split at h
    · cases h; exact .same _ (doCommit_same s i).2.2.2.2.2.2.2.2.2.1
    · cases h
  | work p order =>
    simp only [State.work] at h
    repeat' split at h
    all_goals first | cases h; done | skip
    all_goals cases h
    all_goals first
      | exact .same _ rfl
      | exact .same _ (doCommit_same s _).2.2.2.2.2.2.2.2.2.1
  | recv p pkt =>
    simp only [State.onPacket] at h
    repeat' split at h
    all_goals cases h
    all_goals exact .same _ rfl
  | _ =>
    simp only at h
    repeat' split at h
    all_goals cases h
    all_goals exact .same _ rfl

/-- At most one connection to the hub, and one if there is a socket for it; only peers have handlers at work. -/
structure SockInv (s : State) : Prop where
  one : (s.peers.filter fun x => x.2 = .hub).length ≤ 1
  some : .hub ∈ s.sockets ∨ s.hubPending = true → (s.peers.filter fun x => x.2 = .hub) ≠ []
  busy : ∀ p, s.handler p ≠ .idle → s.isPeer p = true

theorem SockInv.init : SockInv State.init := by
  constructor <;> simp [State.init]

theorem isPeer_mono {s t : State} {p : Nat} {l : List (Nat × Sock)} (h : t.peers = s.peers ++ l) (hp : s.isPeer p = true) :
    t.isPeer p = true := by
  unfold State.isPeer at hp ⊢
  rw [h, List.any_append, hp]
  rfl

theorem sockInv_same {s t : State} (I : SockInv s) (h1 : t.peers = s.peers) (h2 : t.sockets = s.sockets)
    (h3 : t.hubPending = s.hubPending) (h4 : ∀ p, t.handler p ≠ .idle → s.handler p ≠ .idle ∨ s.isPeer p = true) :
    SockInv t := by
  constructor
  · rw [h1]; exact I.one
  · rw [h1, h2, h3]; exact I.some
  · intro p hp
    have : s.isPeer p = true := by
      rcases h4 p hp with h | h
      · exact I.busy p h
      · exact h
    exact isPeer_mono (l := []) (by simpa using h1) this

theorem busy_upd {s : State} {p : Nat} {h : Handler} (hp : s.handler p ≠ .idle ∨ s.isPeer p = true) :
    ∀ q, upd s.handler p h q ≠ .idle → s.handler q ≠ .idle ∨ s.isPeer q = true := by
  intro q hq
  by_cases e : q = p
  · subst e; exact hp
  · rw [upd_other _ _ e] at hq; exact Or.inl hq

theorem sockInv_step (cs : List Carried) (s : State) (a : Act) (t : State) (I : SockInv s) (h : s.step cs a = some t) :
    SockInv t := by
  unfold State.step at h
  split at h
  · cases h
  cases a with
  | dialHub e =>
    simp only at h
    split at h
    · rename_i hp
      cases h
      constructor
      · simp [State.connected, hp.2.2]
      · simp [State.connected, hp.2.2]
      · intro p h'
        exact isPeer_mono (s := s) (l := [(e, .hub)]) rfl (I.busy p h')
    · cases h
  | storeHub =>
    simp only at h
    split at h
    · rename_i hp
      cases h
      exact ⟨I.one, fun _ => I.some (Or.inr hp), I.busy⟩
    · cases h
  | accept e port =>
    simp only at h
    split at h
    · cases h
      constructor
      · simp only [State.connected, List.filter_append]; simpa using I.one
      · intro h'
        simp only [State.connected, List.filter_append]
        exact fun h2 => I.some h' (List.append_eq_nil_iff.mp h2).1
      · intro p h'
        exact isPeer_mono (s := s) (l := [(e, .listener port)]) rfl (I.busy p h')
    · cases h
  | dialOK p e =>
    simp only at h
    split at h
    · rename_i hh
      split at h
      · cases h
        constructor
        · simp only [State.connected, List.filter_append]; simpa using I.one
        · intro h'
          simp only [State.connected, List.filter_append]
          exact fun h2 => I.some h' (List.append_eq_nil_iff.mp h2).1
        · intro q h'
          refine isPeer_mono (s := s) (l := [(e, .dialled e)]) rfl ?_
          by_cases e' : q = p
          · subst e'; exact I.busy q (by rw [hh]; simp)
          · simp only [upd_other _ _ e'] at h'
            exact I.busy q h'
      · cases h
    · cases h
  | commit i =>
    simp only at h
    split at h
    · cases h
      obtain ⟨_, _, _, _, _, _, _, _, h1, h2, h3, _, _, _, _, _, _, h4, _⟩ := doCommit_same s i
      exact sockInv_same I h2 h1 h4 (fun p hp => Or.inl (by rw [← h3]; exact hp))
    · cases h
  | work p order =>
    simp only [State.work] at h
    split at h
    all_goals rename_i hh
    all_goals have hb : s.handler p ≠ .idle ∨ s.isPeer p = true := (by first | (left; rw [hh]; simp; done) | cases h)
    all_goals repeat' split at h
    all_goals first | cases h; done | skip
    all_goals cases h
    all_goals first
      | exact sockInv_same I rfl rfl rfl (busy_upd hb)
      | exact sockInv_same I rfl rfl rfl (fun p hp => Or.inl hp)
      | (obtain ⟨_, _, _, _, _, _, _, _, h1, h2, h3, _, _, _, _, _, _, h4, _⟩ := doCommit_same s _
         exact sockInv_same I h2 h1 h4 (busy_upd hb))
      | (refine ⟨I.one, fun h' => I.some ?_, fun q hq => ?_⟩
         · simpa using h'
         · rcases busy_upd hb q hq with h' | h'
           · exact I.busy q h'
           · exact h')
  | recv p pkt =>
    simp only [State.onPacket] at h
    split at h
    case h_2 => cases h
    split at h
    case isFalse => cases h
    rename_i hp
    repeat' split at h
    all_goals cases h
    all_goals first
      | exact sockInv_same I rfl rfl rfl (fun p hp => Or.inl hp)
      | exact sockInv_same I rfl rfl rfl (busy_upd (Or.inr hp))
  | visit p i =>
    simp only at h
    split at h
    · rename_i hh
      have hb : s.handler p ≠ .idle ∨ s.isPeer p = true := by left; rw [hh]; simp
      repeat' split at h
      all_goals cases h
      all_goals exact sockInv_same I rfl rfl rfl (busy_upd hb)
    · cases h
  | _ =>
    simp only at h
    repeat' split at h
    all_goals cases h
    all_goals exact sockInv_same I rfl rfl rfl (fun p hp => Or.inl hp)

theorem sockInv_run (cs : List Carried) (as : List Act) (s : State) (h : run (State.step cs) State.init as = some s) :
    SockInv s := run_inv (I := SockInv) (sockInv_step cs) as _ _ SockInv.init h

end Verif.Dock
