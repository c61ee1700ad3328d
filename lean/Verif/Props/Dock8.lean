import Verif.Dock.Peers
import Verif.Props.Dock3

/-! # What holds of C57 and C77 -/

namespace Verif.Props

open Verif Verif.Codec Verif.Proto Verif.Dock

/-! ## C57 -/

/-- C57, what holds: if no other call has the index of call `i`, then what the call returns was carried by a response
with this index, and the only request with this index that has left the dock is that of call `i`.  Full statement: the
same whatever the clock returns. -/
theorem C57_distinct_partial (cs : List Carried) (as : List Act) (s : State)
    (h : run (State.step cs) State.init as = some s) (i : Nat)
    (hd : ∀ j, j < s.n → j ≠ i → s.index j ≠ s.index i) (r : Ret) (hr : s.phase i = .returned r) :
    (∃ p slot meth, Ev.recv p (.rpcResponse (s.index i) slot meth r.result r.err) ∈ s.log) ∧
    (∀ p slot meth args wr, Ev.sent p (.rpcRequest (s.index i) slot meth args wr) ∈ s.log →
      s.call i = ⟨slot, meth, args, wr⟩) ∧
    sentWith (s.index i) s.log ≤ 1 := by
  refine ⟨C56_own_response cs as s h i r (Or.inr hr), ?_, ?_⟩
  · intro p slot meth args wr hm
    obtain ⟨ids, hn, hlt, he⟩ := C55_at_most_once cs as s h
    have hm' : Proto.rpcRequest (s.index i) slot meth args wr ∈ s.log.filterMap requestOf :=
      List.mem_filterMap.mpr ⟨_, hm, rfl⟩
    rw [he] at hm'
    obtain ⟨j, hj, e⟩ := List.mem_map.mp hm'
    injection e with e1 e2 e3 e4 e5
    have : j = i := Classical.byContradiction fun hne => hd j (hlt j hj) hne e1
    subst this
    cases hc : s.call j
    simp_all
  · obtain ⟨ids, hn, hlt, he⟩ := C55_at_most_once cs as s h
    rw [sentWith_eq, he, List.filter_map, List.length_map]
    generalize hf : List.filter _ ids = l
    have hl : ∀ j ∈ l, j = i := by
      intro j hj
      rw [← hf] at hj
      have := List.mem_filter.mp hj
      refine Classical.byContradiction fun hne => hd j (hlt j this.1) hne ?_
      exact (by simpa using this.2 : s.index i = s.index j).symm
    have hnd : l.Nodup := by rw [← hf]; exact List.Pairwise.filter _ hn
    match l, hl, hnd with
    | [], _, _ => simp
    | [_], _, _ => simp
    | a :: b :: _, hl, hnd =>
      have ha := hl a (by simp)
      have hb := hl b (by simp)
      subst ha; subst hb
      simp at hnd

/-- Two calls with different clock values, of which the second returns. -/
example : ∃ s, run (State.step dockDemo) State.init (bootActs ++
      [.call ⟨nameC, methM, [], true⟩ 5, .call ⟨nameC, methN, [], true⟩ 6, .store 0, .store 1, .setReq 0, .setReq 1,
       .commit 0, .commit 1, .recv 2 (.rpcResponse 6 nameC methN [.bool 0 true] []), .callback 0, .receive 1,
       .closeChan 1, .delete 0]) = some s ∧
    (s.n, s.index 0, s.index 1, s.phase 1) = (2, 5, 6, .returned ⟨[.bool 0 true], []⟩) :=
  ⟨_, rfl, rfl⟩

/-! ## C77 -/

/-- A connection this dock has opened to another dock. -/
def isDialled : Sock → Bool
  | .dialled _ => true
  | _ => false

/-- A handler that is opening a connection. -/
def isDialling : Handler → Bool
  | .dialling _ => true
  | _ => false

/-- The connections to other docks that the dock has opened. -/
def nOpened (s : State) : Nat := s.peers.countP fun x => isDialled x.2

/-- The connections to other docks that the dock is opening. -/
def nOpening (s : State) : Nat := s.peers.countP fun x => isDialling (s.handler x.1)

/-- Connections opened and being opened are as many as the dock was told to dial. -/
structure DialInv (s : State) : Prop where
  distinct : (s.peers.map (·.1)).Nodup
  count : nOpened s + nOpening s = (s.log.filterMap dialOf).length

/-- The number of a truth value. -/
private def flag (b : Bool) : Nat := if b then 1 else 0

private theorem opening_upd (l : List (Nat × Sock)) (hl : (l.map (·.1)).Nodup) (f : Nat → Handler) (p : Nat) (hd : Handler)
    (hp : p ∈ l.map (·.1)) :
    (l.countP fun x => isDialling (upd f p hd x.1)) + flag (isDialling (f p)) =
      (l.countP fun x => isDialling (f x.1)) + flag (isDialling hd) := by
  induction l with
  | nil => simp at hp
  | cons x l ih =>
    rw [List.map_cons, List.nodup_cons] at hl
    rw [List.countP_cons, List.countP_cons]
    rcases List.mem_cons.mp hp with e | e
    · have e : p = x.1 := e
      have : (l.countP fun x => isDialling (upd f p hd x.1)) = l.countP fun x => isDialling (f x.1) := by
        refine List.countP_congr fun y hy => ?_
        have : y.1 ≠ p := by
          intro h
          exact hl.1 (by rw [← e, ← h]; exact List.mem_map_of_mem hy)
        rw [upd_other _ _ this]
      rw [this, ← e, upd_same]
      unfold flag
      omega
    · have := ih hl.2 e
      have hx : x.1 ≠ p := fun h => hl.1 (h ▸ e)
      rw [upd_other _ _ hx]
      omega

private theorem opening_off (l : List (Nat × Sock)) (f : Nat → Handler) (p : Nat) (hd : Handler)
    (h1 : isDialling (f p) = false) (h2 : isDialling hd = false) :
    (l.countP fun x => isDialling (upd f p hd x.1)) = l.countP fun x => isDialling (f x.1) := by
  refine List.countP_congr fun y _ => ?_
  by_cases e : y.1 = p
  · rw [e, upd_same, h1, h2]
  · rw [upd_other _ _ e]

private theorem dialInv_same {s t : State} (I : DialInv s) (l : List Ev) (h1 : t.peers = s.peers)
    (h2 : t.log = s.log ++ l) (h3 : l.filterMap dialOf = [])
    (h4 : t.handler = s.handler ∨ ∃ p hd, t.handler = upd s.handler p hd ∧ isDialling (s.handler p) = false ∧
      isDialling hd = false) : DialInv t := by
  refine ⟨by rw [h1]; exact I.distinct, ?_⟩
  have e1 : nOpened t = nOpened s := by unfold nOpened; rw [h1]
  have e2 : nOpening t = nOpening s := by
    unfold nOpening
    rcases h4 with h | ⟨p, hd, h, a, b⟩
    · rw [h1, h]
    · rw [h1, h]; exact opening_off _ _ p hd a b
  rw [e1, e2, h2, List.filterMap_append, h3, List.append_nil]
  exact I.count

private theorem isPeer_key {s : State} {p : Nat} (h : s.isPeer p = true) : p ∈ s.peers.map (·.1) := by
  unfold State.isPeer at h
  obtain ⟨x, hx, e⟩ := List.any_eq_true.mp h
  exact List.mem_map.mpr ⟨x, hx, by simpa using e⟩

private theorem isNew_key {s : State} {e : Nat} (h : s.isNew e = true) : e ∉ s.peers.map (·.1) := by
  unfold State.isNew at h
  intro hm
  obtain ⟨x, hx, ex⟩ := List.mem_map.mp hm
  have := List.all_eq_true.mp h x hx
  simp [ex] at this

private theorem commit_dials (s : State) (i : Nat) :
    ∃ l, (s.doCommit i).log = s.log ++ l ∧ l.filterMap dialOf = [] := by
  unfold State.doCommit
  repeat' split
  · exact ⟨_, rfl, rfl⟩
  · exact ⟨[], by simp, rfl⟩
  · refine ⟨_, rfl, ?_⟩
    rw [List.filterMap_map]
    exact List.filterMap_eq_nil_iff.mpr fun _ _ => rfl
  · exact ⟨[], by simp, rfl⟩

theorem dialInv_step (cs : List Carried) (s : State) (a : Act) (t : State) (S : SockInv s) (I : DialInv s)
    (h : s.step cs a = some t) : DialInv t := by
  have quiet : ∀ e, s.isNew e = true → s.handler e = .idle := by
    intro e he
    refine Classical.byContradiction fun hne => isNew_key he (isPeer_key (S.busy e hne))
  unfold State.step at h
  split at h
  · cases h
  cases a with
  | dialHub e =>
    simp only at h
    split at h
    · rename_i hp
      cases h
      have hn : s.handler e = .idle := quiet e (by simp [State.isNew, hp.2.2])
      have hc := I.count
      simp only [nOpened, nOpening, hp.2.2] at hc
      exact ⟨by simp [State.connected, hp.2.2], by
        simpa [nOpened, nOpening, State.connected, hp.2.2, isDialled, isDialling, hn] using hc⟩
    · cases h
  | accept e port =>
    simp only at h
    split at h
    · rename_i hp
      cases h
      have hn : s.handler e = .idle := quiet e hp.1
      refine ⟨?_, ?_⟩
      · simp only [State.connected, List.map_append, List.map_cons, List.map_nil]
        exact List.nodup_append.mpr ⟨I.distinct, by simp, by
          intro a ha b hb hab
          rw [List.mem_singleton] at hb
          exact isNew_key hp.1 (hb ▸ hab ▸ ha)⟩
      · have hc := I.count
        simp only [nOpened, nOpening] at hc
        simpa [nOpened, nOpening, State.connected, isDialled, isDialling, hn] using hc
    · cases h
  | dialOK p e =>
    simp only at h
    split at h
    · rename_i addr hh
      split at h
      · rename_i hp
        cases h
        have hn : s.handler e = .idle := quiet e hp
        have hpk : p ∈ s.peers.map (·.1) := isPeer_key (S.busy p (by rw [hh]; simp))
        have hne : e ≠ p := fun x => isNew_key hp (x ▸ hpk)
        refine ⟨?_, ?_⟩
        · simp only [State.connected, List.map_append, List.map_cons, List.map_nil]
          exact List.nodup_append.mpr ⟨I.distinct, by simp, by
            intro a ha b hb hab
            rw [List.mem_singleton] at hb
            exact isNew_key hp (hb ▸ hab ▸ ha)⟩
        · have hc := I.count
          have hu := opening_upd s.peers I.distinct s.handler p (.dialled e) hpk
          simp only [nOpened, nOpening] at hc
          have f1 : flag (isDialling (s.handler p)) = 1 := by rw [hh]; rfl
          have f2 : flag (isDialling (.dialled e)) = 0 := rfl
          have f3 : isDialling (s.handler e) = false := by rw [hn]; rfl
          have f4 : isDialled (.dialled e) = true := rfl
          rw [f1, f2] at hu
          simp only [nOpened, nOpening, State.connected, List.countP_append, List.countP_singleton,
            upd_other _ _ hne, f3, f4]
          simp only [if_true, Bool.false_eq_true, if_false]
          omega
      · cases h
    · cases h
  | dialFail p =>
    simp only at h
    split at h
    · cases h; exact dialInv_same I [] rfl (List.append_nil _).symm rfl (Or.inl rfl)
    · cases h
  | commit i =>
    simp only at h
    split at h
    · cases h
      obtain ⟨l, hl, hd⟩ := commit_dials s i
      exact dialInv_same I l (doCommit_same s i).2.2.2.2.2.2.2.2.2.1 hl hd
        (Or.inl (doCommit_same s i).2.2.2.2.2.2.2.2.2.2.1)
    · cases h
  | recv p pkt =>
    simp only at h
    split at h
    · rename_i hi
      split at h
      · rename_i hp
        have off : isDialling (s.handler p) = false := by rw [hi]; rfl
        cases pkt with
        | queryResponse addr =>
          cases h
          refine ⟨I.distinct, ?_⟩
          have hc := I.count
          have hu := opening_upd s.peers I.distinct s.handler p (.dialling addr) (isPeer_key hp)
          have f1 : flag (isDialling (s.handler p)) = 0 := by rw [hi]; rfl
          have f2 : flag (isDialling (.dialling addr)) = 1 := rfl
          rw [f1, f2] at hu
          simp only [nOpened, nOpening] at hc
          simp only [nOpened, nOpening, State.onPacket, List.filterMap_append, List.length_append]
          have f3 : ([Ev.recv p (.queryResponse addr)].filterMap dialOf).length = 1 := rfl
          simp only [f3]
          omega
        | registerResponse port =>
          cases h
          exact dialInv_same I [.recv p (.registerResponse port), .listen port] rfl (by simp [State.onPacket]) rfl
            (Or.inr ⟨p, _, rfl, off, rfl⟩)
        | ready slots =>
          cases h
          exact dialInv_same I [.recv p (.ready slots)] rfl rfl rfl (Or.inr ⟨p, _, rfl, off, rfl⟩)
        | registerRequest slots =>
          cases h
          exact dialInv_same I [.recv p (.registerRequest slots)] rfl rfl rfl (Or.inr ⟨p, _, rfl, off, rfl⟩)
        | rpcRequest index slot meth args wr =>
          simp only [State.onPacket] at h
          split at h <;> cases h <;>
            exact dialInv_same I [.recv p (.rpcRequest index slot meth args wr)] rfl rfl rfl (Or.inl rfl)
        | rpcResponse index slot meth result err =>
          simp only [State.onPacket] at h
          split at h <;> cases h <;>
            exact dialInv_same I [.recv p (.rpcResponse index slot meth result err)] rfl rfl rfl (Or.inl rfl)
        | _ =>
          cases h
          exact dialInv_same I [_] rfl rfl rfl (Or.inl rfl)
      · cases h
    · cases h
  | visit p i =>
    simp only at h
    repeat' split at h
    all_goals first | cases h; done | skip
    all_goals
      rename_i hh _ _
      cases h
      exact dialInv_same I [] rfl (List.append_nil _).symm rfl (Or.inr ⟨p, _, rfl, by rw [hh]; rfl, rfl⟩)
  | work p order =>
    simp only [State.work] at h
    split at h
    all_goals (rename_i hh)
    all_goals first | cases h; done | skip
    all_goals (have off : isDialling (s.handler p) = false := by (rw [hh]; rfl))
    all_goals (try split at h)
    all_goals (try split at h)
    all_goals first | cases h; done | skip
    all_goals cases h
    all_goals first
      | exact dialInv_same I [] rfl (List.append_nil _).symm rfl (Or.inl rfl)
      | exact dialInv_same I [] rfl (List.append_nil _).symm rfl (Or.inr ⟨p, _, rfl, off, rfl⟩)
      | exact dialInv_same I [_] rfl rfl rfl (Or.inr ⟨p, _, rfl, off, rfl⟩)
      | exact dialInv_same I [_, _] rfl rfl rfl (Or.inr ⟨p, _, rfl, off, rfl⟩)
      | (obtain ⟨l, hl, hd⟩ := commit_dials s _
         exact dialInv_same I l (doCommit_same s _).2.2.2.2.2.2.2.2.2.1 hl hd (Or.inr ⟨p, _, rfl, off, rfl⟩))
  | call c clock =>
    simp only at h
    split at h <;> cases h
    · exact dialInv_same I [_, _] rfl rfl rfl (Or.inl rfl)
    · exact dialInv_same I [_] rfl rfl rfl (Or.inl rfl)
  | greet e order =>
    simp only at h
    split at h
    · cases h; exact dialInv_same I [_] rfl rfl rfl (Or.inl rfl)
    · cases h
  | _ =>
    simp only at h
    repeat' split at h
    all_goals first | cases h; done | skip
    all_goals cases h
    all_goals first
      | exact dialInv_same I [] rfl (List.append_nil _).symm rfl (Or.inl rfl)
      | exact dialInv_same I [_] rfl rfl rfl (Or.inl rfl)

/-- C77, what holds: the dock opens one connection for every query response it has received, no more: those it has
opened and those it is opening add up to the responses.  Full statement: one for every address. -/
theorem C77_counted_partial (cs : List Carried) (as : List Act) (s : State)
    (h : run (State.step cs) State.init as = some s) :
    nOpened s + nOpening s = (s.log.filterMap dialOf).length := by
  have : SockInv s ∧ DialInv s := run_inv (I := fun s => SockInv s ∧ DialInv s)
    (fun s a t I h => ⟨sockInv_step cs s a t I.1 h, dialInv_step cs s a t I.1 I.2 h⟩) as _ _
    ⟨SockInv.init, by constructor <;> simp [State.init, nOpened, nOpening]⟩ h
  exact this.2.count

/-- A dock with a connection opened and another being opened. -/
example : ∃ s, run (State.step dockDemo) State.init
      [.dialHub 0, .storeHub, .recv 0 (.queryResponse [49]), .dialOK 0 1, .work 0 [], .recv 0 (.queryResponse [50])] =
        some s ∧
    (nOpened s, nOpening s, s.log.filterMap dialOf) = (1, 1, [[49], [50]]) :=
  ⟨_, rfl, rfl⟩

end Verif.Props
