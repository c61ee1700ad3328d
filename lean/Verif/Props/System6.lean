import Verif.System.Pair
import Verif.Props.System1
import Verif.Props.Dock3

/-!
# C110: a call of a remote feature can complete

From every reachable state in which the parties involved are alive and the connections between them are quiet, whatever
has happened before and whatever the rest of the system is doing, there is a continuation without lost packets and
without failures in which the call returns with the result of an execution by a dock that carries the feature.
-/

namespace Verif.Props

open Verif Verif.Codec Verif.Proto Verif.System
open Verif.Dock (Carried LastNamed)

variable (C : Nat → List Carried) (H : Nat → Str) (R : Nat → Str) (black : List Int)

set_option synthInstance.maxSize 1024

/-- The packet fits into a frame. -/
def Short (pkt : Proto) : Prop := (Packer.body ⟨idOf pkt, pkt⟩).bytes.length < 2 ^ 32

section
variable {C : Nat → List Carried} {H : Nat → Str} {R : Nat → Str} {black : List Int} {S : System.State}

/-- The dock that has announced a slot has a peer for the connection. -/
theorem told_peers (I : System.Inv C H R black S) {d d' e : Nat} {slot : Str} (h : Dock.Told (S.dock d).log e slot)
    (ho : S.owner (other e) = some (.dock d')) : (S.dock d).isPeer e = true ∧ (S.dock d').isPeer (other e) = true := by
  obtain ⟨slots, h, hs⟩ := h
  refine ⟨(dock_inv I d).2.1.heard _ _ h, ?_⟩
  obtain ⟨_, hg⟩ := recv_owner I h
  obtain ⟨pkt, hf, hp⟩ := got_sent I hg
  have := fate_control hf (by simp [Proto.kind])
  subst this
  obtain ⟨d'', ho', hp⟩ := sent_dock I hp (by simp) (by simp)
  rw [ho] at ho'
  cases ho'
  exact (dock_inv I d').2.1.sent _ _ hp

/-- A new call has an unused channel. -/
theorem new_chan (I : System.Inv C H R black S) (d : Nat) :
    (S.dock d).chan (S.dock d).n = none ∧ (S.dock d).chanClosed (S.dock d).n = false := by
  obtain ⟨as, hr⟩ := I.parts.dock d
  rcases ((chanInv_run (C d) as _ hr).2 (S.dock d).n).1 with h | h
  · exact absurd h (Nat.lt_irrefl _)
  · exact h.2

end

/-- C110, first part: dock `d` knows a connection `e` to a dock `d'` that carries the feature. -/
theorem C110_direct (acts : List System.Act) (S : System.State) (h : run (System.State.step C H R black) .init acts = some S)
    (d d' e : Nat) (c : Dock.Call) (clock : BitVec 64) (r : Dock.Ret)
    -- the feature is not carried by `d`, which knows a connection to `d'`
    (hc : ∀ f ∈ C d, f.name ≠ c.slot) (hr : (S.dock d).remote c.slot = some e) (ho' : S.owner (other e) = some (.dock d'))
    -- both are alive
    (hu : S.down (.dock d) = false) (hu' : S.down (.dock d') = false) (hd : (S.dock d).dead = false)
    (hd' : (S.dock d').dead = false)
    -- nothing is happening on the connection
    (hq : S.queue e = []) (hq' : S.queue (other e) = []) (hh : (S.dock d).handler e = .idle)
    (hh' : (S.dock d').handler (other e) = .idle)
    -- arguments and results can be sent
    (ha : wireOKList c.args = true) (hs : Short (.rpcRequest clock c.slot c.meth c.args c.withResult))
    (ha' : wireOKList (if c.withResult then r.result else []) = true)
    (hs' : Short (.rpcResponse clock c.slot c.meth (if c.withResult then r.result else []) r.err)) :
    ∃ more T f l, run (System.State.step C H R black) S more = some T ∧ (∀ a ∈ more, harmless a = true) ∧
      T.down = S.down ∧ (∀ x, (T.dock x).dead = (S.dock x).dead) ∧
      (T.dock d).phase (S.dock d).n = .returned ⟨canonList (if c.withResult then r.result else []), r.err⟩ ∧
      LastNamed (C d') c.slot f ∧ f.discoverable = true ∧ (T.dock d').log = (S.dock d').log ++ l ∧
      .returned (other e, clock) f.feature { c with args := canonList c.args } r ∈ l := by
  have I := inv_run C H R black h
  have ht := (dock_inv I d).1.remote _ _ hr
  obtain ⟨ho, d'', f, ho'', hf, hdisc⟩ := told_true I ht
  rw [ho'] at ho''
  cases ho''
  have hnone : Dock.slotsOf (C d) c.slot = none := (Dock.slotsOf_none _ _).mpr hc
  have hsome : Dock.slotsOf (C d') c.slot = some f := (Dock.slotsOf_some _ _ _).mpr hf
  have hne : d ≠ d' := by
    intro x
    subst x
    rw [hnone] at hsome
    cases hsome
  obtain ⟨hp, hp'⟩ := told_peers I ht ho'
  obtain ⟨hch, hcc⟩ := new_chan I d
  have P : Pair S S d d' e (S.dock d) (S.dock d') [] [] := ⟨hne, ho, ho', rfl, rfl, hq, hq', rfl, fun _ _ _ => rfl⟩
  obtain ⟨T1, ⟨as, hr1, hg1⟩, P1⟩ := P.solo (C := C) (H := H) (R := R) (black := black) hu
    (Dock.call_known (S.dock d) c clock e hd hnone hr) (by simp [dockAlone]) (by simp)
    (l := .called c :: [.sent e (.rpcRequest clock c.slot c.meth c.args c.withResult)]) rfl
  have hF := fate_arrives (pkt := .rpcRequest clock c.slot c.meth c.args c.withResult) ha hs
  have hF' := fate_arrives (pkt := .rpcResponse clock c.slot c.meth (if c.withResult then r.result else []) r.err) ha' hs'
  obtain ⟨bs, T, hr2, hg2, hdn, hdead, hph, _, hlog⟩ := finish_call (C := C) (H := H) (R := R) (black := black) (S := T1) (d := d)
    (d' := d') (e := e) (i := (S.dock d).n) (clock := clock) (c := c) (f := f) r hne P1.owner P1.owner'
    (by rw [P1.down]; exact hu) (by rw [P1.down]; exact hu') (by rw [P1.dock]; exact hd) (by rw [P1.dock']; exact hd')
    (by rw [P1.dock]; exact hh) (by rw [P1.dock']; exact hh') (by rw [P1.dock]; exact hp) (by rw [P1.dock']; exact hp')
    P1.queue (by rw [P1.queue']; simp [dockSent]) hsome hF hF' (by rw [P1.dock]; simp [Dock.State.calling])
    (by rw [P1.dock]; simp [Dock.State.calling]) (by rw [P1.dock]; exact hch) (by rw [P1.dock]; exact hcc)
  refine ⟨as ++ bs, T, f, _, run_trans hr1 hr2, ?_, by rw [hdn, P1.down], ?_, hph, hf, hdisc, by rw [hlog, P1.dock'], by simp⟩
  · intro a h
    rcases List.mem_append.mp h with h | h
    · exact hg1 a h
    · exact hg2 a h
  · intro x
    rw [hdead]
    by_cases h1 : x = d
    · subst h1; rw [P1.dock]; rfl
    · by_cases h2 : x = d'
      · subst h2; rw [P1.dock']
      · rw [P1.rest x h1 h2]

/-! ## Over the hub -/

section
variable {C : Nat → List Carried} {H : Nat → Str} {R : Nat → Str} {black : List Int} {S : System.State}

/-- The hub answers a query with the newest ready stub. -/
theorem hub_answers (s : Hub.State) (p : Nat) (slot : Str) (j : Nat) (st : Hub.Stub) (hd : s.dead = false)
    (ht : s.task p = .idle) (hc : s.closed p = false) (hj : (s.stubs slot)[j]? = some st) (hr : st.ready = true)
    (hn : ∀ m st', j < m → (s.stubs slot)[m]? = some st' → st'.ready = false) :
    ∃ as t, (∀ a ∈ as, hubAlone a = true) ∧
      run (Hub.State.step R black) s (.recv p (.queryRequest slot) :: as) = some t ∧
      t.log = s.log ++ [.query p slot, .sent p (.queryResponse st.addr)] := by
  let u : Hub.State := { s with
    n := s.n + 1
    query := upd s.query s.n ⟨p, slot, .top⟩
    log := s.log ++ [.query p slot] }
  have hu : u.query s.n = ⟨p, slot, .top⟩ := by simp [u]
  have h1 : s.step R black (.recv p (.queryRequest slot)) = some u := by
    unfold Hub.State.step
    rw [if_neg (by rw [hd]; simp)]
    simp only [ht, hc]
    rfl
  obtain ⟨as, ha, h2⟩ := Hub.query_ready (R := R) (black := black) u s.n j st hd (Nat.lt_succ_self _) (by rw [hu])
    (by rw [hu]; exact hj) hr (by rw [hu]; exact hn)
  refine ⟨as, _, ?_, by rw [run_cons h1]; exact h2, ?_⟩
  · intro a h
    rcases ha a h with rfl | rfl | rfl <;> rfl
  · show u.log ++ [.sent (u.query s.n).peer (.queryResponse st.addr)] = _
    rw [hu]
    simp [u]

/-- The connection of a dock to the hub. -/
theorem hub_peer (I : System.Inv C H R black S) (E : Ends S) {d : Nat} (hk : (S.dock d).sockets.head? = some .hub) :
    ∃ e, (S.dock d).peers.filter (fun x => x.2 = .hub) = [(e, .hub)] ∧ S.owner e = some (.dock d) ∧
      S.owner (other e) = some .hub ∧ (S.dock d).isPeer e = true := by
  have hs := sock_inv I d
  have h1 := hs.some (Or.inl (List.mem_of_mem_head? hk))
  have h2 := hs.one
  obtain ⟨⟨e, k⟩, hl⟩ : ∃ x, (S.dock d).peers.filter (fun x => x.2 = .hub) = [x] := by
    rcases List.exists_cons_of_ne_nil h1 with ⟨x, l, hl⟩
    refine ⟨x, ?_⟩
    rw [hl] at h2 ⊢
    have : l = [] := List.length_eq_zero_iff.mp (by simp at h2; simp [h2])
    rw [this]
  have hm : (e, k) ∈ (S.dock d).peers.filter (fun x => x.2 = .hub) := by rw [hl]; exact List.mem_singleton.mpr rfl
  obtain ⟨hm, hk⟩ := List.mem_filter.mp hm
  have hk : k = .hub := by simpa using hk
  subst hk
  obtain ⟨h3, h4⟩ := E d e _ hm
  exact ⟨e, hl, h3, h4 rfl, isPeer_mem.mpr ⟨_, hm⟩⟩

/-- Dock `d` is in state `s` and is connected to the hub, which is in state `t`; the rest is as in `S0`. -/
structure AtHub (S0 S : System.State) (d e : Nat) (s : Dock.State) : Prop where
  n : S.n = S0.n
  owner : S.owner = S0.owner
  down : S.down = S0.down
  dock : S.dock d = s
  rest : ∀ x, x ≠ d → S.dock x = S0.dock x
  fresh : ∀ x, 2 * S0.n ≤ x → S.queue x = []

/-- The dock asks the hub and receives the address of a dock. -/
theorem ask_hub (I : System.Inv C H R black S) {d e j : Nat} {c : Dock.Call} {clock : BitVec 64} {st : Hub.Stub} {ks : List Dock.Sock}
    (hc : Dock.slotsOf (C d) c.slot = none) (hr : (S.dock d).remote c.slot = none)
    (hk : (S.dock d).sockets = .hub :: ks) (hfil : (S.dock d).peers.filter (fun x => x.2 = .hub) = [(e, .hub)])
    (ho : S.owner e = some (.dock d)) (ho' : S.owner (other e) = some .hub) (hp : (S.dock d).isPeer e = true)
    (hu : S.down (.dock d) = false) (hu' : S.down .hub = false) (hd : (S.dock d).dead = false) (hd' : S.hub.dead = false)
    (hq : S.queue e = []) (hq' : S.queue (other e) = []) (hh : (S.dock d).handler e = .idle)
    (ht : S.hub.task (other e) = .idle) (hcl : S.hub.closed (other e) = false)
    (hj : (S.hub.stubs c.slot)[j]? = some st) (hrd : st.ready = true)
    (hn : ∀ m st', j < m → (S.hub.stubs c.slot)[m]? = some st' → st'.ready = false)
    (hs : Short (.queryRequest c.slot)) (hs' : Short (.queryResponse st.addr)) :
    ∃ T, Gets C H R black S T ∧ AtHub S T d e { (S.dock d).calling c clock true [.sent e (.queryRequest c.slot)] with
      handler := upd (S.dock d).handler e (.dialling st.addr)
      log := (S.dock d).log ++ [.called c, .sent e (.queryRequest c.slot), .recv e (.queryResponse st.addr)] } := by
  have hee : other e ≠ e := by unfold other; split <;> omega
  have hlt : e < 2 * S.n := by
    rcases Nat.lt_or_ge e (2 * S.n) with h | h
    · exact h
    · rw [I.shape.fresh e h] at ho; cases ho
  have hlt' : other e < 2 * S.n := by unfold other; split <;> omega
  have hfresh := fun x (hx : 2 * S.n ≤ x) => (fresh_got H R I.shape I.fifo hx).2
  -- the call
  let s1 := (S.dock d).calling c clock true [.sent e (.queryRequest c.slot)]
  have hl1 : s1.log = (S.dock d).log ++ [.called c, .sent e (.queryRequest c.slot)] := rfl
  have hr1 := run_dock (C := C) (H := H) (R := R) (black := black) (S := S)
    (Dock.call_unknown (S.dock d) c clock e .hub ks hd hc hr hk hfil) hu (by simp [dockAlone])
  let S1 := S.setDock d s1
  have hq1 : S1.queue (other e) = [.queryRequest c.slot] := by
    show State.queue (State.setDock S d s1) _ = _
    rw [queue_setDock hl1, hq', other_other, if_pos ho]
    simp [dockSent]
  have hq1' : S1.queue e = [] := by
    show State.queue (State.setDock S d s1) _ = _
    rw [queue_setDock hl1, hq, ho', if_neg (by simp)]
    rfl
  have hq1'' : ∀ x, 2 * S.n ≤ x → S1.queue x = [] := by
    intro x hx
    show State.queue (State.setDock S d s1) _ = _
    rw [queue_setDock hl1, hfresh x hx, I.shape.fresh (other x) (by unfold other; split <;> omega), if_neg (by simp)]
    rfl
  -- the query
  obtain ⟨as, t, ha, hr2, hl2⟩ := hub_answers (R := R) (black := black) S.hub (other e) c.slot j st hd' ht hcl hj hrd hn
  have hF : fate (.queryRequest c.slot) = .arrives (.queryRequest c.slot) := fate_arrives rfl hs
  have hF' : fate (.queryResponse st.addr) = .arrives (.queryResponse st.addr) := fate_arrives rfl hs'
  have hr2 := run_deliver_hub (C := C) (H := H) (R := R) (black := black) (S := S1) hq1 hF ho' hu' hr2 ha
  let S2 := (S1.took (other e) (.queryRequest c.slot) []).setHub t
  have hq2 : S2.queue e = [.queryResponse st.addr] := by
    show State.queue (State.setHub (S1.took (other e) (.queryRequest c.slot) []) t) _ = _
    rw [queue_setHub (S := S1.took (other e) (.queryRequest c.slot) []) hl2]
    show upd S1.queue (other e) [] e ++ (if S.owner (other e) = some .hub then _ else _) = _
    rw [upd_other _ _ hee.symm, hq1', if_pos ho']
    simp [hubSent]
  have hq2'' : ∀ x, 2 * S.n ≤ x → S2.queue x = [] := by
    intro x hx
    show State.queue (State.setHub (S1.took (other e) (.queryRequest c.slot) []) t) _ = _
    rw [queue_setHub (S := S1.took (other e) (.queryRequest c.slot) []) hl2]
    show upd S1.queue (other e) [] x ++ (if S.owner (other x) = some .hub then _ else _) = _
    rw [upd_other _ _ (by omega), hq1'' x hx, I.shape.fresh (other x) (by unfold other; split <;> omega), if_neg (by simp)]
    rfl
  -- the answer
  have hS2 : S2.dock d = s1 := by
    show upd S.dock d s1 d = s1
    simp
  have hr3 := run_deliver (C := C) (H := H) (R := R) (black := black) (S := S2) (d := d) (as := []) hq2 hF' ho hu
    (run_cons (System.recv_step (cs := C d) (s := S2.dock d) (p := e) (by rw [hS2]; exact hd) (by rw [hS2]; exact hh)
      (by rw [hS2]; exact hp) (.queryResponse st.addr))) (by simp)
  refine ⟨_, ⟨_, run_trans hr1 (run_trans hr2 hr3), ?_⟩, ?_⟩
  · intro a h
    rcases List.mem_append.mp h with h | h
    · exact map_harmless (by simp) a h
    · rcases List.mem_append.mp h with h | h
      · rcases List.mem_cons.mp h with rfl | h
        · rfl
        · exact map_harmless_hub a h
      · simp at h
        subst h
        rfl
  · constructor
    · rfl
    · rfl
    · rfl
    · show upd _ d _ d = _
      rw [upd_same, hS2]
      simp [s1, Dock.State.calling, Dock.State.onPacket]
    · intro x hx
      show upd (upd S.dock d s1) d _ x = _
      rw [upd_other _ _ hx, upd_other _ _ hx]
    · intro x hx
      rw [queue_setDock (S := S2.took e (.queryResponse st.addr) []) (d := d) (l := [.recv e (.queryResponse st.addr)]) rfl]
      show upd S2.queue e [] x ++ (if S.owner (other x) = _ then _ else _) = _
      have hno : S.owner (other x) = none := I.shape.fresh (other x) (by unfold other; split <;> omega)
      rw [upd_other _ _ (by omega), hq2'' x hx]
      simp [hno]

/-- The addresses of docks are unique. -/
theorem offered_dock (acts : List System.Act) (h : run (System.State.step C H R black) .init acts = some S) {slot : Str}
    {st : Hub.Stub} (hm : st ∈ S.hub.stubs slot) (hr : st.ready = true) {d : Nat} {x : BitVec 64}
    (ha : st.addr = H d ++ colon :: decimal x.toNat) (hx : x ∈ (S.dock d).ports) :
    ∃ f, LastNamed (C d) slot f ∧ f.discoverable = true := by
  have I := inv_run C H R black h
  obtain ⟨as, hb⟩ := I.parts.hub
  obtain ⟨d', x', f, h1, h2, h3, h4⟩ := offered_listening I ((Hub.hubInv_run R black hb).stub.offered slot st hm hr)
  rw [ha] at h1
  obtain ⟨h5, h6⟩ := address_inj h1
  have hx' := BitVec.eq_of_toNat_eq h6
  subst hx'
  rcases Decidable.em (d = d') with e | e
  · subst e; exact ⟨f, h3, h4⟩
  · exact absurd h2 (C79_no_conflict C H R black acts S h d d' e h5 x hx)

end

/-- C110, second part: dock `d` knows no connection for the feature, but the hub has a ready stub of a dock `d'`. -/
theorem C110_via_hub (acts : List System.Act) (S : System.State) (h : run (System.State.step C H R black) .init acts = some S)
    (d e d' j : Nat) (c : Dock.Call) (clock : BitVec 64) (r : Dock.Ret) (st : Hub.Stub) (x : BitVec 64)
    -- the feature is not carried by `d`, which knows nobody who carries it, and is connected to the hub
    (hc : ∀ f ∈ C d, f.name ≠ c.slot) (hr : (S.dock d).remote c.slot = none) (hk : (S.dock d).sockets.head? = some .hub)
    (he : (e, .hub) ∈ (S.dock d).peers)
    -- the newest ready stub at the hub is of the dock `d'`
    (hj : (S.hub.stubs c.slot)[j]? = some st) (hrd : st.ready = true)
    (hn : ∀ m st', j < m → (S.hub.stubs c.slot)[m]? = some st' → st'.ready = false)
    (haddr : st.addr = H d' ++ colon :: decimal x.toNat) (hx : x ∈ (S.dock d').ports)
    -- the three are alive
    (hu : S.down (.dock d) = false) (hu' : S.down (.dock d') = false) (hu'' : S.down .hub = false)
    (hd : (S.dock d).dead = false) (hd' : (S.dock d').dead = false) (hd'' : S.hub.dead = false)
    -- nothing is happening on the connection to the hub
    (hq : S.queue e = []) (hq' : S.queue (other e) = []) (hh : (S.dock d).handler e = .idle)
    (ht : S.hub.task (other e) = .idle) (hcl : S.hub.closed (other e) = false)
    -- no other calls are waiting for the two docks to get to know each other
    (hw : ∀ i, (S.dock d).req i = true → ((S.dock d).call i).slot ∉ Dock.collectOf (C d'))
    (hw' : ∀ i, (S.dock d').req i = true → ((S.dock d').call i).slot ∉ Dock.collectOf (C d))
    -- names, arguments and results can be sent
    (hsq : Short (.queryRequest c.slot)) (hsa : Short (.queryResponse st.addr))
    (hsr : Short (.registerRequest (Dock.collectOf (C d)))) (hsr' : Short (.registerRequest (Dock.collectOf (C d'))))
    (ha : wireOKList c.args = true) (hs : Short (.rpcRequest clock c.slot c.meth c.args c.withResult))
    (ha' : wireOKList (if c.withResult then r.result else []) = true)
    (hs' : Short (.rpcResponse clock c.slot c.meth (if c.withResult then r.result else []) r.err)) :
    ∃ more T f l e', run (System.State.step C H R black) S more = some T ∧ (∀ a ∈ more, harmless a = true) ∧
      T.down = S.down ∧ (∀ x, (T.dock x).dead = (S.dock x).dead) ∧
      (T.dock d).phase (S.dock d).n = .returned ⟨canonList (if c.withResult then r.result else []), r.err⟩ ∧
      LastNamed (C d') c.slot f ∧ f.discoverable = true ∧ (T.dock d').log = (S.dock d').log ++ l ∧
      .returned (e', clock) f.feature { c with args := canonList c.args } r ∈ l := by
  have I := inv_run C H R black h
  have E := ends_run C H R black h
  obtain ⟨f, hf, hdisc⟩ := offered_dock acts h (List.mem_iff_getElem?.mpr ⟨j, hj⟩) hrd haddr hx
  have hnone : Dock.slotsOf (C d) c.slot = none := (Dock.slotsOf_none _ _).mpr hc
  have hsome : Dock.slotsOf (C d') c.slot = some f := (Dock.slotsOf_some _ _ _).mpr hf
  have hne : d ≠ d' := by
    intro x
    subst x
    rw [hnone] at hsome
    cases hsome
  have hmem : c.slot ∈ Dock.collectOf (C d') := (Dock.mem_collectOf _ _).mpr ⟨f, hf, hdisc⟩
  obtain ⟨hch, hcc⟩ := new_chan I d
  obtain ⟨e', hfil, ho, ho', hp⟩ := hub_peer I E hk
  have hee : e = e' := by
    have : (e, Dock.Sock.hub) ∈ (S.dock d).peers.filter (fun x => x.2 = .hub) := List.mem_filter.mpr ⟨he, by simp⟩
    rw [hfil] at this
    simpa using this
  subst hee
  obtain ⟨ks, hks⟩ : ∃ ks, (S.dock d).sockets = .hub :: ks := by
    cases hl : (S.dock d).sockets with
    | nil => rw [hl] at hk; cases hk
    | cons k ks => rw [hl] at hk; cases hk; exact ⟨ks, rfl⟩
  have hlt : e < 2 * S.n := by
    rcases Nat.lt_or_ge e (2 * S.n) with h | h
    · exact h
    · rw [I.shape.fresh e h] at ho; cases ho
  obtain ⟨T3, hG3, A⟩ := ask_hub (clock := clock) I hnone hr hks hfil ho ho' hp hu hu'' hd hd'' hq hq' hh ht hcl hj hrd hn hsq hsa
  -- the connection
  let s3 : Dock.State := { (S.dock d).calling c clock true [.sent e (.queryRequest c.slot)] with
      handler := upd (S.dock d).handler e (.dialling st.addr)
      log := (S.dock d).log ++ [.called c, .sent e (.queryRequest c.slot), .recv e (.queryResponse st.addr)] }
  let s4 : Dock.State := { s3.connected (2 * S.n) (.dialled (2 * S.n)) with
      handler := upd s3.handler e (.dialled (2 * S.n)) }
  have hs3h : s3.handler e = .dialling st.addr := upd_same ..
  have hs3n : s3.isNew (2 * S.n) = true := isNew_fresh (d := d) I E (Nat.le_refl _)
  have hs3 : s3.step (C d) (.dialOK e (2 * S.n)) = some s4 := by
    unfold Dock.State.step
    rw [if_neg (by show ¬ (S.dock d).dead = true; rw [hd]; simp)]
    simp only [hs3h]
    rw [if_pos hs3n]
  let T3' := T3.connect (.dock d) (.dock d') x
  have hstep4 : T3.step C H R black (.dial d e d' x) = some (T3'.setDock d s4) := by
    simp only [State.step, A.dock, upd_same]
    rw [if_pos ⟨by rw [A.down]; exact hu, by rw [A.down]; exact hu', by rw [A.rest d' hne.symm]; exact hx, haddr⟩, A.n]
    rw [show Dock.State.step (C d) _ (.dialOK e (2 * S.n)) = some s4 from hs3]
  have P3 : Pair S T3' d d' (2 * S.n) s3 (S.dock d') [] [] := by
    refine ⟨hne, ?_, ?_, A.dock, A.rest d' hne.symm, A.fresh _ (Nat.le_refl _), A.fresh _ ?_, A.down, fun y h1 _ => A.rest y h1⟩
    · simp only [T3', State.connect, A.n]
      rw [upd_other _ _ (by omega), upd_same]
    · simp only [T3', State.connect, A.n, other_even, upd_same]
    · rw [other_even]; omega
  have P4 := pair_setDock (t := s4) (l := []) P3 (by simp [s4, Dock.State.connected])
  have hG4 : Gets C H R black S (T3'.setDock d s4) := hG3.trans ⟨[.dial d e d' x], by rw [run_cons hstep4]; rfl, by simp [harmless]⟩
  -- it is accepted
  let s5' : Dock.State := (S.dock d').connected (2 * S.n + 1) (.listener x)
  have hstep5 : (T3'.setDock d s4).step C H R black (.accept (2 * S.n + 1)) = some ((T3'.setDock d s4).setDock d' s5') := by
    have hown := P4.owner'
    rw [other_even] at hown
    have hport : (T3'.setDock d s4).port (2 * S.n + 1) = x := by
      simp only [State.setDock, T3', State.connect, A.n, upd_same]
    simp only [State.step, hown, hport]
    rw [if_pos ⟨by rw [P4.down]; exact hu', by omega⟩, P4.dock']
    have : (S.dock d').step (C d') (.accept (2 * S.n + 1) x) = some s5' := by
      unfold Dock.State.step
      rw [if_neg (by rw [hd']; simp)]
      simp only
      rw [if_pos ⟨isNew_fresh I E (by omega), hx⟩]
    rw [this]
  have P5 := (pair_setDock (t := s5') (l := []) P4.symm (by simp [s5', Dock.State.connected])).symm
  rw [other_other] at P5
  have hG5 := hG4.trans (⟨[.accept (2 * S.n + 1)], by rw [run_cons hstep5]; rfl, by simp [harmless]⟩ : Gets C H R black _ _)
  -- both introduce themselves
  let s6 : Dock.State := { s4 with
      sockets := s4.sockets ++ [.dialled (2 * S.n)]
      handler := upd s4.handler e .idle
      greeting := upd s4.greeting (2 * S.n) false
      log := s4.log ++ [.sent (2 * S.n) (.registerRequest (Dock.collectOf (C d)))] }
  have hr6 : run (Dock.State.step (C d)) s4 [.work e [], .greet (2 * S.n) (Dock.collectOf (C d))] = some s6 := by
    simp [run, Dock.State.step, Dock.State.work, s6, s4, s3, Dock.State.connected, Dock.State.calling, hd, Dock.isPerm_refl]
  obtain ⟨T6, hG6, P6⟩ := P5.solo (C := C) (H := H) (R := R) (black := black) hu hr6 (by simp [dockAlone]) (by simp)
    (l := [.sent (2 * S.n) (.registerRequest (Dock.collectOf (C d)))]) rfl
  let s6' : Dock.State := { s5' with
      greeting := upd s5'.greeting (2 * S.n + 1) false
      log := s5'.log ++ [.sent (2 * S.n + 1) (.registerRequest (Dock.collectOf (C d')))] }
  have hr6' : run (Dock.State.step (C d')) s5' [.greet (2 * S.n + 1) (Dock.collectOf (C d'))] = some s6' := by
    simp [run, Dock.State.step, s6', s5', Dock.State.connected, hd', Dock.isPerm_refl]
  obtain ⟨T7, hG7, P7⟩ := P6.symm.solo (C := C) (H := H) (R := R) (black := black) hu' hr6' (by simp [dockAlone]) (by simp)
    (l := [.sent (2 * S.n + 1) (.registerRequest (Dock.collectOf (C d')))]) rfl
  rw [other_even] at P7
  -- `d'` answers
  have hlt2 : 2 * S.n + 1 ≠ e := by omega
  have hh7' : s6'.handler (2 * S.n + 1) = .idle := idle_fresh (d := d') I E (by omega)
  have hp7' : s6'.isPeer (2 * S.n + 1) = true := by simp [Dock.State.isPeer, s6', s5', Dock.State.connected]
  have hF1 : fate (.registerRequest (Dock.collectOf (C d))) = .arrives (.registerRequest (Dock.collectOf (C d))) :=
    fate_arrives rfl hsr
  have hF2 : fate (.registerRequest (Dock.collectOf (C d'))) = .arrives (.registerRequest (Dock.collectOf (C d'))) :=
    fate_arrives rfl hsr'
  have hF3 : fate (.ready (Dock.collectOf (C d))) = .arrives (.ready (Dock.collectOf (C d))) := fate_arrives rfl hsr
  have hF4 : fate (.ready (Dock.collectOf (C d'))) = .arrives (.ready (Dock.collectOf (C d'))) := fate_arrives rfl hsr'
  have hF := fate_arrives (pkt := .rpcRequest clock c.slot c.meth c.args c.withResult) ha hs
  have hF' := fate_arrives (pkt := .rpcResponse clock c.slot c.meth (if c.withResult then r.result else []) r.err) ha' hs'
  simp [dockSent] at P7
  obtain ⟨T8, hG8, P8⟩ := P7.take (C := C) (H := H) (R := R) (black := black) hu' hF1
    (ran_register (cs := C d') (s := s6') hd' hh7' hp7' _) rfl
  -- `d` learns where the feature is
  have P8 := P8.symm
  rw [other_odd] at P8
  simp [dockSent] at P8
  have hh8 : s6.handler (2 * S.n) = .idle := by
    show upd (upd (upd (S.dock d).handler e _) e _) e .idle (2 * S.n) = _
    rw [upd_other _ _ (by omega), upd_other _ _ (by omega), upd_other _ _ (by omega)]
    exact idle_fresh (d := d) I E (by omega)
  have hp8 : s6.isPeer (2 * S.n) = true := by simp [Dock.State.isPeer, s6, s4, Dock.State.connected]
  obtain ⟨T9, hG9, P9⟩ := P8.take (C := C) (H := H) (R := R) (black := black) hu hF2
    (ran_register (cs := C d) (s := s6) hd hh8 hp8 _) rfl
  simp [dockSent] at P9
  let s9 : Dock.State := { s6 with
    remote := Dock.learn (2 * S.n) (Dock.collectOf (C d')) s6.remote
    log := s6.log ++ [.recv (2 * S.n) (.registerRequest (Dock.collectOf (C d'))), .sent (2 * S.n) (.ready (Dock.collectOf (C d)))] }
  let s8' : Dock.State := { s6' with
    remote := Dock.learn (2 * S.n + 1) (Dock.collectOf (C d)) s6'.remote
    log := s6'.log ++ [.recv (2 * S.n + 1) (.registerRequest (Dock.collectOf (C d))),
      .sent (2 * S.n + 1) (.ready (Dock.collectOf (C d')))] }
  -- `d` sends the request
  have hreq : ∀ i, s9.req i = true → (s9.call i).slot ∈ Dock.collectOf (C d') → i = (S.dock d).n := by
    intro i h1 h2
    refine Classical.byContradiction fun hi => ?_
    simp only [s9, s6, s4, s3, Dock.State.connected, Dock.State.calling, upd_other _ _ hi] at h1 h2
    exact hw i h1 h2
  have hcall : s9.call (S.dock d).n = c := by simp [s9, s6, s4, s3, Dock.State.connected, Dock.State.calling]
  have hidx : s9.index (S.dock d).n = clock := by simp [s9, s6, s4, s3, Dock.State.connected, Dock.State.calling]
  have hrpc : s9.rpcs clock = some (S.dock d).n := by simp [s9, s6, s4, s3, Dock.State.connected, Dock.State.calling]
  obtain ⟨T10, hG10, P10⟩ := P9.take (C := C) (H := H) (R := R) (black := black) hu hF4
    (ran_ready_one (cs := C d) (s := s9) hd hh8 hp8 _ (S.dock d).n (2 * S.n) hreq
      (by simp [s9, s6, s4, s3, Dock.State.connected, Dock.State.calling]) (by rw [hidx]; exact hrpc)
      (by rw [hcall]; exact Dock.learn_mem _ _ _ _ hmem) (by rw [hcall]; exact hmem)) rfl
  have hrq : s9.request (S.dock d).n = .rpcRequest clock c.slot c.meth c.args c.withResult := by
    unfold Dock.State.request; rw [hcall, hidx]
  simp [dockSent, hrq] at P10
  -- `d'` has nothing to send
  have P10' := P10.symm
  rw [other_even] at P10'
  obtain ⟨T11, hG11, P11⟩ := P10'.take (C := C) (H := H) (R := R) (black := black) hu' hF3
    (ran_ready_none (cs := C d') (s := s8') hd' hh7' hp7' _ hw') rfl
  have P11 := P11.symm
  rw [other_odd] at P11
  simp [dockSent] at P11
  have hG := ((((((hG5.trans hG6).trans hG7).trans hG8).trans hG9).trans hG10).trans hG11)
  obtain ⟨as, hr1, hg1⟩ := hG
  obtain ⟨bs, T, hr2, hg2, hdn, hdead, hph, _, hlog⟩ := finish_call (C := C) (H := H) (R := R) (black := black) (S := T11) (d := d)
    (d' := d') (e := 2 * S.n) (i := (S.dock d).n) (clock := clock) (c := c) (f := f) r hne P11.owner P11.owner'
    (by rw [P11.down]; exact hu) (by rw [P11.down]; exact hu') (by rw [P11.dock]; exact hd) (by rw [P11.dock']; exact hd')
    (by rw [P11.dock]; exact hh8) (by rw [P11.dock', other_even]; exact hh7') (by rw [P11.dock]; exact hp8)
    (by rw [P11.dock', other_even]; exact hp7')
    P11.queue P11.queue' hsome hF hF' (by rw [P11.dock]; exact hrpc)
    (by rw [P11.dock]; exact upd_same ..) (by rw [P11.dock]; exact hch)
    (by rw [P11.dock]; exact hcc)
  have hlog' : ∃ l, (T.dock d').log = (S.dock d').log ++ l ∧
      .returned (2 * S.n + 1, clock) f.feature { c with args := canonList c.args } r ∈ l := by
    rw [hlog, P11.dock', other_even]
    simp only [s8', s6', s5', Dock.State.connected, List.append_assoc]
    exact ⟨_, rfl, by simp⟩
  obtain ⟨l, hl, hm⟩ := hlog'
  refine ⟨as ++ bs, T, f, l, 2 * S.n + 1, run_trans hr1 hr2, ?_, by rw [hdn, P11.down], ?_, hph, hf, hdisc, hl, hm⟩
  · intro a h
    rcases List.mem_append.mp h with h | h
    · exact hg1 a h
    · exact hg2 a h
  · intro x
    rw [hdead]
    by_cases h1 : x = d
    · subst h1; rw [P11.dock]; rfl
    · by_cases h2 : x = d'
      · subst h2; rw [P11.dock']; rfl
      · rw [P11.rest x h1 h2]

/-- Dock 0 and dock 1 have registered with the hub, and all is quiet: the second part applies to a call of feature `a`. -/
def sysCalm : List System.Act := sysBoot ++
  [.join 1, .dock 1 .storeHub, .dock 1 (.greet 2 []), .deliver 3, .hub (.work 3), .deliver 2,
   .dock 1 (.work 2 []), .dock 1 (.work 2 []), .deliver 3, .hub (.work 3)]

/-- The idle handlers and tasks. -/
def idleView : Dock.Handler → Bool
  | .idle => true
  | _ => false

/-- The hub does not work for the peer. -/
def taskView : Hub.Task → Bool
  | .idle => true
  | _ => false

theorem idleView_iff {h : Dock.Handler} (e : idleView h = true) : h = .idle := by
  cases h <;> first | rfl | cases e

theorem taskView_iff {h : Hub.Task} (e : taskView h = true) : h = .idle := by
  cases h <;> first | rfl | cases e

/-- Without calls, no call is waiting. -/
theorem req_none {C : Nat → List Carried} {H R : Nat → Str} {black : List Int} {S : System.State} (I : System.Inv C H R black S)
    {d : Nat} (h : (S.dock d).n = 0) (i : Nat) : (S.dock d).req i = false := by
  have hR := (dock_inv I d).2.2.1
  refine hR.unset i ?_
  rw [hR.fresh i (by omega)]
  rfl

/-- In the state after `sysCalm` a call of feature `a` by dock 1 can complete over the hub. -/
example : ∃ S more T, run (System.State.step sysC sysH sysR []) .init sysCalm = some S ∧
    run (System.State.step sysC sysH sysR []) S more = some T ∧ (∀ a ∈ more, harmless a = true) ∧
    (T.dock 1).phase 0 = .returned ⟨[.bool 0 true], []⟩ := by
  obtain ⟨S, h, hv⟩ := sysWitness (C := sysC) (H := sysH) (R := sysR) (as := sysCalm) (f := fun S =>
    (((S.dock 0).n, (S.dock 1).n, (S.dock 1).remote nameA, (S.dock 1).sockets.head?, (S.dock 1).peers),
      ((S.hub.stubs nameA).map (fun st => (st.addr, st.peer, st.ready)), (S.dock 0).ports),
      [S.down (.dock 0), S.down (.dock 1), S.down .hub, (S.dock 0).dead, (S.dock 1).dead, S.hub.dead],
      ((S.queue 2).length, (S.queue 3).length, idleView ((S.dock 1).handler 2), taskView (S.hub.task 3), S.hub.closed 3)))
    (b := ((0, 0, none, some .hub, [(2, .hub)]), ([(sysH 0 ++ colon :: decimal 20001, 1, true)], [20001]),
      [false, false, false, false, false, false], (0, 0, true, true, false))) (by decide +kernel)
  simp only [Prod.mk.injEq, List.cons.injEq, and_true] at hv
  obtain ⟨⟨n0, n1, h1, h2, h3⟩, ⟨h4, h5⟩, ⟨d1, d2, d3, d4, d5, d6⟩, q1, q2, i1, i2, i3⟩ := hv
  have I := inv_run sysC sysH sysR [] h
  have hst : S.hub.stubs nameA = [⟨sysH 0 ++ colon :: decimal 20001, 1, true⟩] := by
    cases hl : S.hub.stubs nameA with
    | nil => rw [hl] at h4; cases h4
    | cons a l =>
      rw [hl] at h4
      obtain ⟨x, y, z⟩ := a
      simp at h4
      obtain ⟨⟨rfl, rfl, rfl⟩, rfl⟩ := h4
      rfl
  obtain ⟨more, T, f, l, e', hr, hg, _, _, hph, _⟩ := C110_via_hub sysC sysH sysR [] sysCalm S h 1 2 0 0 ⟨nameA, methM, [], true⟩ 77
    ⟨[.bool 0 true], []⟩ ⟨sysH 0 ++ colon :: decimal 20001, 1, true⟩ 20001 (by decide +kernel) h1 h2 (by rw [h3]; simp)
    (by rw [hst]; rfl) rfl (by
      intro m st' hm hs
      rw [hst, List.getElem?_eq_none (by simp only [List.length_singleton]; omega)] at hs
      cases hs) rfl (by rw [h5]; simp) d2 d1 d3 d5 d4 d6 (List.length_eq_zero_iff.mp q1) (List.length_eq_zero_iff.mp q2)
    (idleView_iff i1) (taskView_iff i2) i3 (by intro i hi; rw [req_none I n1] at hi; cases hi)
    (by intro i hi; rw [req_none I n0] at hi; cases hi) (by unfold Short; decide +kernel) (by unfold Short; decide +kernel)
    (by unfold Short; decide +kernel) (by unfold Short; decide +kernel) (by decide +kernel) (by unfold Short; decide +kernel)
    (by decide +kernel) (by unfold Short; decide +kernel)
  rw [n1] at hph
  exact ⟨S, more, T, h, hr, hg, hph⟩

/-- After a first call has completed, dock 1 knows dock 0 and a second call can complete directly. -/
example : ∃ S more T, run (System.State.step sysC sysH sysR []) .init sysDone = some S ∧
    run (System.State.step sysC sysH sysR []) S more = some T ∧ (∀ a ∈ more, harmless a = true) ∧
    (T.dock 1).phase 1 = .returned ⟨[.bool 0 false], [101]⟩ := by
  obtain ⟨S, h, hv⟩ := sysWitness (C := sysC) (H := sysH) (R := sysR) (as := sysDone) (f := fun S =>
    (((S.dock 1).n, (S.dock 1).remote nameA, S.owner 5), [S.down (.dock 0), S.down (.dock 1), (S.dock 0).dead, (S.dock 1).dead],
      ((S.queue 4).length, (S.queue 5).length, idleView ((S.dock 1).handler 4), idleView ((S.dock 0).handler 5))))
    (b := ((1, some 4, some (.dock 0)), [false, false, false, false], (0, 0, true, true))) (by decide +kernel)
  simp only [Prod.mk.injEq, List.cons.injEq, and_true] at hv
  obtain ⟨⟨n1, h1, h2⟩, ⟨d1, d2, d3, d4⟩, q1, q2, i1, i2⟩ := hv
  obtain ⟨more, T, f, l, hr, hg, _, _, hph, _⟩ := C110_direct sysC sysH sysR [] sysDone S h 1 0 4 ⟨nameA, methM, [.bool 0 true], true⟩ 78
    ⟨[.bool 0 false], [101]⟩ (by decide +kernel) h1 h2 d2 d1 d4 d3 (List.length_eq_zero_iff.mp q1) (List.length_eq_zero_iff.mp q2)
    (idleView_iff i1) (idleView_iff i2) (by decide +kernel) (by unfold Short; decide +kernel) (by decide +kernel)
    (by unfold Short; decide +kernel)
  rw [n1] at hph
  exact ⟨S, more, T, h, hr, hg, hph⟩

end Verif.Props
