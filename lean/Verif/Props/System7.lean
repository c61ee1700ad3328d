import Verif.System.Join
import Verif.Props.System6

/-!
# C112: a dock can join a running system at any time

From every reachable state in which the hub is alive and has a port left, whatever has happened before and whatever the
rest of the system is doing, a dock that has not been started yet can connect, be registered, listen and start its
features, without any other process taking a step; from then on queries for its features are answered with its address.
-/

namespace Verif.Props

open Verif Verif.Codec Verif.Proto Verif.System
open Verif.Dock (Carried LastNamed)

variable (C : Nat → List Carried) (H : Nat → Str) (R : Nat → Str) (black : List Int)

set_option synthInstance.maxSize 4096

section
variable {C : Nat → List Carried} {H : Nat → Str} {R : Nat → Str} {black : List Int} {S : System.State}

theorem encodeInt64_short (v : BitVec 64) : (encodeInt64 v).length ≤ 9 := by
  unfold encodeInt64 encodeInt32 encodeInt16 encodeInt8
  repeat' split
  all_goals simp

/-- The response to a registration fits into a frame. -/
theorem response_short (x : BitVec 64) : Short (.registerResponse x) := by
  have h := encodeInt64_short x
  have h1 : (Packer.body ⟨idOf (.registerResponse x), .registerResponse x⟩).bytes =
      (Packer.body ⟨idOf (.registerResponse 0), .heartbeat⟩).bytes ++ encodeInt64 x := rfl
  unfold Short
  rw [h1, List.length_append]
  have h2 : (Packer.body ⟨idOf (.registerResponse 0), .heartbeat⟩).bytes.length < 100 := by decide +kernel
  omega

theorem decimal_length (k n : Nat) (h : n < 10 ^ (k + 1)) : (decimal n).length ≤ k + 1 := by
  induction k generalizing n with
  | zero => rw [decimal_eq, if_pos (by omega)]; simp
  | succ k ih =>
    rw [decimal_eq]
    split
    · simp
    · have := ih (n / 10) (by rw [Nat.pow_succ] at h; omega)
      rw [List.length_append, List.length_singleton]
      omega

/-- Addresses fit into a frame if the host does. -/
theorem address_short (host : Str) (x : BitVec 64) (h : host.length < 2 ^ 31) :
    Short (.queryResponse (host ++ colon :: decimal x.toNat)) := by
  have h1 := decimal_length 19 x.toNat (Nat.lt_trans x.isLt (by decide))
  have h2 : ∀ a, (Packer.body ⟨idOf (.queryResponse a), .queryResponse a⟩).bytes =
      (Packer.body ⟨idOf (.queryResponse []), .heartbeat⟩).bytes ++ (header cStr32 a.length ++ a) := fun _ => rfl
  have h3 : (Packer.body ⟨idOf (.queryResponse []), .heartbeat⟩).bytes.length < 100 := by decide +kernel
  unfold Short
  rw [h2]
  simp only [List.length_append, List.length_cons, header, List.length_nil]
  omega

/-- The dock gets into touch with the hub. -/
theorem joins (I : System.Inv C H R black S) (E : Ends S) {d : Nat} (hu : S.down (.dock d) = false) (hu' : S.down .hub = false)
    (hd : (S.dock d).dead = false) (hd' : S.hub.dead = false)
    (hk : (S.dock d).sockets = []) (hb : (S.dock d).hubPending = false) (hp : (S.dock d).peers = [])
    (hR : Hub.pickIP (R (2 * S.n + 1)) = H d) (hn : Hub.nextPort black (S.hub.ports (H d)) ≤ Hub.cMaxPortRange)
    (hc : S.hub.closed (2 * S.n + 1) = false) (hs : Short (.registerRequest (Dock.collectOf (C d)))) :
    ∃ T, Gets C H R black S T ∧ Joining S T d
      { S.dock d with
        peers := [(2 * S.n, .hub)]
        greeting := upd (S.dock d).greeting (2 * S.n) false
        sockets := [.hub, .listener (BitVec.ofNat 64 (Hub.nextPort black (S.hub.ports (H d))))]
        ports := (S.dock d).ports ++ [BitVec.ofNat 64 (Hub.nextPort black (S.hub.ports (H d)))]
        log := (S.dock d).log ++ [.sent (2 * S.n) (.registerRequest (Dock.collectOf (C d))),
          .recv (2 * S.n) (.registerResponse (BitVec.ofNat 64 (Hub.nextPort black (S.hub.ports (H d))))),
          .listen (BitVec.ofNat 64 (Hub.nextPort black (S.hub.ports (H d)))),
          .sent (2 * S.n) (.ready (Dock.collectOf (C d))), .start] }
      { S.hub with
        ports := upd S.hub.ports (H d) (Hub.nextPort black (S.hub.ports (H d)))
        stubs := Hub.markAll (2 * S.n + 1) (Dock.collectOf (C d)) (Hub.addTo (Hub.fullAddr (H d) (Hub.nextPort black (S.hub.ports (H d))))
          (2 * S.n + 1) (Dock.collectOf (C d)) S.hub.stubs)
        log := S.hub.log ++ (.register (2 * S.n + 1) (Dock.collectOf (C d)) (Hub.nextPort black (S.hub.ports (H d))) ::
          ((Dock.collectOf (C d)).map (fun x => Hub.Ev.added (2 * S.n + 1) x (Hub.fullAddr (H d) (Hub.nextPort black (S.hub.ports (H d))))) ++
            [.sent (2 * S.n + 1) (.registerResponse (BitVec.ofNat 64 (Hub.nextPort black (S.hub.ports (H d)))))])) ++
          [.ready (2 * S.n + 1) (Dock.collectOf (C d))] } [] [] := by
  generalize hport : Hub.nextPort black (S.hub.ports (H d)) = port at *
  have hfresh := fun x (hx : 2 * S.n ≤ x) => (fresh_got H R I.shape I.fifo hx).2
  have hidle : (S.dock d).handler (2 * S.n) = .idle := idle_fresh I E (Nat.le_refl _)
  -- the connection
  let s1 : Dock.State := { (S.dock d).connected (2 * S.n) .hub with hubPending := true }
  have h1 : (S.dock d).step (C d) (.dialHub (2 * S.n)) = some s1 := by
    unfold Dock.State.step
    rw [if_neg (by rw [hd]; simp)]
    simp only
    rw [if_pos ⟨hk, hb, hp⟩]
  have hjoin : S.step C H R black (.join d) = some ((S.connect (.dock d) .hub 0).setDock d s1) := by
    simp only [State.step]
    rw [if_pos ⟨hu, hu', hR⟩, h1]
  have J0 : Joining S (S.connect (.dock d) .hub 0) d (S.dock d) S.hub [] [] :=
    ⟨rfl, rfl, rfl, rfl, rfl, fun _ _ => rfl, hfresh _ (Nat.le_refl _), hfresh _ (Nat.le_succ _), fun _ _ => rfl⟩
  have J1 := J0.setDock (s' := s1) (l := []) (by simp [s1, Dock.State.connected]) (by simp [dockSent])
  have hG1 : Gets C H R black S ((S.connect (.dock d) .hub 0).setDock d s1) := ⟨[.join d], by rw [run_cons hjoin]; rfl, by simp [harmless]⟩
  -- the dock introduces itself
  let s2 : Dock.State := { s1 with
    hubPending := false, sockets := [.hub], greeting := upd s1.greeting (2 * S.n) false
    log := s1.log ++ [.sent (2 * S.n) (.registerRequest (Dock.collectOf (C d)))] }
  have h2 : run (Dock.State.step (C d)) s1 [.storeHub, .greet (2 * S.n) (Dock.collectOf (C d))] = some s2 := by
    simp [run, Dock.State.step, s2, s1, Dock.State.connected, hd, hk, Dock.isPerm_refl]
  obtain ⟨T2, hG2, J2⟩ := J1.solo (C := C) (H := H) (R := R) (black := black) hu h2 (by simp [dockAlone]) (by simp)
    (l := [.sent (2 * S.n) (.registerRequest (Dock.collectOf (C d)))]) rfl
    (by intro y hy; simp [dockSent, hy.symm])
  simp only [dockSent, List.filterMap_nil, List.nil_append, List.filterMap_cons, if_true] at J2
  -- the hub registers it
  have hF1 : fate (.registerRequest (Dock.collectOf (C d))) = .arrives (.registerRequest (Dock.collectOf (C d))) := fate_arrives rfl hs
  have hF2 : fate (.registerResponse (BitVec.ofNat 64 port)) = .arrives (.registerResponse (BitVec.ofNat 64 port)) :=
    fate_arrives rfl (response_short _)
  have hF3 : fate (.ready (Dock.collectOf (C d))) = .arrives (.ready (Dock.collectOf (C d))) := fate_arrives rfl hs
  obtain ⟨as, ha, hr⟩ := Hub.register_all (R := R) (black := black) S.hub (2 * S.n + 1) (Dock.collectOf (C d)) hd'
    (task_fresh I (Nat.le_succ _)) hc (by rw [hR, hport]; exact hn)
  rw [hR, hport] at hr
  have hsent : ∀ y, hubSent y (Hub.Ev.register (2 * S.n + 1) (Dock.collectOf (C d)) port ::
      ((Dock.collectOf (C d)).map (fun x => Hub.Ev.added (2 * S.n + 1) x (Hub.fullAddr (H d) port)) ++
        [.sent (2 * S.n + 1) (.registerResponse (BitVec.ofNat 64 port))])) =
      if 2 * S.n + 1 = y then [.registerResponse (BitVec.ofNat 64 port)] else [] := by
    intro y
    unfold hubSent
    rw [List.filterMap_cons]
    simp only [List.filterMap_append]
    rw [List.filterMap_eq_nil_iff.mpr (by intro x hx; obtain ⟨z, _, rfl⟩ := List.mem_map.mp hx; rfl)]
    by_cases e : 2 * S.n + 1 = y <;> simp [e]
  obtain ⟨T3, hG3, J3⟩ := J2.hubTakes (C := C) (H := H) (R := R) (black := black) hu' hF1 hr
    (by intro x hx; rw [ha x hx]; rfl) rfl (by intro y hy; rw [hsent, if_neg hy.symm])
  rw [hsent, if_pos rfl] at J3
  -- the dock listens and starts
  let s4 : Dock.State := { s2 with
    sockets := [.hub, .listener (BitVec.ofNat 64 port)]
    ports := s2.ports ++ [BitVec.ofNat 64 port]
    log := s2.log ++ [.recv (2 * S.n) (.registerResponse (BitVec.ofNat 64 port)), .listen (BitVec.ofNat 64 port),
      .sent (2 * S.n) (.ready (Dock.collectOf (C d))), .start] }
  have hp2 : s2.isPeer (2 * S.n) = true := by simp [Dock.State.isPeer, s2, s1, Dock.State.connected]
  have hi2 : upd (S.dock d).handler (2 * S.n) .idle = (S.dock d).handler := by
    rw [← hidle]; exact Dock.upd_self _ _
  have h4 : run (Dock.State.step (C d)) s2 (.recv (2 * S.n) (.registerResponse (BitVec.ofNat 64 port)) ::
      [.work (2 * S.n) [], .work (2 * S.n) (Dock.collectOf (C d))]) = some s4 := by
    rw [run_cons (System.recv_step (cs := C d) (s := s2) (p := 2 * S.n) hd hidle hp2 _)]
    simp [run, Dock.State.step, Dock.State.work, Dock.State.onPacket, s4, s2, s1, Dock.State.connected, hd, Dock.isPerm_refl,
      Dock.upd_upd, hi2]
  obtain ⟨T4, hG4, J4⟩ := J3.take (C := C) (H := H) (R := R) (black := black) hu hF2 h4 (by simp [dockAlone]) (by simp)
    rfl (by intro y hy; simp [dockSent, hy.symm])
  -- the hub marks the stubs
  simp [dockSent] at J4
  obtain ⟨bs, hb', hr5⟩ := Hub.ready_all (R := R) (black := black)
    { S.hub with
      ports := upd S.hub.ports (H d) port
      stubs := Hub.addTo (Hub.fullAddr (H d) port) (2 * S.n + 1) (Dock.collectOf (C d)) S.hub.stubs
      log := S.hub.log ++ (.register (2 * S.n + 1) (Dock.collectOf (C d)) port ::
        ((Dock.collectOf (C d)).map (fun x => Hub.Ev.added (2 * S.n + 1) x (Hub.fullAddr (H d) port)) ++
          [.sent (2 * S.n + 1) (.registerResponse (BitVec.ofNat 64 port))])) }
    (2 * S.n + 1) (Dock.collectOf (C d)) hd' (task_fresh I (Nat.le_succ _)) hc
  obtain ⟨T5, hG5, J5⟩ := J4.hubTakes (C := C) (H := H) (R := R) (black := black) hu' hF3 hr5
    (by intro x hx; rw [hb' x hx]; rfl) rfl (by intro y hy; simp [hubSent])
  refine ⟨T5, (((hG1.trans hG2).trans hG3).trans hG4).trans hG5, ?_⟩
  have hs4 : s4 = { S.dock d with
        peers := [(2 * S.n, .hub)]
        greeting := upd (S.dock d).greeting (2 * S.n) false
        sockets := [.hub, .listener (BitVec.ofNat 64 port)]
        ports := (S.dock d).ports ++ [BitVec.ofNat 64 port]
        log := (S.dock d).log ++ [.sent (2 * S.n) (.registerRequest (Dock.collectOf (C d))),
          .recv (2 * S.n) (.registerResponse (BitVec.ofNat 64 port)), .listen (BitVec.ofNat 64 port),
          .sent (2 * S.n) (.ready (Dock.collectOf (C d))), .start] } := by
    simp [s4, s2, s1, Dock.State.connected, hp, Dock.upd_upd, hb]
  rw [← hs4]
  simpa [hubSent] using J5

end

/-- C112: a dock that has not been started joins. -/
theorem C112_join (acts : List System.Act) (S : System.State) (h : run (System.State.step C H R black) .init acts = some S) (d : Nat)
    -- dock and hub are alive, and the dock has not tried to connect
    (hu : S.down (.dock d) = false) (hu' : S.down .hub = false) (hd : (S.dock d).dead = false) (hd' : S.hub.dead = false)
    (hk : (S.dock d).sockets = []) (hb : (S.dock d).hubPending = false) (hp : (S.dock d).peers = [])
    -- the hub sees the host of the dock, has a port for it, and the connection stays
    (hR : Hub.pickIP (R (2 * S.n + 1)) = H d) (hn : Hub.nextPort black (S.hub.ports (H d)) ≤ Hub.cMaxPortRange)
    (hc : S.hub.closed (2 * S.n + 1) = false)
    -- the names of the features fit into a packet
    (hs : Short (.registerRequest (Dock.collectOf (C d)))) :
    ∃ more T x, run (System.State.step C H R black) S more = some T ∧ (∀ a ∈ more, harmless a = true) ∧
      -- nothing else changes
      T.down = S.down ∧ T.n = S.n + 1 ∧ (∀ y, y ≠ d → T.dock y = S.dock y) ∧ (∀ e, e < 2 * S.n → T.queue e = S.queue e) ∧
      (∀ e, e < 2 * S.n → T.owner e = S.owner e) ∧
      (∀ host, host ≠ H d → T.hub.ports host = S.hub.ports host) ∧ T.hub.task = S.hub.task ∧ T.hub.query = S.hub.query ∧
      T.hub.closed = S.hub.closed ∧
      -- the dock listens and has started its features
      (T.dock d).ports = (S.dock d).ports ++ [x] ∧
      (T.dock d).log = (S.dock d).log ++ [.sent (2 * S.n) (.registerRequest (Dock.collectOf (C d))),
        .recv (2 * S.n) (.registerResponse x), .listen x, .sent (2 * S.n) (.ready (Dock.collectOf (C d))), .start] ∧
      (T.dock d).sockets = [.hub, .listener x] ∧
      (T.dock d).peers = [(2 * S.n, .hub)] ∧ (T.dock d).dead = false ∧ T.hub.dead = false ∧
      (T.dock d).n = (S.dock d).n ∧ (T.dock d).req = (S.dock d).req ∧ (T.dock d).call = (S.dock d).call ∧
      (T.dock d).remote = (S.dock d).remote ∧
      -- its connection is quiet
      T.queue (2 * S.n) = [] ∧ T.queue (2 * S.n + 1) = [] ∧ (T.dock d).handler (2 * S.n) = .idle ∧
      T.hub.task (2 * S.n + 1) = .idle ∧
      -- the hub has one more stub for exactly the features that can be discovered
      ∀ slot, ((∃ f, LastNamed (C d) slot f ∧ f.discoverable = true) →
          T.hub.stubs slot = S.hub.stubs slot ++ [⟨H d ++ colon :: decimal x.toNat, 2 * S.n + 1, true⟩]) ∧
        ((¬ ∃ f, LastNamed (C d) slot f ∧ f.discoverable = true) → T.hub.stubs slot = S.hub.stubs slot) := by
  have I := inv_run C H R black h
  have E := ends_run C H R black h
  obtain ⟨T, ⟨more, hr, hg⟩, J⟩ := joins I E hu hu' hd hd' hk hb hp hR hn hc hs
  have hx : (BitVec.ofNat 64 (Hub.nextPort black (S.hub.ports (H d)))).toNat = Hub.nextPort black (S.hub.ports (H d)) := by
    rw [BitVec.toNat_ofNat]
    refine Nat.mod_eq_of_lt (Nat.lt_of_le_of_lt hn (by decide))
  refine ⟨more, T, BitVec.ofNat 64 (Hub.nextPort black (S.hub.ports (H d))), hr, hg, J.down, J.n, J.rest, J.old, ?_, ?_, by rw [J.hub],
    by rw [J.hub], by rw [J.hub], by rw [J.dock], by rw [J.dock], by rw [J.dock], by rw [J.dock], by rw [J.dock]; exact hd,
    by rw [J.hub]; exact hd', by rw [J.dock], by rw [J.dock], by rw [J.dock], by rw [J.dock], J.queue, J.queue',
    by rw [J.dock]; exact idle_fresh I E (Nat.le_refl _), by rw [J.hub]; exact task_fresh I (Nat.le_succ _), ?_⟩
  · intro e he
    rw [J.owner, upd_other _ _ (by omega), upd_other _ _ (by omega)]
  · intro host hh
    rw [J.hub]
    show upd S.hub.ports (H d) _ host = _
    rw [upd_other _ _ hh]
  · intro slot
    rw [J.hub, hx]
    simp only
    constructor
    · intro hf
      have hm := (Dock.mem_collectOf _ _).mpr hf
      rw [Hub.markAll_mem _ _ _ _ (Dock.nodup_collectOf _) hm, Hub.addTo_mem _ _ _ _ _ (Dock.nodup_collectOf _) hm]
      exact Hub.mark_last _ _ _ (stub_fresh I (Nat.le_succ _) slot)
    · intro hf
      have hm : slot ∉ Dock.collectOf (C d) := fun hm => hf ((Dock.mem_collectOf _ _).mp hm)
      rw [Hub.markAll_other _ _ _ _ hm, Hub.addTo_other _ _ _ _ _ hm]

/-- C112, second part: a call by another dock, for which the system knew nobody before, can then be executed by the new
dock. -/
theorem C112_serves (acts : List System.Act) (S : System.State) (h : run (System.State.step C H R black) .init acts = some S)
    (d d' e : Nat) (c : Dock.Call) (clock : BitVec 64) (r : Dock.Ret) (f : Carried)
    -- as in `C112_join`, for dock `d'`
    (hu' : S.down (.dock d') = false) (hu'' : S.down .hub = false) (hd' : (S.dock d').dead = false) (hd'' : S.hub.dead = false)
    (hk' : (S.dock d').sockets = []) (hb' : (S.dock d').hubPending = false) (hp' : (S.dock d').peers = [])
    (hR : Hub.pickIP (R (2 * S.n + 1)) = H d') (hn : Hub.nextPort black (S.hub.ports (H d')) ≤ Hub.cMaxPortRange)
    (hc' : S.hub.closed (2 * S.n + 1) = false)
    -- `d'` carries the feature, `d` does not and knows nobody who carries it
    (hf : LastNamed (C d') c.slot f) (hdisc : f.discoverable = true)
    (hc : ∀ f ∈ C d, f.name ≠ c.slot) (hr : (S.dock d).remote c.slot = none)
    -- `d` is alive and connected to the hub, and nothing is happening on the connection
    (hu : S.down (.dock d) = false) (hd : (S.dock d).dead = false) (hk : (S.dock d).sockets.head? = some .hub)
    (he : (e, .hub) ∈ (S.dock d).peers)
    (hq : S.queue e = []) (hq' : S.queue (other e) = []) (hh : (S.dock d).handler e = .idle)
    (ht : S.hub.task (other e) = .idle) (hcl : S.hub.closed (other e) = false)
    -- no other calls are waiting for the two docks to get to know each other
    (hw : ∀ i, (S.dock d).req i = true → ((S.dock d).call i).slot ∉ Dock.collectOf (C d'))
    (hw' : ∀ i, (S.dock d').req i = true → ((S.dock d').call i).slot ∉ Dock.collectOf (C d))
    -- names, arguments and results can be sent
    (hsq : Short (.queryRequest c.slot)) (hsa : (H d').length < 2 ^ 31)
    (hsr : Short (.registerRequest (Dock.collectOf (C d)))) (hsr' : Short (.registerRequest (Dock.collectOf (C d'))))
    (ha : wireOKList c.args = true) (hs : Short (.rpcRequest clock c.slot c.meth c.args c.withResult))
    (ha' : wireOKList (if c.withResult then r.result else []) = true)
    (hs' : Short (.rpcResponse clock c.slot c.meth (if c.withResult then r.result else []) r.err)) :
    ∃ more T l e', run (System.State.step C H R black) S more = some T ∧ (∀ a ∈ more, harmless a = true) ∧
      T.down = S.down ∧ (∀ x, (T.dock x).dead = (S.dock x).dead) ∧
      (T.dock d).phase (S.dock d).n = .returned ⟨canonList (if c.withResult then r.result else []), r.err⟩ ∧
      (T.dock d').log = (S.dock d').log ++ l ∧
      .returned (e', clock) f.feature { c with args := canonList c.args } r ∈ l := by
  have I := inv_run C H R black h
  have E := ends_run C H R black h
  have hne : d ≠ d' := by
    intro x
    subst x
    rw [hk'] at hk
    cases hk
  have ho := (E d e _ he).1
  have hlt : e < 2 * S.n := by
    rcases Nat.lt_or_ge e (2 * S.n) with h | h
    · exact h
    · rw [I.shape.fresh e h] at ho; cases ho
  have hlt' : other e < 2 * S.n := by unfold other; split <;> omega
  obtain ⟨more, T, x, j1, j2, j3, j4, j5, j6, j7, j8, j9, j10, j11, j12, j13, j14, j15, j16, j17, j18, j19, j20, j21, j22, j23, j24,
    j25, j26⟩ := C112_join C H R black acts S h d' hu' hu'' hd' hd'' hk' hb' hp' hR hn hc' hsr'
  have hst := (j26 c.slot).1 ⟨f, hf, hdisc⟩
  obtain ⟨more', U, f', l, e', k1, k2, k3, k4, k5, k6, k7, k8, k9⟩ := C110_via_hub C H R black (acts ++ more) T (run_trans h j1)
    d e d' (S.hub.stubs c.slot).length c clock r ⟨H d' ++ colon :: decimal x.toNat, 2 * S.n + 1, true⟩ x hc
    (by rw [j5 d hne]; exact hr) (by rw [j5 d hne]; exact hk) (by rw [j5 d hne]; exact he) (by rw [hst]; simp) rfl
    (by
      intro m st' hm hs
      rw [hst, List.getElem?_eq_none (by simp; omega)] at hs
      cases hs) rfl (by rw [j12]; simp) (by rw [j3]; exact hu) (by rw [j3]; exact hu') (by rw [j3]; exact hu'')
    (by rw [j5 d hne]; exact hd) j16 j17 (by rw [j6 e hlt]; exact hq) (by rw [j6 _ hlt']; exact hq') (by rw [j5 d hne]; exact hh)
    (by rw [j9]; exact ht) (by rw [j11]; exact hcl) (by rw [j5 d hne]; exact hw) (by rw [j19, j20]; exact hw') hsq (address_short _ x hsa) hsr hsr'
    ha hs ha' hs'
  have hff : f' = f := by
    have h1 := (Dock.slotsOf_some _ _ _).mpr k6
    rw [(Dock.slotsOf_some _ _ _).mpr hf] at h1
    exact (Option.some.inj h1).symm
  subst hff
  obtain ⟨l', hl'⟩ : ∃ l', (T.dock d').log = (S.dock d').log ++ l' := ⟨_, j13⟩
  refine ⟨more ++ more', U, l' ++ l, e', run_trans j1 k1, ?_, by rw [k3, j3], ?_, by rw [← k5, j5 d hne], ?_, List.mem_append_right _ k9⟩
  · intro a h
    rcases List.mem_append.mp h with h | h
    · exact j2 a h
    · exact k2 a h
  · intro y
    rw [k4]
    by_cases hy : y = d'
    · subst hy; rw [j16, hd']
    · rw [j5 y hy]
  · rw [k8, hl', List.append_assoc]

/-- Dock 1 has connection 0 to the hub. -/
def lateR : Nat → Str := fun e => if e = 1 then [98, 58, 49] else [97, 58, 49]

/-- Dock 1, which carries nothing to be discovered, has joined. -/
def lateBoot : List System.Act :=
  [.join 1, .dock 1 .storeHub, .dock 1 (.greet 0 []), .deliver 1, .hub (.work 1), .deliver 0,
   .dock 1 (.work 0 []), .dock 1 (.work 0 []), .deliver 1, .hub (.work 1)]

/-- Dock 0 can join after it, and a call of feature `a` by dock 1 can then complete. -/
example : ∃ S, run (System.State.step sysC sysH lateR []) .init lateBoot = some S ∧
    (∃ more T x, run (System.State.step sysC sysH lateR []) S more = some T ∧ (∀ a ∈ more, harmless a = true) ∧
      T.hub.stubs nameA = [⟨sysH 0 ++ colon :: decimal (x : BitVec 64).toNat, 3, true⟩]) ∧
    ∃ more T, run (System.State.step sysC sysH lateR []) S more = some T ∧ (∀ a ∈ more, harmless a = true) ∧
      (T.dock 1).phase 0 = .returned ⟨[.bool 0 true], []⟩ := by
  obtain ⟨S, h, hv⟩ := sysWitness (C := sysC) (H := sysH) (R := lateR) (as := lateBoot) (f := fun S =>
    ((S.n, (S.dock 0).n, (S.dock 1).n, (S.dock 1).remote nameA, (S.dock 1).sockets.head?, (S.dock 1).peers),
      [S.down (.dock 0), S.down (.dock 1), S.down .hub, (S.dock 0).dead, (S.dock 1).dead, S.hub.dead],
      ((S.dock 0).sockets, (S.dock 0).hubPending, (S.dock 0).peers, S.hub.ports (sysH 0), S.hub.closed 3, (S.hub.stubs nameA).length),
      ((S.queue 0).length, (S.queue 1).length, idleView ((S.dock 1).handler 0), taskView (S.hub.task 1), S.hub.closed 1)))
    (b := ((1, 0, 0, none, some .hub, [(0, .hub)]), [false, false, false, false, false, false],
      ([], false, [], 0, false, 0), (0, 0, true, true, false))) (by decide +kernel)
  simp only [Prod.mk.injEq, List.cons.injEq, and_true] at hv
  obtain ⟨⟨n, n0, n1, h1, h2, h3⟩, ⟨d1, d2, d3, d4, d5, d6⟩, ⟨k1, k2, k3, k4, k5, k6⟩, q1, q2, i1, i2, i3⟩ := hv
  have I := inv_run sysC sysH lateR [] h
  have hf : LastNamed (sysC 0) nameA ⟨nameA, 3, true⟩ := (Dock.slotsOf_some _ _ _).mp (by decide +kernel)
  refine ⟨S, h, ?_, ?_⟩
  · obtain ⟨more, T, x, hr, hg, hx⟩ := C112_join sysC sysH lateR [] lateBoot S h 0 d1 d3 d4 d6 k1 k2 k3 (by rw [n]; decide +kernel)
      (by rw [k4]; decide +kernel) (by rw [n]; exact k5) (by unfold Short; decide +kernel)
    obtain ⟨_, _, _, _, _, _, _, _, _, _, _, _, _, _, _, _, _, _, _, _, _, _, _, hst⟩ := hx
    refine ⟨more, T, x, hr, hg, ?_⟩
    rw [(hst nameA).1 ⟨_, hf, rfl⟩, List.length_eq_zero_iff.mp k6, n]
    rfl
  · obtain ⟨more, T, l, e', hr, hg, _, _, hph, _⟩ := C112_serves sysC sysH lateR [] lateBoot S h 1 0 0 ⟨nameA, methM, [], true⟩ 77
      ⟨[.bool 0 true], []⟩ ⟨nameA, 3, true⟩ d1 d3 d4 d6 k1 k2 k3 (by rw [n]; decide +kernel)
      (by rw [k4]; decide +kernel) (by rw [n]; exact k5) hf rfl (by decide +kernel) h1 d2 d5 h2 (by rw [h3]; simp)
      (List.length_eq_zero_iff.mp q1) (List.length_eq_zero_iff.mp q2) (idleView_iff i1) (taskView_iff i2) i3
      (by intro i hi; rw [req_none I n1] at hi; cases hi) (by intro i hi; rw [req_none I n0] at hi; cases hi)
      (by unfold Short; decide +kernel) (by decide) (by unfold Short; decide +kernel) (by unfold Short; decide +kernel) (by decide +kernel)
      (by unfold Short; decide +kernel) (by decide +kernel) (by unfold Short; decide +kernel)
    rw [n1] at hph
    exact ⟨more, T, hr, hg, hph⟩

end Verif.Props
