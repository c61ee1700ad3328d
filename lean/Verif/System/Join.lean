import Verif.System.Pair
import Verif.Hub.Live
import Verif.Hub.Hist

/-! # A dock joins a running system -/

namespace Verif.Hub

open Verif Verif.Codec Verif.Proto

/-- The stubs after a registration of peer `p`. -/
def addTo (addr : Str) (p : Nat) (slots : List Str) (t : Str → List Stub) : Str → List Stub :=
  slots.foldl (fun t x => upd t x (t x ++ [⟨addr, p, false⟩])) t

/-- The stubs after peer `p` has reported ready. -/
def markAll (p : Nat) (slots : List Str) (t : Str → List Stub) : Str → List Stub :=
  slots.foldl (fun t x => upd t x (mark p (t x))) t

theorem addTo_other (addr : Str) (p : Nat) (slots : List Str) (t : Str → List Stub) (x : Str) (h : x ∉ slots) :
    addTo addr p slots t x = t x := by
  induction slots generalizing t with
  | nil => rfl
  | cons y l ih =>
    have h' := not_or.mp (fun hh => h (List.mem_cons.mpr hh))
    show addTo addr p l (upd t y (t y ++ [_])) x = t x
    rw [ih _ h'.2, upd_other _ _ h'.1]

theorem addTo_mem (addr : Str) (p : Nat) (slots : List Str) (t : Str → List Stub) (x : Str) (hn : slots.Nodup) (h : x ∈ slots) :
    addTo addr p slots t x = t x ++ [⟨addr, p, false⟩] := by
  induction slots generalizing t with
  | nil => cases h
  | cons y l ih =>
    rw [List.nodup_cons] at hn
    show addTo addr p l (upd t y (t y ++ [_])) x = _
    rcases List.mem_cons.mp h with rfl | hm
    · rw [addTo_other _ _ _ _ _ hn.1, upd_same]
    · rw [ih _ hn.2 hm, upd_other]
      intro e; subst e; exact hn.1 hm

theorem markAll_other (p : Nat) (slots : List Str) (t : Str → List Stub) (x : Str) (h : x ∉ slots) :
    markAll p slots t x = t x := by
  induction slots generalizing t with
  | nil => rfl
  | cons y l ih =>
    have h' := not_or.mp (fun hh => h (List.mem_cons.mpr hh))
    show markAll p l (upd t y _) x = t x
    rw [ih _ h'.2, upd_other _ _ h'.1]

theorem markAll_mem (p : Nat) (slots : List Str) (t : Str → List Stub) (x : Str) (hn : slots.Nodup) (h : x ∈ slots) :
    markAll p slots t x = mark p (t x) := by
  induction slots generalizing t with
  | nil => cases h
  | cons y l ih =>
    rw [List.nodup_cons] at hn
    show markAll p l (upd t y _) x = _
    rcases List.mem_cons.mp h with rfl | hm
    · rw [markAll_other _ _ _ _ hn.1, upd_same]
    · rw [ih _ hn.2 hm, upd_other]
      intro e; subst e; exact hn.1 hm

theorem mark_last (p : Nat) (l : List Stub) (addr : Str) (h : ∀ st ∈ l, st.peer ≠ p) :
    mark p (l ++ [⟨addr, p, false⟩]) = l ++ [⟨addr, p, true⟩] := by
  induction l with
  | nil => simp [mark]
  | cons st l ih =>
    simp only [List.cons_append, mark]
    rw [if_neg (h st (by simp)), ih (fun st hs => h st (List.mem_cons_of_mem _ hs))]

/-- The hub is busy for a peer only because of a packet of the peer. -/
structure TaskInv (s : State) : Prop where
  heard : ∀ p, s.task p ≠ .idle → (∃ slots port, Ev.register p slots port ∈ s.log) ∨ ∃ slots, Ev.ready p slots ∈ s.log

theorem taskInv_step (R : Nat → Str) (black : List Int) (s : State) (a : Act) (t : State) (I : TaskInv s)
    (h : s.step R black a = some t) : TaskInv t := by
  have grow : ∀ l : List Ev, ∀ p, s.task p ≠ .idle →
      (∃ slots port, Ev.register p slots port ∈ s.log ++ l) ∨ ∃ slots, Ev.ready p slots ∈ s.log ++ l := by
    intro l p hp
    rcases I.heard p hp with ⟨slots, port, h⟩ | ⟨slots, h⟩
    · exact Or.inl ⟨slots, port, List.mem_append_left _ h⟩
    · exact Or.inr ⟨slots, List.mem_append_left _ h⟩
  have same : ∀ l : List Ev, t.task = s.task → t.log = s.log ++ l → TaskInv t := by
    intro l h1 h2
    constructor
    intro p hp
    rw [h1] at hp
    rw [h2]
    exact grow l p hp
  have put : ∀ (l : List Ev) (p : Nat) (ta : Task), t.task = upd s.task p ta → t.log = s.log ++ l →
      (s.task p ≠ .idle ∨ (∃ slots port, Ev.register p slots port ∈ l) ∨ (∃ slots, Ev.ready p slots ∈ l)) → TaskInv t := by
    intro l p ta h1 h2 h3
    constructor
    intro q hq
    rw [h1] at hq
    rw [h2]
    by_cases e : q = p
    · subst e
      rcases h3 with h3 | ⟨slots, port, h3⟩ | ⟨slots, h3⟩
      · exact grow l q h3
      · exact Or.inl ⟨slots, port, List.mem_append_right _ h3⟩
      · exact Or.inr ⟨slots, List.mem_append_right _ h3⟩
    · rw [upd_other _ _ e] at hq
      exact grow l q hq
  unfold State.step at h
  split at h
  · cases h
  cases a with
  | recv p pkt =>
    simp only at h
    repeat' split at h
    all_goals cases h
    · exact same [] rfl (List.append_nil _).symm
    · exact put [.register p _ _] p _ rfl rfl (Or.inr (Or.inl ⟨_, _, List.mem_singleton.mpr rfl⟩))
    · exact put [.ready p _] p _ rfl rfl (Or.inr (Or.inr ⟨_, List.mem_singleton.mpr rfl⟩))
    · exact same [_] rfl rfl
    · exact same [] rfl (List.append_nil _).symm
  | work p =>
    simp only at h
    split at h
    all_goals first | (cases h; done) | skip
    all_goals (rename_i hh; cases h)
    · exact put [_] p _ rfl rfl (Or.inl (by rw [hh]; simp))
    · exact put [_] p _ rfl rfl (Or.inl (by rw [hh]; simp))
    · exact put [] p _ rfl (List.append_nil _).symm (Or.inl (by rw [hh]; simp))
    · exact put [] p _ rfl (List.append_nil _).symm (Or.inl (by rw [hh]; simp))
  | _ =>
    simp only at h
    repeat' split at h
    all_goals first | (cases h; done) | skip
    all_goals cases h
    all_goals first
      | exact same [] rfl (List.append_nil _).symm
      | exact same [_] rfl rfl

theorem taskInv_run (R : Nat → Str) (black : List Int) {acts : List Act} {s : State}
    (h : run (State.step R black) .init acts = some s) : TaskInv s :=
  run_inv (taskInv_step R black) acts _ _ (by constructor; intro p hp; exact absurd rfl hp) h

section
variable {R : Nat → Str} {black : List Int}

/-- The loop over the slots of a registration, and the response. -/
theorem add_all (s : State) (p : Nat) (addr : Str) (port : Nat) (slots : List Str) (hd : s.dead = false)
    (ht : s.task p = .adding addr port slots) : ∃ as, (∀ a ∈ as, a = .work p) ∧
    run (State.step R black) s as = some { s with
      stubs := addTo addr p slots s.stubs, task := upd s.task p .idle
      log := s.log ++ (slots.map (fun x => Ev.added p x addr) ++ [.sent p (.registerResponse (BitVec.ofNat 64 port))]) } := by
  induction slots generalizing s with
  | nil => exact ⟨[.work p], by simp, by simp [run, State.step, hd, ht, addTo]⟩
  | cons x l ih =>
    let u : State := { s with
      stubs := upd s.stubs x (s.stubs x ++ [⟨addr, p, false⟩])
      task := upd s.task p (.adding addr port l)
      log := s.log ++ [.added p x addr] }
    have h1 : s.step R black (.work p) = some u := by
      unfold State.step
      rw [if_neg (by rw [hd]; simp)]
      simp only [ht]
      rfl
    obtain ⟨as, ha, hr⟩ := ih u hd (upd_same ..)
    refine ⟨.work p :: as, by simpa using ha, ?_⟩
    simp only [run, h1]
    rw [hr]
    simp [u, upd_upd, addTo]

/-- The loop over the slots of a ready packet. -/
theorem mark_all (s : State) (p : Nat) (slots : List Str) (hd : s.dead = false)
    (ht : s.task p = .marking slots) : ∃ as, (∀ a ∈ as, a = .work p) ∧
    run (State.step R black) s as = some { s with
      stubs := markAll p slots s.stubs, task := upd s.task p .idle } := by
  induction slots generalizing s with
  | nil => exact ⟨[.work p], by simp, by simp [run, State.step, hd, ht, markAll]⟩
  | cons x l ih =>
    let u : State := { s with
      stubs := upd s.stubs x (mark p (s.stubs x))
      task := upd s.task p (.marking l) }
    have h1 : s.step R black (.work p) = some u := by
      unfold State.step
      rw [if_neg (by rw [hd]; simp)]
      simp only [ht]
      rfl
    obtain ⟨as, ha, hr⟩ := ih u hd (upd_same ..)
    refine ⟨.work p :: as, by simpa using ha, ?_⟩
    simp only [run, h1]
    rw [hr]
    simp [u, upd_upd, markAll]

/-- A registration. -/
theorem register_all (s : State) (p : Nat) (slots : List Str) (hd : s.dead = false) (ht : s.task p = .idle)
    (hc : s.closed p = false) (hp : nextPort black (s.ports (pickIP (R p))) ≤ cMaxPortRange) :
    ∃ as, (∀ a ∈ as, a = .work p) ∧ run (State.step R black) s (.recv p (.registerRequest slots) :: as) = some { s with
      ports := upd s.ports (pickIP (R p)) (nextPort black (s.ports (pickIP (R p))))
      stubs := addTo (fullAddr (pickIP (R p)) (nextPort black (s.ports (pickIP (R p))))) p slots s.stubs
      log := s.log ++ (.register p slots (nextPort black (s.ports (pickIP (R p)))) ::
        (slots.map (fun x => Ev.added p x (fullAddr (pickIP (R p)) (nextPort black (s.ports (pickIP (R p)))))) ++
          [.sent p (.registerResponse (BitVec.ofNat 64 (nextPort black (s.ports (pickIP (R p))))))])) } := by
  generalize hport : nextPort black (s.ports (pickIP (R p))) = port at *
  let u : State := { s with
    ports := upd s.ports (pickIP (R p)) port
    task := upd s.task p (.adding (fullAddr (pickIP (R p)) port) port slots)
    log := s.log ++ [.register p slots port] }
  have h1 : s.step R black (.recv p (.registerRequest slots)) = some u := by
    unfold State.step
    rw [if_neg (by rw [hd]; simp)]
    simp only [ht, hc, hport]
    rw [if_neg (by omega)]
  obtain ⟨as, ha, hr⟩ := add_all (R := R) (black := black) u p _ port slots hd (upd_same ..)
  refine ⟨as, ha, ?_⟩
  simp only [run, h1]
  rw [hr]
  have hi : upd s.task p .idle = s.task := by rw [← ht]; funext q; by_cases e : q = p <;> simp [e, upd_other]
  simp [u, upd_upd, hi]

/-- A ready packet. -/
theorem ready_all (s : State) (p : Nat) (slots : List Str) (hd : s.dead = false) (ht : s.task p = .idle)
    (hc : s.closed p = false) :
    ∃ as, (∀ a ∈ as, a = .work p) ∧ run (State.step R black) s (.recv p (.ready slots) :: as) = some { s with
      stubs := markAll p slots s.stubs, log := s.log ++ [.ready p slots] } := by
  let u : State := { s with
    task := upd s.task p (.marking slots)
    log := s.log ++ [.ready p slots] }
  have h1 : s.step R black (.recv p (.ready slots)) = some u := by
    unfold State.step
    rw [if_neg (by rw [hd]; simp)]
    simp only [ht, hc]
    rfl
  obtain ⟨as, ha, hr⟩ := mark_all (R := R) (black := black) u p slots hd (upd_same ..)
  refine ⟨as, ha, ?_⟩
  simp only [run, h1]
  rw [hr]
  have hi : upd s.task p .idle = s.task := by rw [← ht]; funext q; by_cases e : q = p <;> simp [e, upd_other]
  simp [u, upd_upd, hi]

end

end Verif.Hub

namespace Verif.System

open Verif Verif.Codec Verif.Proto

/-- Dock `d`, in state `s`, has connected to the hub, in state `t`, since `S0`; `a` is on its way to the dock and `b` to
the hub; the other docks and connections are as in `S0`. -/
structure Joining (S0 S : State) (d : Nat) (s : Dock.State) (t : Hub.State) (a b : List Proto) : Prop where
  n : S.n = S0.n + 1
  owner : S.owner = upd (upd S0.owner (2 * S0.n) (some (.dock d))) (2 * S0.n + 1) (some .hub)
  dock : S.dock d = s
  hub : S.hub = t
  down : S.down = S0.down
  rest : ∀ x, x ≠ d → S.dock x = S0.dock x
  queue : S.queue (2 * S0.n) = a
  queue' : S.queue (2 * S0.n + 1) = b
  old : ∀ x, x < 2 * S0.n → S.queue x = S0.queue x

section
variable {C : Nat → List Dock.Carried} {H : Nat → Str} {R : Nat → Str} {black : List Int}
variable {S0 S : State} {d : Nat} {s s' : Dock.State} {t t' : Hub.State} {a b : List Proto}

theorem Joining.own (J : Joining S0 S d s t a b) : S.owner (2 * S0.n) = some (.dock d) := by
  rw [J.owner, upd_other _ _ (by omega), upd_same]

theorem Joining.own' (J : Joining S0 S d s t a b) : S.owner (2 * S0.n + 1) = some .hub := by
  rw [J.owner, upd_same]

theorem Joining.setDock {l : List Dock.Ev} (J : Joining S0 S d s t a b) (hl : s'.log = s.log ++ l)
    (ho : ∀ y, y ≠ 2 * S0.n → dockSent y l = []) :
    Joining S0 (S.setDock d s') d s' t a (b ++ dockSent (2 * S0.n) l) := by
  have hl' : s'.log = (S.dock d).log ++ l := by rw [J.dock]; exact hl
  refine ⟨J.n, J.owner, ?_, J.hub, J.down, ?_, ?_, ?_, ?_⟩
  · show upd S.dock d s' d = s'
    simp
  · intro x hx
    show upd S.dock d s' x = _
    rw [upd_other _ _ hx]
    exact J.rest x hx
  · rw [queue_setDock hl', J.queue, other_even, J.own', if_neg (by simp), List.append_nil]
  · rw [queue_setDock hl', J.queue', other_odd, if_pos J.own]
  · intro x hx
    rw [queue_setDock hl', J.old x hx, ho (other x) (by unfold other; split <;> omega)]
    split <;> simp

theorem Joining.setHub {l : List Hub.Ev} (J : Joining S0 S d s t a b) (hl : t'.log = t.log ++ l)
    (ho : ∀ y, y ≠ 2 * S0.n + 1 → hubSent y l = []) :
    Joining S0 (S.setHub t') d s t' (a ++ hubSent (2 * S0.n + 1) l) b := by
  have hl' : t'.log = S.hub.log ++ l := by rw [J.hub]; exact hl
  refine ⟨J.n, J.owner, J.dock, rfl, J.down, J.rest, ?_, ?_, ?_⟩
  · rw [queue_setHub hl', J.queue, other_even, if_pos J.own']
  · rw [queue_setHub hl', J.queue', other_odd, J.own, if_neg (by simp), List.append_nil]
  · intro x hx
    rw [queue_setHub hl', J.old x hx, ho (other x) (by unfold other; split <;> omega)]
    split <;> simp

/-- The dock takes steps of its own. -/
theorem Joining.solo {l : List Dock.Ev} {as : List Dock.Act} (J : Joining S0 S d s t a b) (hd : S0.down (.dock d) = false)
    (h : run (Dock.State.step (C d)) s as = some s') (ha : ∀ x ∈ as, dockAlone x = true) (ha' : ∀ x ∈ as, ∀ q, x ≠ .dialFail q)
    (hl : s'.log = s.log ++ l) (ho : ∀ y, y ≠ 2 * S0.n → dockSent y l = []) :
    ∃ T, Gets C H R black S T ∧ Joining S0 T d s' t a (b ++ dockSent (2 * S0.n) l) :=
  ⟨S.setDock d s', ⟨_, run_dock (by rw [J.dock]; exact h) (by rw [J.down]; exact hd) ha, map_harmless ha'⟩, J.setDock hl ho⟩

/-- The dock takes a packet. -/
theorem Joining.take {pkt q : Proto} {l : List Dock.Ev} {as : List Dock.Act} (J : Joining S0 S d s t (pkt :: a) b)
    (hd : S0.down (.dock d) = false) (hf : fate pkt = .arrives q)
    (h : run (Dock.State.step (C d)) s (.recv (2 * S0.n) q :: as) = some s')
    (ha : ∀ x ∈ as, dockAlone x = true) (ha' : ∀ x ∈ as, ∀ q, x ≠ .dialFail q)
    (hl : s'.log = s.log ++ l) (ho : ∀ y, y ≠ 2 * S0.n → dockSent y l = []) :
    ∃ T, Gets C H R black S T ∧ Joining S0 T d s' t a (b ++ dockSent (2 * S0.n) l) := by
  have hr := run_deliver (C := C) (H := H) (R := R) (black := black) J.queue hf J.own (by rw [J.down]; exact hd)
    (by rw [J.dock]; exact h) ha
  refine ⟨_, ⟨_, hr, ?_⟩, ?_⟩
  · intro x hx
    rcases List.mem_cons.mp hx with rfl | hx
    · rfl
    · exact map_harmless ha' x hx
  · refine Joining.setDock (s := s) ?_ hl ho
    refine ⟨J.n, J.owner, J.dock, J.hub, J.down, J.rest, ?_, ?_, ?_⟩
    · show upd S.queue (2 * S0.n) a (2 * S0.n) = a
      simp
    · show upd S.queue (2 * S0.n) a (2 * S0.n + 1) = b
      rw [upd_other _ _ (by omega), J.queue']
    · intro x hx
      show upd S.queue (2 * S0.n) a x = _
      rw [upd_other _ _ (by omega), J.old x hx]

/-- The hub takes a packet. -/
theorem Joining.hubTakes {pkt q : Proto} {l : List Hub.Ev} {as : List Hub.Act} (J : Joining S0 S d s t a (pkt :: b))
    (hd : S0.down .hub = false) (hf : fate pkt = .arrives q)
    (h : run (Hub.State.step R black) t (.recv (2 * S0.n + 1) q :: as) = some t')
    (ha : ∀ x ∈ as, hubAlone x = true)
    (hl : t'.log = t.log ++ l) (ho : ∀ y, y ≠ 2 * S0.n + 1 → hubSent y l = []) :
    ∃ T, Gets C H R black S T ∧ Joining S0 T d s t' (a ++ hubSent (2 * S0.n + 1) l) b := by
  have hr := run_deliver_hub (C := C) (H := H) (R := R) (black := black) J.queue' hf J.own' (by rw [J.down]; exact hd)
    (by rw [J.hub]; exact h) ha
  refine ⟨_, ⟨_, hr, ?_⟩, ?_⟩
  · intro x hx
    rcases List.mem_cons.mp hx with rfl | hx
    · rfl
    · exact map_harmless_hub x hx
  · refine Joining.setHub (t := t) ?_ hl ho
    refine ⟨J.n, J.owner, J.dock, J.hub, J.down, J.rest, ?_, ?_, ?_⟩
    · show upd S.queue (2 * S0.n + 1) b (2 * S0.n) = a
      rw [upd_other _ _ (by omega), J.queue]
    · show upd S.queue (2 * S0.n + 1) b (2 * S0.n + 1) = b
      simp
    · intro x hx
      show upd S.queue (2 * S0.n + 1) b x = _
      rw [upd_other _ _ (by omega), J.old x hx]

/-- The hub has heard nothing of connections to come. -/
theorem hub_fresh (I : Inv C H R black S) {p : Nat} (hp : 2 * S.n ≤ p) : hubGot p S.hub.log = [] := by
  have h := I.got.hub p
  rw [I.shape.fresh p hp, if_neg (by simp)] at h
  exact List.sublist_nil.mp h

theorem mem_hubGot_register {p : Nat} {slots : List Str} {port : Nat} {log : List Hub.Ev} (h : Hub.Ev.register p slots port ∈ log) :
    Proto.registerRequest slots ∈ hubGot p log := List.mem_filterMap.mpr ⟨_, h, by simp⟩

theorem mem_hubGot_ready' {p : Nat} {slots : List Str} {log : List Hub.Ev} (h : Hub.Ev.ready p slots ∈ log) :
    Proto.ready slots ∈ hubGot p log := List.mem_filterMap.mpr ⟨_, h, by simp⟩

theorem task_fresh (I : Inv C H R black S) {p : Nat} (hp : 2 * S.n ≤ p) : S.hub.task p = .idle := by
  obtain ⟨as, hr⟩ := I.parts.hub
  refine Classical.byContradiction fun hn => ?_
  have hf := hub_fresh I hp
  rcases (Hub.taskInv_run R black hr).heard p hn with ⟨slots, port, h⟩ | ⟨slots, h⟩
  · have := mem_hubGot_register h; rw [hf] at this; cases this
  · have := mem_hubGot_ready' h; rw [hf] at this; cases this

theorem stub_fresh (I : Inv C H R black S) {p : Nat} (hp : 2 * S.n ≤ p) (slot : Str) : ∀ st ∈ S.hub.stubs slot, st.peer ≠ p := by
  obtain ⟨as, hr⟩ := I.parts.hub
  rintro st hs rfl
  obtain ⟨slots, port, h, _⟩ := (Hub.hubInv_run R black hr).stub.registered slot st hs
  have := mem_hubGot_register h
  rw [hub_fresh I hp] at this
  cases this

end

end Verif.System
