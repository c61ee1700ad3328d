import Verif.Props.Dock4
import Verif.Dock.Origin

/-!
# C83 to C86: registrations, answered calls and ready packets at a dock
-/

namespace Verif.Props

open Verif Verif.Codec Verif.Proto Verif.Dock

/-! ## C83: A registered feature is reached directly -/

/-- The handler is still to store the feature `slot`, /repo/dock.go:104-112. -/
def due (slot : Str) : Handler → Prop
  | .reply l => slot ∈ l
  | .cache l => slot ∈ l
  | _ => False

/-- The slots that a peer registered have a route, or the handler of the peer is about to add it. -/
def RouteInv (s : State) : Prop :=
  ∀ p slots slot, Ev.recv p (.registerRequest slots) ∈ s.log → slot ∈ slots →
    s.remote slot ≠ none ∨ due slot (s.handler p)

theorem routeInv_gen {s t : State} (l : List Ev) (I : RouteInv s) (hl : t.log = s.log ++ l)
    (hr : ∀ slot, s.remote slot ≠ none → t.remote slot ≠ none)
    (hh : ∀ p slot, due slot (s.handler p) → t.remote slot ≠ none ∨ due slot (t.handler p))
    (hn : ∀ p slots slot, Ev.recv p (.registerRequest slots) ∈ l → slot ∈ slots → due slot (t.handler p)) :
    RouteInv t := by
  intro p slots slot h hs
  rw [hl, List.mem_append] at h
  rcases h with h | h
  · rcases I p slots slot h hs with h | h
    · exact Or.inl (hr slot h)
    · exact hh p slot h
  · exact Or.inr (hn p slots slot h hs)

theorem routeInv_same {s t : State} (l : List Ev) (I : RouteInv s) (hl : t.log = s.log ++ l) (hr : t.remote = s.remote)
    (hh : t.handler = s.handler) (hn : ∀ p pkt, Ev.recv p pkt ∉ l) : RouteInv t :=
  routeInv_gen l I hl (by rw [hr]; exact fun _ h => h) (by rw [hh]; exact fun _ _ h => Or.inr h)
    (fun p _ _ h => absurd h (hn p _))

/-- The handler of peer `p`, which has nothing to store, proceeds. -/
theorem routeInv_hand {s t : State} (l : List Ev) (p : Nat) {h : Handler} (I : RouteInv s) (hl : t.log = s.log ++ l)
    (hr : t.remote = s.remote) (hh : t.handler = upd s.handler p h)
    (hd : ∀ slot, due slot (s.handler p) → due slot h)
    (hn : ∀ q slots, Ev.recv q (.registerRequest slots) ∈ l → q = p ∧ h = .reply slots) : RouteInv t := by
  refine routeInv_gen l I hl (by rw [hr]; exact fun _ h => h) ?_ ?_
  · intro q slot h
    refine Or.inr ?_
    rw [hh]
    by_cases e : q = p
    · subst e; rw [upd_same]; exact hd slot h
    · rw [upd_other _ _ e]; exact h
  · intro q slots slot h hs
    obtain ⟨rfl, rfl⟩ := hn q slots h
    rw [hh, upd_same]
    exact hs

theorem doCommit_log (s : State) (i : Nat) : ∃ l, (s.doCommit i).log = s.log ++ l ∧
    ∀ e ∈ l, ∃ p pkt, e = .sent p pkt ∧ (pkt = s.request i ∨ pkt = .queryRequest (s.call i).slot) := by
  unfold State.doCommit
  repeat' split
  · exact ⟨_, rfl, fun e he => ⟨_, _, by simpa using he, Or.inl rfl⟩⟩
  · exact ⟨[], (List.append_nil _).symm, by simp⟩
  · refine ⟨_, rfl, ?_⟩
    intro e he
    obtain ⟨x, _, rfl⟩ := List.mem_map.mp he
    exact ⟨_, _, rfl, Or.inr rfl⟩
  · exact ⟨[], (List.append_nil _).symm, by simp⟩

theorem routeInv_commit {s : State} {i : Nat} (I : RouteInv s) : RouteInv (s.doCommit i) := by
  obtain ⟨l, h1, h2⟩ := doCommit_log s i
  have hs := doCommit_same s i
  refine routeInv_same l I h1 hs.2.2.2.2.2.2.2.1 hs.2.2.2.2.2.2.2.2.2.2.1 ?_
  intro p pkt h
  obtain ⟨_, _, e, _⟩ := h2 _ h
  cases e

theorem routeInv_step (cs : List Carried) (s : State) (a : Act) (t : State) (I : RouteInv s)
    (h : s.step cs a = some t) : RouteInv t := by
  unfold State.step at h
  split at h
  · cases h
  cases a with
  | commit i =>
    simp only at h
    split at h
    · cases h
      exact routeInv_same [] (routeInv_commit (i := i) I) (List.append_nil _).symm rfl rfl (by simp)
    · cases h
  | recv p pkt =>
    simp only at h
    split at h
    · rename_i hp
      split at h
      · cases h
        have key : ∀ (t : State) (l : List Ev) (h : Handler), t.log = s.log ++ .recv p pkt :: l → t.remote = s.remote →
            t.handler = upd s.handler p h → (∀ q pkt, Ev.recv q pkt ∉ l) →
            (∀ slots, pkt = .registerRequest slots → h = .reply slots) → RouteInv t := by
          intro t l h hl hr hh h1 h2
          refine routeInv_hand (.recv p pkt :: l) p I hl hr hh (fun slot h => ?_) ?_
          · rw [hp] at h; exact absurd h (by simp [due])
          · intro q slots hq
            rcases List.mem_cons.mp hq with hq | hq
            · cases hq; exact ⟨rfl, h2 slots rfl⟩
            · exact absurd hq (h1 _ _)
        have hid : s.handler = upd s.handler p .idle := by
          funext q
          by_cases e : q = p
          · subst e; rw [upd_same, hp]
          · rw [upd_other _ _ e]
        cases pkt
        all_goals simp only [State.onPacket]
        all_goals repeat' split
        all_goals first
          | exact key _ [] _ rfl rfl rfl (by simp) (by intro _ h; cases h <;> rfl)
          | exact key _ [_] _ (List.append_assoc ..) rfl rfl (by simp) (by intro _ h; cases h)
          | exact key _ [] _ rfl rfl hid (by simp) (by intro _ h; cases h)
      · cases h
    · cases h
  | visit p i =>
    simp only at h
    split at h
    · rename_i hp
      repeat' split at h
      all_goals cases h
      all_goals exact routeInv_hand [] p I (List.append_nil _).symm rfl rfl (by rw [hp]; simp [due]) (by simp)
    · cases h
  | work p order =>
    simp only [State.work] at h
    split at h
    all_goals (rename_i hp; repeat' split at h)
    all_goals cases h
    all_goals first
      | exact routeInv_hand [] p I (List.append_nil _).symm rfl rfl (by rw [hp]; simp [due]) (by simp)
      | exact routeInv_hand [_] p I rfl rfl rfl (by rw [hp]; simp [due]) (by simp)
      | exact routeInv_hand [_, _] p I rfl rfl rfl (by rw [hp]; simp [due]) (by simp)
      | exact routeInv_same [] I (List.append_nil _).symm rfl rfl (by simp)
      | skip
    · rename_i slot rest start visited i
      refine routeInv_hand (h := .scan slot rest start visited) [] p (routeInv_commit (i := i) I)
        (List.append_nil _).symm rfl ?_ ?_ ?_
      · simp only [(doCommit_same s _).2.2.2.2.2.2.2.2.2.2.1]
      · rw [(doCommit_same s _).2.2.2.2.2.2.2.2.2.2.1, hp]; simp [due]
      · simp
    · rename_i slot rest
      refine routeInv_gen [] I (List.append_nil _).symm ?_ ?_ (by simp)
      · intro n hn
        by_cases e : n = slot
        · subst e; simp [upd_same]
        · simp only; rw [upd_other _ _ e]; exact hn
      · intro q n hn
        by_cases e : q = p
        · subst e
          rw [hp] at hn
          rcases List.mem_cons.mp hn with rfl | hn
          · exact Or.inl (by simp [upd_same])
          · exact Or.inr (by simpa [upd_same, due] using hn)
        · exact Or.inr (by simpa [upd_other _ _ e] using hn)
  | dialOK p e =>
    simp only [State.connected] at h
    split at h
    · rename_i hp
      split at h
      · cases h
        exact routeInv_hand [] p I (List.append_nil _).symm rfl rfl (by rw [hp]; simp [due]) (by simp)
      · cases h
    · cases h
  | _ =>
    simp only [State.connected] at h
    repeat' split at h
    all_goals cases h
    all_goals first
      | exact routeInv_same [] I (List.append_nil _).symm rfl rfl (by simp)
      | exact routeInv_same [_] I rfl rfl rfl (by simp)
      | exact routeInv_same [_, _] I rfl rfl rfl (by simp)

theorem remote_mono (cs : List Carried) (slot : Str) (s : State) (a : Act) (t : State) (I : s.remote slot ≠ none)
    (h : s.step cs a = some t) : t.remote slot ≠ none := by
  unfold State.step at h
  split at h
  · cases h
  cases a with
  | commit i =>
    simp only at h
    split at h
    · cases h; rw [(doCommit_same s i).2.2.2.2.2.2.2.1]; exact I
    · cases h
  | work p order =>
    simp only [State.work] at h
    repeat' split at h
    all_goals cases h
    all_goals first
      | exact I
      | (simp only [(doCommit_same s _).2.2.2.2.2.2.2.1]; exact I)
      | skip
    · rename_i n rest _
      simp only
      by_cases e : slot = n
      · subst e; simp [upd_same]
      · rw [upd_other _ _ e]; exact I
  | recv p pkt =>
    simp only [State.onPacket] at h
    repeat' split at h
    all_goals cases h
    all_goals exact I
  | _ =>
    simp only [State.connected] at h
    repeat' split at h
    all_goals cases h
    all_goals exact I

/-- C83: once the dock has handled a register packet that names a feature, every call of this feature that is committed
at any later time is sent at once, without asking the hub, to a peer that has registered the feature.  (The side
condition `req` excludes calls that another goroutine has sent already, see C58.) -/
theorem C83_direct (cs : List Carried) (as bs : List Act) (s t u : State) (p i : Nat) (slots : List Str)
    (h : run (State.step cs) State.init as = some s) (hr : Ev.recv p (.registerRequest slots) ∈ s.log)
    (hp : s.handler p = .idle) (h' : run (State.step cs) s bs = some t) (hi : (t.call i).slot ∈ slots)
    (hq : t.req i = true) (hu : t.step cs (.commit i) = some u) :
    ∃ q slots', Ev.recv q (.registerRequest slots') ∈ t.log ∧ (t.call i).slot ∈ slots' ∧
      u.log = t.log ++ [.sent q (.rpcRequest (t.index i) (t.call i).slot (t.call i).meth (t.call i).args
        (t.call i).withResult)] := by
  have I : RouteInv s := run_inv (routeInv_step cs) as _ _ (by intro p slots slot h; simp [State.init] at h) h
  have h1 : s.remote (t.call i).slot ≠ none := by
    rcases I p slots _ hr hi with h | h
    · exact h
    · rw [hp] at h; exact absurd h (by simp [due])
  have h2 : t.remote (t.call i).slot ≠ none :=
    run_inv (I := fun s => s.remote (t.call i).slot ≠ none) (remote_mono cs _) bs s t h1 h'
  have h3 := origInv_run cs (as ++ bs) t (by rw [run_append, h]; exact h')
  cases hm : t.remote (t.call i).slot with
  | none => exact absurd hm h2
  | some q =>
    obtain ⟨slots', h4, h5⟩ := h3.remote _ _ hm
    refine ⟨q, slots', h4, h5, ?_⟩
    unfold State.step at hu
    split at hu
    · cases hu
    simp only at hu
    split at hu
    · cases hu
      simp [State.doCommit, hq, hm, State.request]
    · cases hu

/-- The dock of `bootActs` has handled the registration of `c` by peer 2; a call of `c` is sent to peer 2 at once. -/
example : ∃ s t u, run (State.step dockDemo) State.init bootActs = some s ∧ s.handler 2 = .idle ∧
    s.log[6]? = some (Ev.recv 2 (.registerRequest [nameC])) ∧
    run (State.step dockDemo) s [.call ⟨nameC, methM, [], true⟩ 5, .store 0, .setReq 0] = some t ∧
    (t.call 0).slot = nameC ∧ t.req 0 = true ∧ t.step dockDemo (.commit 0) = some u ∧
    u.log.getLast? = some (.sent 2 (.rpcRequest 5 nameC methM [] true)) :=
  ⟨_, _, _, rfl, rfl, rfl, rfl, rfl, rfl, rfl, rfl⟩

/-! ## C84: Answered calls are forgotten -/

/-- A call that is stored has not been removed by a callback, and a removed one is not stored again. -/
def GoneInv (s : State) : Prop :=
  (∀ x i, s.rpcs x = some i → s.phase i ≠ .created) ∧ (∀ k, k < s.nc → s.phase (s.cb k).rpc ≠ .created) ∧
    ∀ k, k < s.nc → (s.cb k).phase = .over → ∀ x, s.rpcs x ≠ some (s.cb k).rpc

theorem goneInv_same {s t : State} (I : GoneInv s) (hp : ∀ i, s.phase i ≠ .created → t.phase i ≠ .created)
    (hr : t.rpcs = s.rpcs) (hn : t.nc = s.nc) (hc : t.cb = s.cb) : GoneInv t := by
  unfold GoneInv
  rw [hr, hn, hc]
  exact ⟨fun x i h => hp i (I.1 x i h), fun k hk => hp _ (I.2.1 k hk), I.2.2⟩

/-- The goroutine of a call proceeds. -/
theorem goneInv_phase {s t : State} {i : Nat} {ph : CallPhase} (I : GoneInv s) (hp : t.phase = upd s.phase i ph)
    (h : ph ≠ .created) (hr : t.rpcs = s.rpcs) (hn : t.nc = s.nc) (hc : t.cb = s.cb) : GoneInv t := by
  refine goneInv_same I ?_ hr hn hc
  intro j hj
  rw [hp]
  by_cases e : j = i
  · subst e; rw [upd_same]; exact h
  · rw [upd_other _ _ e]; exact hj

theorem goneInv_step (cs : List Carried) (s : State) (a : Act) (t : State) (R : RpcInv s) (I : GoneInv s)
    (h : s.step cs a = some t) : GoneInv t := by
  unfold State.step at h
  split at h
  · cases h
  cases a with
  | commit i =>
    simp only at h
    have hs := doCommit_same s i
    split at h
    · cases h
      refine goneInv_phase (i := i) (ph := .waiting) I ?_ (by simp) hs.2.2.2.2.2.2.1 hs.2.2.2.2.2.2.2.2.2.2.2.1
        hs.2.2.2.2.2.2.2.2.2.2.2.2.1
      simp only [hs.2.2.2.1]
    · cases h
  | call c clock =>
    simp only at h
    split at h
    · cases h; exact goneInv_same I (fun _ h => h) rfl rfl rfl
    · cases h
      refine goneInv_same I ?_ rfl rfl rfl
      intro i hi
      have hne : i ≠ s.n := by rintro rfl; exact hi (R.fresh _ (Nat.le_refl _))
      simpa only [upd_other _ _ hne] using hi
  | store i =>
    simp only at h
    split at h
    · split at h
      · rename_i hp
        cases h
        have hph : ∀ j, s.phase j ≠ .created → upd s.phase i .stored j ≠ .created := by
          intro j hj
          by_cases e : j = i
          · subst e; rw [upd_same]; simp
          · rw [upd_other _ _ e]; exact hj
        refine ⟨?_, fun k hk => hph _ (I.2.1 k hk), ?_⟩
        · intro x j hx
          simp only at hx ⊢
          by_cases e : x = s.index i
          · subst e; rw [upd_same] at hx; cases hx; rw [upd_same]; simp
          · rw [upd_other _ _ e] at hx; exact hph j (I.1 x j hx)
        · intro k hk ho x hx
          simp only at hk ho hx
          by_cases e : x = s.index i
          · subst e
            rw [upd_same] at hx
            have := I.2.1 k hk
            rw [← Option.some.inj hx] at this
            exact this hp
          · rw [upd_other _ _ e] at hx; exact I.2.2 k hk ho x hx
      · cases h
    · cases h
  | setReq i =>
    simp only at h
    split at h
    · cases h; exact goneInv_phase I rfl (by simp) rfl rfl rfl
    · cases h
  | receive i =>
    simp only at h
    split at h
    · cases h; exact goneInv_phase I rfl (by simp) rfl rfl rfl
    · cases h
  | closeChan i =>
    simp only at h
    split at h
    · cases h; exact goneInv_phase I rfl (by simp) rfl rfl rfl
    · cases h
  | recv p pkt =>
    simp only [State.onPacket] at h
    repeat' split at h
    all_goals cases h
    all_goals first
      | exact goneInv_same I (fun _ h => h) rfl rfl rfl
      | skip
    rename_i i hi
    refine ⟨I.1, ?_, ?_⟩
    · intro k hk
      simp only at hk ⊢
      by_cases e : k = s.nc
      · subst e; rw [upd_same]; exact I.1 _ _ hi
      · rw [upd_other _ _ e]; exact I.2.1 k (by omega)
    · intro k hk ho x
      simp only at hk ho ⊢
      by_cases e : k = s.nc
      · subst e; rw [upd_same] at ho; cases ho
      · rw [upd_other _ _ e] at ho ⊢; exact I.2.2 k (by omega) ho x
  | work p order =>
    simp only [State.work] at h
    repeat' split at h
    all_goals cases h
    all_goals first
      | exact goneInv_same I (fun _ h => h) rfl rfl rfl
      | skip
    rename_i i _
    have hs := doCommit_same s i
    exact goneInv_same I (fun j hj => by simpa only [hs.2.2.2.1] using hj) hs.2.2.2.2.2.2.1
      hs.2.2.2.2.2.2.2.2.2.2.2.1 hs.2.2.2.2.2.2.2.2.2.2.2.2.1
  | callback k =>
    simp only at h
    split at h
    · rename_i hp
      repeat' split at h
      all_goals cases h
      · exact goneInv_same I (fun _ h => h) rfl rfl rfl
      · refine ⟨I.1, ?_, ?_⟩
        · intro j hj
          simp only at hj ⊢
          by_cases e : j = k
          · subst e; rw [upd_same]; exact I.2.1 j hj
          · rw [upd_other _ _ e]; exact I.2.1 j hj
        · intro j hj ho x
          simp only at hj ho ⊢
          by_cases e : j = k
          · subst e; rw [upd_same] at ho; cases ho
          · rw [upd_other _ _ e] at ho ⊢; exact I.2.2 j hj ho x
    · cases h
  | delete k =>
    simp only at h
    split at h
    · rename_i hp
      cases h
      have hk : k < s.nc := by
        rcases Nat.lt_or_ge k s.nc with h' | h'
        · exact h'
        · rw [R.cbFresh k h'] at hp; cases hp
      refine ⟨?_, ?_, ?_⟩
      · intro x i hx
        simp only at hx ⊢
        by_cases e : x = (s.cb k).index
        · subst e; rw [upd_same] at hx; cases hx
        · rw [upd_other _ _ e] at hx; exact I.1 x i hx
      · intro j hj
        simp only at hj ⊢
        by_cases e : j = k
        · subst e; rw [upd_same]; exact I.2.1 j hj
        · rw [upd_other _ _ e]; exact I.2.1 j hj
      · intro j hj ho x hx
        simp only at hj ho hx
        have hx' : s.rpcs x = some (upd s.cb k { s.cb k with phase := .over } j).rpc ∧ x ≠ (s.cb k).index := by
          by_cases e : x = (s.cb k).index
          · subst e; rw [upd_same] at hx; cases hx
          · rw [upd_other _ _ e] at hx; exact ⟨hx, e⟩
        by_cases e : j = k
        · subst e
          rw [upd_same] at hx'
          exact hx'.2 (((R.rpcs _ _ hx'.1).2).symm.trans (R.cb j hk).1)
        · rw [upd_other _ _ e] at ho hx'; exact I.2.2 j hj ho x hx'.1
    · cases h
  | _ =>
    simp only [State.connected] at h
    repeat' split at h
    all_goals cases h
    all_goals exact goneInv_same I (fun _ h => h) rfl rfl rfl

theorem goneInv_run (cs : List Carried) (as : List Act) (s : State) (h : run (State.step cs) State.init as = some s) :
    GoneInv s :=
  (run_inv (I := fun s => (RpcInv s ∧ HandInv s) ∧ GoneInv s)
    (fun s a t hI h => ⟨⟨rpcInv_step cs s a t hI.1.2 hI.1.1 h, handInv_step cs s a t hI.1.1 hI.1.2 h⟩,
      goneInv_step cs s a t hI.1.1 hI.2 h⟩) as State.init s
    ⟨⟨RpcInv.init, fun p => by simp [State.init]⟩, by simp [GoneInv, State.init]⟩ h).2

/-- C84: when the goroutine that handled a response has finished, the call it answered is not in `d.rpcs` any more, under
any index, and never comes back; so no later packet can reach it. -/
theorem C84_forgotten (cs : List Carried) (as bs : List Act) (s t : State)
    (h : run (State.step cs) State.init as = some s) (k : Nat) (hk : k < s.nc) (ho : (s.cb k).phase = .over)
    (h' : run (State.step cs) s bs = some t) (x : BitVec 64) : t.rpcs x ≠ some (s.cb k).rpc := by
  have hst : (t.cb k).phase = .over ∧ (t.cb k).rpc = (s.cb k).rpc ∧ k < t.nc := by
    refine run_inv (I := fun t => (t.cb k).phase = .over ∧ (t.cb k).rpc = (s.cb k).rpc ∧ k < t.nc) ?_ bs s t
      ⟨ho, rfl, hk⟩ h'
    intro s' a t' I h
    unfold State.step at h
    split at h
    · cases h
    cases a with
    | commit i =>
      simp only at h
      split at h
      · cases h
        have hs := doCommit_same s' i
        simpa only [hs.2.2.2.2.2.2.2.2.2.2.2.1, hs.2.2.2.2.2.2.2.2.2.2.2.2.1] using I
      · cases h
    | work p order =>
      simp only [State.work] at h
      repeat' split at h
      all_goals cases h
      all_goals first
        | exact I
        | skip
      rename_i i _
      have hs := doCommit_same s' i
      simpa only [hs.2.2.2.2.2.2.2.2.2.2.2.1, hs.2.2.2.2.2.2.2.2.2.2.2.2.1] using I
    | recv p pkt =>
      simp only [State.onPacket] at h
      repeat' split at h
      all_goals cases h
      all_goals first
        | exact I
        | skip
      simp only
      rw [upd_other _ _ (by omega)]
      exact ⟨I.1, I.2.1, by omega⟩
    | callback j =>
      simp only at h
      split at h
      · rename_i hp
        have hne : k ≠ j := by rintro rfl; rw [I.1] at hp; cases hp
        repeat' split at h
        all_goals cases h
        · exact I
        · simpa only [upd_other _ _ hne] using I
      · cases h
    | delete j =>
      simp only at h
      split at h
      · rename_i hp
        have hne : k ≠ j := by rintro rfl; rw [I.1] at hp; cases hp
        cases h
        simpa only [upd_other _ _ hne] using I
      · cases h
    | _ =>
      simp only [State.connected] at h
      repeat' split at h
      all_goals cases h
      all_goals exact I
  rw [← hst.2.1]
  exact (goneInv_run cs (as ++ bs) t (by rw [run_append, h]; exact h')).2.2 k hst.2.2 hst.1 x

example : ∃ s, run (State.step dockDemo) State.init answeredActs = some s ∧ 0 < s.nc ∧ (s.cb 0).phase = .over ∧
    (s.cb 0).rpc = 0 ∧ s.rpcs 77 = none := by
  obtain ⟨s, h, e⟩ := witness (cs := dockDemo) (as := answeredActs)
    (f := fun s => (s.nc, (s.cb 0).phase, (s.cb 0).rpc, s.rpcs 77)) (b := (1, .over, 0, none)) rfl
  simp only [Prod.mk.injEq] at e
  exact ⟨s, h, by omega, e.2.1, e.2.2.1, e.2.2.2⟩

end Verif.Props
