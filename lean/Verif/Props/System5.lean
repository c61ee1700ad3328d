import Verif.Props.System4
import Verif.Props.Dock7

/-!
# C64, C94: docks that have stopped

The variables are as in `Verif.Props.System1`.
-/

namespace Verif.Props

open Verif Verif.Codec Verif.Proto Verif.System
open Verif.Dock (Carried LastNamed)

variable (C : Nat → List Carried) (H : Nat → Str) (R : Nat → Str) (black : List Int)

set_option synthInstance.maxSize 4096
set_option synthInstance.maxHeartbeats 200000

/-! ## What a step does to a process -/

/-- A dock takes a step only if it has not stopped; a process that has stopped stays so; the ends of connections keep
their owners. -/
structure Moves (S T : System.State) : Prop where
  dock : ∀ d, T.dock d = S.dock d ∨ (S.down (.dock d) = false ∧ ∃ a, (S.dock d).step (C d) a = some (T.dock d))
  down : ∀ p, S.down p = true → T.down p = true
  owner : ∀ e p, S.owner e = some p → T.owner e = some p

theorem moves_setDock {S : System.State} {d : Nat} {a : Dock.Act} {s : Dock.State}
    (h : (S.dock d).step (C d) a = some s) (hd : S.down (.dock d) = false) : Moves C S (S.setDock d s) := by
  refine ⟨?_, fun _ h => h, fun _ _ h => h⟩
  intro d'
  by_cases e : d' = d
  · subst e
    refine Or.inr ⟨hd, a, ?_⟩
    simpa [System.State.setDock, upd_same] using h
  · left; simp only [System.State.setDock, upd_other _ _ e]

theorem moves_idle {S T : System.State} (h1 : T.dock = S.dock) (h2 : ∀ p, S.down p = true → T.down p = true)
    (h3 : T.owner = S.owner) : Moves C S T :=
  ⟨fun d => Or.inl (by rw [h1]), h2, fun e p h => by rw [h3]; exact h⟩

theorem moves_down {S T : System.State} {q : Proc} (h1 : T.dock = S.dock) (h2 : T.down = upd S.down q true)
    (h3 : T.owner = S.owner) : Moves C S T := by
  refine moves_idle C h1 ?_ h3
  intro p hp
  rw [h2]
  by_cases e : p = q
  · subst e; rw [upd_same]
  · rw [upd_other _ _ e]; exact hp

theorem moves_step (S : System.State) (a : System.Act) (T : System.State) (I : System.Inv C H R black S)
    (h : S.step C H R black a = some T) : Moves C S T := by
  have conn : ∀ (d : Nat) (b : Proc) (port : BitVec 64) (a : Dock.Act) (s : Dock.State), S.down (.dock d) = false →
      (S.dock d).step (C d) a = some s → Moves C S ((S.connect (.dock d) b port).setDock d s) := by
    intro d b port a s hd h
    have M := moves_setDock C (S := S.connect (.dock d) b port) h hd
    refine ⟨M.dock, M.down, ?_⟩
    intro e p he
    refine M.owner e p ?_
    rcases Nat.lt_or_ge e (2 * S.n) with h | h
    · rw [System.owner_connect h]; exact he
    · rw [I.shape.fresh e h] at he; cases he
  unfold System.State.step at h
  cases a with
  | dock d a =>
    simp only at h
    split at h
    · rename_i hd
      split at h
      · rename_i h1; cases h; exact moves_setDock C h1 hd.1
      · cases h
    · cases h
  | hub a =>
    simp only at h
    repeat' split at h
    all_goals cases h
    exact moves_idle C rfl (fun _ h => h) rfl
  | join d =>
    simp only at h
    split at h
    · rename_i hd
      split at h
      · rename_i h1; cases h; exact conn d .hub 0 _ _ hd.1 h1
      · cases h
    · cases h
  | dial d p d' port =>
    simp only at h
    split at h
    · split at h
      · rename_i hd
        split at h
        · rename_i h1; cases h; exact conn d (.dock d') port _ _ hd.1 h1
        · cases h
      · cases h
    · cases h
  | accept e =>
    simp only at h
    split at h
    · split at h
      · rename_i hd
        split at h
        · rename_i h1; cases h; exact moves_setDock C h1 hd.1
        · cases h
      · cases h
    · cases h
  | deliver e =>
    simp only [System.State.receive] at h
    split at h
    · cases h
    · split at h
      · split at h
        · split at h
          · cases h
          · rename_i hd
            split at h
            · rename_i h1
              cases h
              have M := moves_setDock C (S := { S with queue := _, got := _ }) h1 (by simpa using hd)
              exact ⟨M.dock, M.down, M.owner⟩
            · cases h
        · repeat' split at h
          all_goals cases h
          exact moves_idle C rfl (fun _ h => h) rfl
        · cases h
      · split at h
        · cases h; exact moves_down C rfl rfl rfl
        · cases h
      · split at h
        · cases h; exact moves_down C rfl rfl rfl
        · cases h
      · cases h
  | lose e k =>
    simp only at h
    split at h
    · cases h; exact moves_idle C rfl (fun _ h => h) rfl
    · cases h
  | crash p =>
    simp only at h
    cases h; exact moves_down C rfl rfl rfl

/-- What stays over a whole run. -/
structure Stays (S T : System.State) : Prop where
  down : ∀ p, S.down p = true → T.down p = true
  owner : ∀ e p, S.owner e = some p → T.owner e = some p
  frozen : ∀ d, S.down (.dock d) = true → T.dock d = S.dock d
  log : ∀ d, ∃ l, (T.dock d).log = (S.dock d).log ++ l
  index : ∀ d, (S.dock d).n ≤ (T.dock d).n ∧ ∀ i, i < (S.dock d).n → (T.dock d).index i = (S.dock d).index i

theorem stays_run (more : List System.Act) (S T : System.State) (I : System.Inv C H R black S)
    (h : run (System.State.step C H R black) S more = some T) : Stays S T := by
  induction more generalizing S with
  | nil =>
    cases h
    exact ⟨fun _ h => h, fun _ _ h => h, fun _ _ => rfl, fun _ => ⟨[], (List.append_nil _).symm⟩,
      fun _ => ⟨Nat.le_refl _, fun _ _ => rfl⟩⟩
  | cons a more ih =>
    simp only [run] at h
    split at h
    · cases h
    rename_i U hU
    have M := moves_step C H R black S a U I hU
    have W := ih U (System.inv_step C H R black S a U I hU) h
    refine ⟨fun p hp => W.down p (M.down p hp), fun e p he => W.owner e p (M.owner e p he), ?_, ?_, ?_⟩
    · intro d hd
      rw [W.frozen d (M.down _ hd)]
      rcases M.dock d with h | ⟨h, _⟩
      · exact h
      · rw [hd] at h; cases h
    · intro d
      obtain ⟨l, hl⟩ := W.log d
      rcases M.dock d with h | ⟨_, b, h⟩
      · exact ⟨l, by rw [hl, h]⟩
      · obtain ⟨l', hl', _⟩ := System.dock_log h
        exact ⟨l' ++ l, by rw [hl, hl', List.append_assoc]⟩
    · intro d
      have hw := W.index d
      rcases M.dock d with h | ⟨_, b, h⟩
      · rw [h] at hw; exact hw
      · obtain ⟨h1, h2⟩ := stable_run (C d) [b] (S.dock d) (U.dock d) (by simp [run, h])
        refine ⟨Nat.le_trans h1 hw.1, ?_⟩
        intro i hi
        rw [hw.2 i (by omega), h2 i hi]

/-! ## C64: Every remote call returns -/

/-- When no other call has the index of call `i`, only one request with this index is sent. -/
theorem one_sent (s : Dock.State) (hr : Dock.RpcInv s) (i : Nat)
    (hu : ∀ j, j < s.n → s.index j = s.index i → j = i) :
    s.log.countP (fun e => match e with
      | .sent _ (.rpcRequest y _ _ _ _) => y = s.index i
      | _ => false) ≤ 1 := by
  obtain ⟨ids, hd, hm, he⟩ := hr.sent
  have hlt : ∀ j ∈ ids, j < s.n := fun j hj => hr.lt ((hm j).mp hj).1
  -- the requests with this index
  have hf : (s.log.filterMap Dock.requestOf).countP (fun x => match x with
      | .rpcRequest y _ _ _ _ => y = s.index i
      | _ => false) ≤ 1 := by
    rw [he, List.countP_map]
    have : ids.countP ((fun x => match x with
      | .rpcRequest y _ _ _ _ => decide (y = s.index i)
      | _ => false) ∘ s.request) ≤ ids.countP (fun j => j = i) := by
      refine List.countP_mono_left ?_
      intro j hj h
      simp only [Function.comp, Dock.State.request, decide_eq_true_eq] at h
      simpa using hu j (hlt j hj) h
    refine Nat.le_trans this ?_
    have hc : ids.countP (fun j => j = i) = ids.count i := by
      rw [List.count]; refine List.countP_congr ?_; intro j _; simp
    rw [hc]
    exact List.nodup_iff_count.mp hd i
  refine Nat.le_trans (Nat.le_of_eq ?_) hf
  rw [List.countP_filterMap]
  refine List.countP_congr ?_
  intro e _
  cases e with
  | sent p pkt => cases pkt <;> simp [Dock.requestOf]
  | _ => simp [Dock.requestOf]

/-- When no other call has the index of call `i`, requests with this index are sent to one peer only. -/
theorem same_dest (s : Dock.State) (hr : Dock.RpcInv s) (i : Nat)
    (hu : ∀ j, j < s.n → s.index j = s.index i → j = i) (p q : Nat) (slot meth slot' meth' : Str) (args args' : List Val)
    (wr wr' : Bool) (h1 : Dock.Ev.sent p (.rpcRequest (s.index i) slot meth args wr) ∈ s.log)
    (h2 : Dock.Ev.sent q (.rpcRequest (s.index i) slot' meth' args' wr') ∈ s.log) : p = q := by
  have hc := one_sent s hr i hu
  by_contra hne
  obtain ⟨pre, mid, post, hl⟩ | ⟨pre, mid, post, hl⟩ := two_mem h1 h2 (by intro h; cases h; exact hne rfl)
  all_goals
    rw [hl] at hc
    simp [List.countP_append, List.countP_cons] at hc
    omega

/-- C64 (refuted), in a system of unmodified processes: once the request of a call has been sent to a dock that has
stopped without receiving it, the call never returns, whatever all processes do.  (No other call of the dock may have
the same index, see C57.) -/
theorem C64_dead_dock_refuted (acts more : List System.Act) (S T : System.State)
    (h : run (System.State.step C H R black) .init acts = some S)
    (h' : run (System.State.step C H R black) S more = some T) (d d' i e : Nat) (slot meth : Str) (args : List Val)
    (wr : Bool) (hi : i < (S.dock d).n)
    (hs : Dock.Ev.sent e (.rpcRequest ((S.dock d).index i) slot meth args wr) ∈ (S.dock d).log)
    (ho : S.owner (other e) = some (.dock d')) (hd : S.down (.dock d') = true)
    (hn : ∀ slot meth args wr,
      Dock.Ev.recv (other e) (.rpcRequest ((S.dock d).index i) slot meth args wr) ∉ (S.dock d').log)
    (hu : ∀ j, j < (T.dock d).n → (T.dock d).index j = (T.dock d).index i → j = i) (r : Dock.Ret) :
    (T.dock d).phase i ≠ .returned r := by
  intro hr
  have I := inv_run C H R black h
  have J : System.Inv C H R black T := run_inv (inv_step C H R black) more S T I h'
  have W := stays_run C H R black more S T I h'
  have hx := (W.index d).2 i hi
  have hR := (dock_inv J d).2.2.1
  obtain ⟨p, slot1, meth1, h1⟩ := hR.result i r (by rw [hr]; rfl)
  obtain ⟨h2, d1, res', err', h3, h4, _⟩ := response_sent J h1
  obtain ⟨as, ha⟩ := J.parts.dock d1
  obtain ⟨_, args1, wr1, _, h5, _⟩ := C82_own_result (C d1) as _ ha _ _ _ _ _ _ h4
  obtain ⟨h6, d2, args2, wr2, h7, h8, _⟩ := request_sent J h5
  rw [other_other] at h7 h8
  rw [h2] at h7
  cases h7
  have hs' : Dock.Ev.sent e (.rpcRequest ((T.dock d).index i) slot meth args wr) ∈ (T.dock d).log := by
    obtain ⟨l, hl⟩ := W.log d
    rw [hl, hx]
    exact List.mem_append_left _ hs
  have hp : p = e := same_dest _ hR i hu _ _ _ _ _ _ _ _ _ _ h8 hs'
  subst hp
  have h9 := W.owner _ _ ho
  rw [h3] at h9
  cases h9
  rw [W.frozen _ hd, hx] at h5
  exact hn _ _ _ _ h5

/-! ## C94: Calls move on when the dock in use is gone -/

/-- As `sysC`, and dock 2 carries feature `a` as well. -/
def twoC : Nat → List Carried := fun d => if d = 1 then [⟨nameB, 2, false⟩] else [⟨nameA, 3, true⟩]

/-- Dock 1 has called feature `a` of dock 0 as in `sysDone`.  Dock 2 registers with the hub and is ready.  Dock 0 stops.
Dock 1 calls feature `a` again. -/
def twoActs : List System.Act := sysDone ++
  [.join 2, .dock 2 .storeHub, .dock 2 (.greet 6 [nameA]), .deliver 7, .hub (.work 7), .hub (.work 7), .deliver 6,
   .dock 2 (.work 6 []), .dock 2 (.work 6 [nameA]), .deliver 7, .hub (.work 7), .hub (.work 7), .crash (.dock 0),
   .dock 1 (.call ⟨nameA, methM, [], true⟩ 78), .dock 1 (.store 1), .dock 1 (.setReq 1), .dock 1 (.commit 1)]

/-- C94 (refuted), in a system of unmodified processes: dock 0, which served the feature, has stopped; dock 2 runs,
offers the feature, and the hub would name it, being the newest one that is ready.  But dock 1 sends the request to dock
0, and the call never returns, whatever all processes do, unless the dock makes another call with the same index. -/
theorem C94_stale_refuted : ∃ C H R black acts S addr, run (System.State.step C H R black) .init acts = some S ∧
    S.down (.dock 0) = true ∧ S.down (.dock 1) = false ∧ S.down (.dock 2) = false ∧ S.down .hub = false ∧
    (S.hub.stubs nameA).getLast? = some ⟨addr, 7, true⟩ ∧ S.owner 6 = some (.dock 2) ∧ S.owner 7 = some .hub ∧
    ((S.dock 1).call 1).slot = nameA ∧
    ∀ more T, run (System.State.step C H R black) S more = some T →
      (∀ j, j < (T.dock 1).n → (T.dock 1).index j = (T.dock 1).index 1 → j = 1) →
      ∀ r, (T.dock 1).phase 1 ≠ .returned r := by
  obtain ⟨S, h, e⟩ := sysWitness (C := twoC) (H := sysH) (R := sysR) (as := twoActs)
    (f := fun S => ([S.down (.dock 0), S.down (.dock 1), S.down (.dock 2), S.down .hub],
      (S.hub.stubs nameA).getLast?.map fun x => (x.addr, x.peer, x.ready), [S.owner 6, S.owner 7, S.owner 5]))
    (b := ([true, false, false, false], some ([98] ++ colon :: decimal 20002, 7, true),
      [some (.dock 2), some .hub, some (.dock 0)])) (by decide +kernel)
  obtain ⟨S', h', e'⟩ := sysWitness (C := twoC) (H := sysH) (R := sysR) (as := twoActs)
    (f := fun S => (((S.dock 1).call 1).slot, (S.dock 1).n, (S.dock 1).index 1, (S.dock 1).log.filterMap requestView,
      (S.dock 0).log.filterMap (fun e => (requestGot e).map fun y => (y.1, y.2.1))))
    (b := (nameA, 2, 78, [(4, 77, nameA, methM), (4, 78, nameA, methM)], [(5, 77)])) (by decide +kernel)
  rw [h] at h'
  cases h'
  simp only [Prod.mk.injEq, List.cons.injEq, and_true] at e e'
  obtain ⟨⟨h1, h2, h3, h4⟩, h5, h6, h7, h8⟩ := e
  obtain ⟨h9, h10, h11, h12, h13⟩ := e'
  obtain ⟨x, hx, hy⟩ := Option.map_eq_some_iff.mp h5
  refine ⟨twoC, sysH, sysR, [], twoActs, S, [98] ++ colon :: decimal 20002, h, h1, h2, h3, h4, ?_, h6, h7, h9, ?_⟩
  · rw [hx]
    cases x
    simp only [Prod.mk.injEq] at hy
    obtain ⟨rfl, rfl, rfl⟩ := hy
    rfl
  · intro more T hT hu r
    have hs : ∃ args wr, Dock.Ev.sent 4 (.rpcRequest ((S.dock 1).index 1) nameA methM args wr) ∈ (S.dock 1).log := by
      have : (4, 78, nameA, methM) ∈ (S.dock 1).log.filterMap requestView := by rw [h12]; simp
      obtain ⟨a, ha, hv⟩ := List.mem_filterMap.mp this
      unfold requestView at hv
      split at hv
      · simp only [Option.some.injEq, Prod.mk.injEq] at hv
        obtain ⟨rfl, rfl, rfl, rfl⟩ := hv
        rw [h11]
        exact ⟨_, _, ha⟩
      · cases hv
    obtain ⟨args, wr, hs⟩ := hs
    refine C64_dead_dock_refuted twoC sysH sysR [] twoActs more S T h hT 1 0 1 4 nameA methM args wr (by omega) hs h8 h1
      ?_ hu r
    intro slot meth args wr hm
    have : (5, (S.dock 1).index 1) ∈ (S.dock 0).log.filterMap (fun e => (requestGot e).map fun y => (y.1, y.2.1)) :=
      List.mem_filterMap.mpr ⟨_, hm, rfl⟩
    rw [h13, h11] at this
    simp at this

end Verif.Props
