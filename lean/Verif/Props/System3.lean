import Verif.Props.System2
import Verif.Props.Dock3
import Verif.Dock.Answer

/-!
# C75 and C81: crashes in a system of unmodified processes
-/

namespace Verif.Props

open Verif Verif.Codec Verif.Proto Verif.System
open Verif.Dock (Carried LastNamed)

variable (C : Nat → List Carried) (H : Nat → Str) (R : Nat → Str) (black : List Int)

/-! ## Counting requests and responses -/

/-- The request with a given index. -/
def isReqOf (x : BitVec 64) : Proto → Bool
  | .rpcRequest y _ _ _ _ => y = x
  | _ => false

/-- The responses with a given index. -/
def isRespOf (x : BitVec 64) : Proto → Bool
  | .rpcResponse y _ _ _ _ => y = x
  | _ => false

theorem countP_fate (φ : Proto → Bool) (hφ : ∀ p, φ (head p) = φ p) {S : System.State} (I : System.Inv C H R black S)
    (e : Nat) : (S.got e).countP φ ≤ (S.sentBy (other e)).countP φ := by
  obtain ⟨del, hf, hs⟩ := I.fifo e
  have h1 := fate_filter φ hφ _ _ hf
  have h2 := congrArg List.length h1
  simp only [List.length_map] at h2
  rw [List.countP_eq_length_filter, ← h2, ← List.countP_eq_length_filter]
  exact ((List.sublist_append_left _ _).trans hs).countP_le

theorem responses_sent (p : Nat) (x : BitVec 64) (log : List Dock.Ev) :
    (dockSent p log).countP (isRespOf x) = (log.filterMap Dock.respOf).countP (fun y => y.1 = p ∧ y.2 = x) := by
  induction log with
  | nil => rfl
  | cons a log ih =>
    unfold dockSent at ih ⊢
    rw [List.filterMap_cons, List.filterMap_cons]
    cases a with
    | sent q pkt =>
      by_cases h : q = p
      · cases pkt <;> simp [Dock.respOf, h, isRespOf, List.countP_cons] <;> simpa using ih
      · cases pkt <;> simp [Dock.respOf, h] <;> simpa using ih
    | _ => simpa [Dock.respOf] using ih

theorem asked_got (cs : List Carried) (p : Nat) (x : BitVec 64) (log : List Dock.Ev) :
    (log.filterMap (Dock.askedOf cs)).countP (fun y => y.1 = p ∧ y.2.1 = x) ≤ (dockGot p log).countP (isReqOf x) := by
  induction log with
  | nil => exact Nat.le_refl _
  | cons a log ih =>
    unfold dockGot at ih ⊢
    rw [List.filterMap_cons, List.filterMap_cons]
    cases a with
    | recv q pkt =>
      cases pkt with
      | rpcRequest y slot meth args wr =>
        by_cases h : q = p
        · subst h
          by_cases hy : y = x
          · subst hy
            cases hc : Dock.slotsOf cs slot
            · simp [Dock.askedOf, hc, isReqOf] at ih ⊢; omega
            · simp [Dock.askedOf, hc, isReqOf] at ih ⊢; omega
          · cases hc : Dock.slotsOf cs slot
            · simp [Dock.askedOf, hc, isReqOf, hy] at ih ⊢; omega
            · simp [Dock.askedOf, hc, isReqOf, hy] at ih ⊢; omega
        · cases hc : Dock.slotsOf cs slot
          · simp [Dock.askedOf, hc, h] at ih ⊢; omega
          · simp [Dock.askedOf, hc, h] at ih ⊢; omega
      | _ =>
        by_cases h : q = p
        · simp [Dock.askedOf, h, isReqOf] at ih ⊢; omega
        · simp [Dock.askedOf, h] at ih ⊢; omega
    | _ => simpa [Dock.askedOf] using ih

/-- A dock sends a peer at most as many responses with an index as it got requests with that index from it. -/
theorem resp_le_req {cs : List Carried} {s : Dock.State} (h1 : Dock.RespInv s) (h2 : Dock.HistInv cs s) (p : Nat) (x : BitVec 64) :
    (dockSent p s.log).countP (isRespOf x) ≤ (dockGot p s.log).countP (isReqOf x) := by
  refine Nat.le_trans ?_ (asked_got cs p x s.log)
  rw [responses_sent, h2.asked]
  obtain ⟨ids, hn, hm, he⟩ := h1.sent
  rw [he, List.countP_map, List.countP_map]
  have hp : ids.Perm ((List.range s.nx).filter fun k => (s.exec k).phase.isOver) := by
    rw [List.perm_ext_iff_of_nodup hn (List.Pairwise.filter _ List.nodup_range)]
    intro k
    rw [hm k, List.mem_filter, List.mem_range]
  rw [hp.countP_eq]
  exact List.filter_sublist.countP_le

/-- In an unmodified system a dock gets at most as many responses with an index from a peer as it sent requests with that
index to it. -/
theorem answers_le {S : System.State} (I : System.Inv C H R black S) (d e : Nat) (x : BitVec 64) :
    (dockGot e (S.dock d).log).countP (isRespOf x) ≤ (dockSent e (S.dock d).log).countP (isReqOf x) := by
  rw [I.got.dock d e]
  split
  case isFalse => simp
  rename_i ho
  refine Nat.le_trans (countP_fate C H R black _ (fun p => by cases p <;> rfl) I e) ?_
  unfold System.State.sentBy
  split
  · rename_i d' ho'
    obtain ⟨as, hr⟩ := I.parts.dock d'
    refine Nat.le_trans (resp_le_req (Dock.respInv_run _ as _ hr) (Dock.histInv_run _ as _ hr) _ x) ?_
    rw [I.got.dock d' (other e), if_pos ho']
    refine Nat.le_trans (countP_fate C H R black _ (fun p => by cases p <;> rfl) I _) ?_
    unfold System.State.sentBy
    rw [other_other, ho]
    exact Nat.le_refl _
  · have : (hubSent (other e) S.hub.log).countP (isRespOf x) = 0 := by
      rw [List.countP_eq_zero]
      intro pkt hp
      rcases hub_sends I.parts.hub _ pkt (mem_hubSent.mp hp) with ⟨y, hy⟩ | ⟨y, hy⟩ <;> (rw [hy]; simp [isRespOf])
    omega
  · simp

/-- The requests of a dock with an index. -/
theorem requests_to (e : Nat) (x : BitVec 64) (log : List Dock.Ev) :
    (dockSent e log).countP (isReqOf x) = (log.filterMap destOf).countP (fun y => y.1 = e ∧ isReqOf x y.2) := by
  induction log with
  | nil => rfl
  | cons a log ih =>
    unfold dockSent at ih ⊢
    rw [List.filterMap_cons, List.filterMap_cons]
    cases a with
    | sent p pkt =>
      by_cases h : p = e
      · subst h
        have hno : isReqOf x pkt = false ∨ ∃ a b c d f, pkt = .rpcRequest a b c d f := by cases pkt <;> simp [isReqOf]
        rcases hno with hno | ⟨a1, b1, c1, d1, f1, rfl⟩
        · have hd : destOf (.sent p pkt) = none ∨ ∃ a b c d f, pkt = .rpcRequest a b c d f := by cases pkt <;> simp [destOf]
          rcases hd with hd | ⟨a1, b1, c1, d1, f1, rfl⟩
          · simp [hd, hno]; simpa using ih
          · simp [destOf, hno]; simpa using ih
        · simp [destOf, List.countP_cons]; simpa using ih
      · cases pkt <;> simp [destOf, h] <;> simpa using ih
    | _ => simpa [destOf] using ih

/-- If the indices of the calls of a dock are distinct, at most one request of it has a given index. -/
theorem one_request {s : Dock.State} (hR : Dock.RpcInv s)
    (hd : ∀ i j, i < s.n → j < s.n → s.index i = s.index j → i = j) (x : BitVec 64) :
    (s.log.filterMap destOf).countP (fun y => isReqOf x y.2) ≤ 1 := by
  obtain ⟨ids, hn, hm, he⟩ := hR.sent
  have h1 : (s.log.filterMap destOf).countP (fun y => isReqOf x y.2) = ((s.log.filterMap destOf).map (·.2)).countP (isReqOf x) := by
    rw [List.countP_map]; rfl
  rw [h1, destOf_snd, he, List.countP_map, List.countP_eq_length_filter]
  match hl : ids.filter (isReqOf x ∘ s.request) with
  | [] => simp
  | [a] => simp
  | a :: b :: l =>
    exfalso
    have ha : a ∈ ids.filter (isReqOf x ∘ s.request) := by rw [hl]; simp
    have hb : b ∈ ids.filter (isReqOf x ∘ s.request) := by rw [hl]; simp
    have hnd : (a :: b :: l).Nodup := hl ▸ List.Pairwise.filter _ hn
    obtain ⟨ha1, ha2⟩ := List.mem_filter.mp ha
    obtain ⟨hb1, hb2⟩ := List.mem_filter.mp hb
    simp [isReqOf, Dock.State.request] at ha2 hb2
    have := hd a b (hR.lt ((hm a).mp ha1).1) (hR.lt ((hm b).mp hb1).1) (ha2.trans hb2.symm)
    subst this
    simp at hnd

/-- If the clock of a dock never returns the same reading twice, at most one response with a given index arrives. -/
theorem one_answer {S : System.State} (I : System.Inv C H R black S) (d : Nat)
    (hd : ∀ i j, i < (S.dock d).n → j < (S.dock d).n → (S.dock d).index i = (S.dock d).index j → i = j) (x : BitVec 64) :
    responses x (S.dock d).log ≤ 1 := by
  have h1 := one_request (dock_inv I d).2.2.1 hd x
  rcases Nat.eq_zero_or_pos (responses x (S.dock d).log) with h0 | h0
  · omega
  obtain ⟨a, ha, hx⟩ := List.countP_pos_iff.mp h0
  -- the peer that a response comes from was sent a request
  have key : ∀ a ∈ (S.dock d).log, ∀ e y b c r z, a = Dock.Ev.recv e (.rpcResponse y b c r z) → y = x →
      0 < (dockSent e (S.dock d).log).countP (isReqOf x) := by
    intro a ha e y b c r z h hy
    subst h
    subst hy
    refine Nat.lt_of_lt_of_le ?_ (answers_le C H R black I d e y)
    exact List.countP_pos_iff.mpr ⟨_, mem_dockGot.mpr ha, by simp [isRespOf]⟩
  split at hx
  case h_2 => cases hx
  rename_i e y b c r z
  have hx := of_decide_eq_true hx
  have he := key _ ha e y b c r z rfl hx.symm
  rw [requests_to] at he
  -- all come from the same peer
  have hall : ∀ e', 0 < (dockSent e' (S.dock d).log).countP (isReqOf x) → e' = e := by
    intro e' h'
    rw [requests_to] at h'
    obtain ⟨u, hu, hu'⟩ := List.countP_pos_iff.mp he
    obtain ⟨v, hv, hv'⟩ := List.countP_pos_iff.mp h'
    simp only [decide_eq_true_eq] at hu' hv'
    by_cases huv : u = v
    · rw [← hv'.1, ← hu'.1, huv]
    · exfalso
      have hu2 : u ∈ ((S.dock d).log.filterMap destOf).filter (fun y => isReqOf x y.2) := List.mem_filter.mpr ⟨hu, hu'.2⟩
      have hv2 : v ∈ ((S.dock d).log.filterMap destOf).filter (fun y => isReqOf x y.2) := List.mem_filter.mpr ⟨hv, hv'.2⟩
      rw [List.countP_eq_length_filter] at h1
      match hl : ((S.dock d).log.filterMap destOf).filter (fun y => isReqOf x y.2) with
      | [] => rw [hl] at hu2; cases hu2
      | [w] =>
        rw [hl] at hu2 hv2
        simp at hu2 hv2
        exact huv (hu2.trans hv2.symm)
      | w :: w' :: l => rw [hl] at h1; simp at h1
  have h2 : responses x (S.dock d).log ≤ (dockGot e (S.dock d).log).countP (isRespOf x) := by
    unfold responses dockGot
    rw [List.countP_filterMap]
    refine List.countP_mono_left ?_
    intro a ha hx
    split at hx
    case h_2 => cases hx
    rename_i e' y b c r z
    have hx := of_decide_eq_true hx
    have := hall e' (key _ ha e' y b c r z rfl hx.symm)
    subst this
    simp [isRespOf, hx]
  refine Nat.le_trans h2 (Nat.le_trans (answers_le C H R black I d e x) ?_)
  rw [requests_to]
  refine Nat.le_trans (List.countP_mono_left ?_) h1
  intro a _ h
  simp only [decide_eq_true_eq] at h
  exact h.2

/-! ## C75 -/

/-- C75 (partial), in a system of unmodified processes: if the clock of a dock never returned the same reading twice, a
goroutine that delivers a response finds the channel of the call open and empty, so that no packet makes the dock panic.
Missing: nothing keeps modified programs from sending a response twice, see `C75_duplicate_refuted`; and clock readings
may coincide, see `C81_clock_refuted`. -/
theorem C75_honest_partial (acts : List System.Act) (S : System.State)
    (h : run (System.State.step C H R black) .init acts = some S) (d k : Nat)
    (hk : ((S.dock d).cb k).phase = .sending)
    (hd : ∀ i j, i < (S.dock d).n → j < (S.dock d).n → (S.dock d).index i = (S.dock d).index j → i = j) :
    (S.dock d).chanClosed ((S.dock d).cb k).rpc = false ∧ (S.dock d).chan ((S.dock d).cb k).rpc = none := by
  have I := inv_run C H R black h
  obtain ⟨as, hr⟩ := I.parts.dock d
  exact C75_single_response_partial (C d) as _ hr k hk (one_answer C H R black I d hd _)

/-- A response has arrived and is about to be delivered. -/
example : ∃ S, run (System.State.step sysC sysH sysR []) .init (sysSend ++
      [.deliver 5, .dock 0 (.invoke 0), .dock 0 (.finish 0 ⟨[.bool 0 true], []⟩), .dock 0 (.respond 0), .deliver 4]) = some S ∧
    ((S.dock 1).n, (S.dock 1).nc, (match ((S.dock 1).cb 0).phase with | .sending => true | _ => false)) = (1, 1, true) :=
  sysWitness (by decide +kernel)

/-! ## C81: An unmodified system does not bring its processes down -/

/-- The process of dock `d` has ended. -/
def stopped (S : System.State) (d : Nat) : Bool := S.down (.dock d) || (S.dock d).dead

/-- The call that the action looks at in order to commit it: the goroutine of the call (/repo/rpc.go:35, 52) or the
handler of a ready packet (/repo/dock.go:88-89). -/
def commits (s : Dock.State) : Dock.Act → Option Nat
  | .commit i => some i
  | .work p _ => match s.handler p with
    | .tested _ _ _ _ i => some i
    | .commit _ _ _ _ i => some i
    | _ => none
  | _ => none

/-- Why an action may end the process of dock `d`. -/
inductive Cause (S : System.State) (d : Nat) : System.Act → Prop where
  /-- from outside -/
  | crash : Cause S d (.crash (.dock d))
  /-- the dialled dock is not reachable -/
  | dial (p : Nat) : Cause S d (.dock d (.dialFail p))
  /-- a call is committed whose request another goroutine has already sent -/
  | committed (a : Dock.Act) (i p : Nat) (h1 : commits (S.dock d) a = some i)
      (h2 : Dock.Ev.sent p ((S.dock d).request i) ∈ (S.dock d).log) : Cause S d (.dock d a)
  /-- a call is committed before the dock has stored its first socket -/
  | early (a : Dock.Act) (i : Nat) (h1 : commits (S.dock d) a = some i) (h2 : (S.dock d).sockets = []) :
      Cause S d (.dock d a)
  /-- two calls got the same clock reading -/
  | clock (k i j : Nat) (h1 : i < (S.dock d).n) (h2 : j < (S.dock d).n) (h3 : i ≠ j)
      (h4 : (S.dock d).index i = (S.dock d).index j) : Cause S d (.dock d (.callback k))
  /-- the dock sent or is about to receive arguments or results that do not survive the wire -/
  | payload (e : Nat) (pkt : Proto) (rest : List Proto) (h1 : S.queue e = pkt :: rest) (h2 : pkt.sendable = false)
      (h3 : S.owner e = some (.dock d) ∨ S.owner (other e) = some (.dock d)) : Cause S d (.deliver e)

theorem sendable_fate {pkt : Proto} (hs : pkt.sendable = true) : fate pkt ≠ .killsSender ∧ fate pkt ≠ .killsReceiver := by
  unfold fate
  rw [marshal_ok ⟨idOf pkt, pkt⟩ hs]
  simp only [List.length_append]
  split
  · rename_i hl
    simp [lengthHeader] at hl
    rw [unmarshal_frame _ (by omega), unmarshalBody_body ⟨idOf pkt, pkt⟩ (idOf_kind pkt) hs (by omega)]
    simp
  · simp

/-- What ends a dock, seen from the dock. -/
theorem dock_ends {cs : List Carried} {s t : Dock.State} {a : Dock.Act} (hR : Dock.RpcInv s) (hH : Dock.HandInv s)
    (h0 : s.dead = false) (h : s.step cs a = some t) (h1 : t.dead = true) :
    (∃ p, a = .dialFail p) ∨ (∃ i p, commits s a = some i ∧ Dock.Ev.sent p (s.request i) ∈ s.log) ∨
      (∃ i, commits s a = some i ∧ s.sockets = []) ∨
      ∃ k, a = .callback k ∧ (s.cb k).phase = .sending ∧ s.chanClosed (s.cb k).rpc = true := by
  have sent : ∀ i, (s.phase i).isSet = true → s.req i = false → ∃ p, Dock.Ev.sent p (s.request i) ∈ s.log := by
    intro i h1 h2
    obtain ⟨ids, _, hm, he⟩ := hR.sent
    have : s.request i ∈ s.log.filterMap Dock.requestOf := by
      rw [he]; exact List.mem_map.mpr ⟨i, (hm i).mpr ⟨h1, h2⟩, rfl⟩
    obtain ⟨a, ha, hb⟩ := List.mem_filterMap.mp this
    unfold Dock.requestOf at hb
    split at hb
    · cases hb; exact ⟨_, ha⟩
    · cases hb
  have commit : ∀ i, (s.phase i).isSet = true → (s.doCommit i).dead = true →
      (∃ p, Dock.Ev.sent p (s.request i) ∈ s.log) ∨ s.sockets = [] := by
    intro i hs hd
    cases hq : s.req i
    · exact Or.inl (sent i hs hq)
    · unfold Dock.State.doCommit at hd
      rw [hq] at hd
      simp only [if_true] at hd
      split at hd
      · simp [h0] at hd
      · split at hd
        · exact Or.inr (by assumption)
        · simp [h0] at hd
  unfold Dock.State.step at h
  rw [h0] at h
  simp only [Bool.false_eq_true, if_false] at h
  cases a with
  | commit i =>
    simp only at h
    split at h
    · rename_i hp
      cases h
      rcases commit i (by rw [hp]; rfl) h1 with ⟨p, hc⟩ | hc
      · exact Or.inr (Or.inl ⟨i, p, rfl, hc⟩)
      · exact Or.inr (Or.inr (Or.inl ⟨i, rfl, hc⟩))
    · cases h
  | work p order =>
    have hp := hH p
    simp only [Dock.State.work] at h
    split at h
    all_goals rename_i hh
    all_goals simp only [hh] at hp
    all_goals repeat' split at h
    all_goals cases h
    all_goals first
      | (exfalso; simp [h0] at h1; done)
      | skip
    · rename_i i hq
      have hq : s.req i = false := by simpa using hq
      obtain ⟨q, hc⟩ := sent i hp hq
      exact Or.inr (Or.inl ⟨i, q, by simp [commits, hh], hc⟩)
    · rename_i i
      rcases commit i hp h1 with ⟨q, hc⟩ | hc
      · exact Or.inr (Or.inl ⟨i, q, by simp [commits, hh], hc⟩)
      · exact Or.inr (Or.inr (Or.inl ⟨i, by simp [commits, hh], hc⟩))
  | dialFail p => exact Or.inl ⟨p, rfl⟩
  | callback k =>
    simp only at h
    split at h
    · rename_i hp
      split at h
      · rename_i hc
        exact Or.inr (Or.inr (Or.inr ⟨k, rfl, hp, hc⟩))
      · split at h
        · cases h; exact absurd h1 (by simp [h0])
        · cases h
    · cases h
  | recv p pkt =>
    simp only [Dock.State.onPacket] at h
    repeat' split at h
    all_goals cases h
    all_goals exact absurd h1 (by simp [h0])
  | _ =>
    simp only [Dock.State.connected] at h
    repeat' split at h
    all_goals cases h
    all_goals exact absurd h1 (by simp [h0])

/-- C81 (partial): the only ways in which the process of a dock can end in a system of unmodified processes.  In
particular, without failures from outside, packets about registration, queries and readiness never end a dock.
Missing: that the causes cannot occur; see the refutations below. -/
theorem C81_causes_partial (acts : List System.Act) (S : System.State)
    (h : run (System.State.step C H R black) .init acts = some S) (act : System.Act) (T : System.State)
    (hT : S.step C H R black act = some T) (d : Nat) (h0 : stopped S d = false) (h1 : stopped T d = true) :
    Cause S d act := by
  have I := inv_run C H R black h
  unfold stopped at h0 h1
  rw [Bool.or_eq_false_iff] at h0
  obtain ⟨h0, h0'⟩ := h0
  obtain ⟨as, hr⟩ := I.parts.dock d
  have hR := (Dock.rpcInv_run (C d) as _ hr).1
  have hH := (Dock.rpcInv_run (C d) as _ hr).2
  -- a step of a dock
  have setDock : ∀ d' (s : Dock.State) (S' : System.State), S'.dock = S.dock → S'.down = S.down →
      ((S'.setDock d' s).down (.dock d) || ((S'.setDock d' s).dock d).dead) = true → d' = d ∧ s.dead = true := by
    intro d' s S' e1 e2 hd
    simp only [System.State.setDock, e1, e2, h0, Bool.false_or] at hd
    by_cases e : d' = d
    · subst e; rw [upd_same] at hd; exact ⟨rfl, hd⟩
    · rw [upd_other _ _ (Ne.symm e), h0'] at hd; cases hd
  cases act with
  | dock d' a =>
    simp only [System.State.step] at hT
    split at hT
    · split at hT
      · rename_i s hs
        cases hT
        obtain ⟨rfl, hd⟩ := setDock d' s S rfl rfl h1
        rcases dock_ends hR hH h0' hs hd with ⟨p, rfl⟩ | ⟨i, p, h2, h3⟩ | ⟨i, h2, h3⟩ | ⟨k, rfl, h2, h3⟩
        · exact .dial p
        · exact .committed a i p h2 h3
        · exact .early a i h2 h3
        · refine Classical.byContradiction fun hno => ?_
          have := C75_honest_partial C H R black acts S h d' k h2 (by
            intro i j hi hj hij
            refine Classical.byContradiction fun hne => hno (.clock k i j hi hj hne hij))
          rw [this.1] at h3
          cases h3
      · cases hT
    · cases hT
  | hub a =>
    simp only [System.State.step] at hT
    repeat' split at hT
    all_goals cases hT
    simp [System.State.setHub, h0, h0'] at h1
  | join d' =>
    simp only [System.State.step] at hT
    repeat' split at hT
    all_goals cases hT
    rename_i s hs
    obtain ⟨rfl, hd⟩ := setDock d' s (S.connect (.dock d') .hub 0) rfl rfl h1
    rcases dock_ends hR hH h0' hs hd with ⟨p, hp⟩ | ⟨i, p, h2, h3⟩ | ⟨i, h2, h3⟩ | ⟨k, hp, h2, h3⟩
    · cases hp
    · cases h2
    · cases h2
    · cases hp
  | dial d' p d'' port =>
    simp only [System.State.step] at hT
    repeat' split at hT
    all_goals cases hT
    rename_i s hs
    obtain ⟨rfl, hd⟩ := setDock d' s (S.connect (.dock d') (.dock d'') port) rfl rfl h1
    rcases dock_ends hR hH h0' hs hd with ⟨p, hp⟩ | ⟨i, p, h2, h3⟩ | ⟨i, h2, h3⟩ | ⟨k, hp, h2, h3⟩
    · cases hp
    · cases h2
    · cases h2
    · cases hp
  | accept e =>
    simp only [System.State.step] at hT
    repeat' split at hT
    all_goals cases hT
    rename_i d' _ _ _ s hs
    obtain ⟨rfl, hd⟩ := setDock d' s S rfl rfl h1
    rcases dock_ends hR hH h0' hs hd with ⟨p, hp⟩ | ⟨i, p, h2, h3⟩ | ⟨i, h2, h3⟩ | ⟨k, hp, h2, h3⟩
    · cases hp
    · cases h2
    · cases h2
    · cases hp
  | deliver e =>
    simp only [System.State.step] at hT
    split at hT
    · cases hT
    rename_i pkt rest hq
    have bad : ∀ f : Fate, f = .killsSender ∨ f = .killsReceiver → fate pkt = f → pkt.sendable = false := by
      intro f hf hfp
      cases hs : pkt.sendable
      · rfl
      · have := sendable_fate hs
        rcases hf with rfl | rfl
        · exact absurd hfp this.1
        · exact absurd hfp this.2
    have downs : ∀ p, (upd S.down p true (.dock d) || (S.dock d).dead) = true → p = .dock d := by
      intro p hp
      by_cases e : Proc.dock d = p
      · exact e.symm
      · rw [upd_other _ _ e, h0, h0'] at hp; cases hp
    split at hT
    · simp only [System.State.receive] at hT
      repeat' split at hT
      all_goals cases hT
      · rename_i d' _ _ _ s hs
        obtain ⟨rfl, hd⟩ := setDock d' s _ rfl rfl h1
        rcases dock_ends hR hH h0' hs hd with ⟨p, hp⟩ | ⟨i, p, h2, h3⟩ | ⟨i, h2, h3⟩ | ⟨k, hp, h2, h3⟩
        · cases hp
        · cases h2
        · cases h2
        · cases hp
      · simp [System.State.setHub, h0, h0'] at h1
    · rename_i hf
      split at hT
      · rename_i p ho
        cases hT
        exact .payload e pkt rest hq (bad _ (Or.inl rfl) hf) (Or.inr (downs p h1 ▸ ho))
      · cases hT
    · rename_i hf
      split at hT
      · rename_i p ho
        cases hT
        exact .payload e pkt rest hq (bad _ (Or.inr rfl) hf) (Or.inl (downs p h1 ▸ ho))
      · cases hT
    · cases hT
  | lose e k =>
    simp only [System.State.step] at hT
    split at hT
    · cases hT; simp [h0, h0'] at h1
    · cases hT
  | crash p =>
    simp only [System.State.step] at hT
    cases hT
    by_cases e : Proc.dock d = p
    · subst e; exact .crash
    · simp only [upd_other S.down true e, h0, h0'] at h1; cases h1

/-- Nothing fails from outside: no process is stopped, no packet is lost, no dial fails. -/
def undisturbed : System.Act → Bool
  | .crash _ => false
  | .lose _ _ => false
  | .dock _ (.dialFail _) => false
  | _ => true

/-- The ready packet of dock 0 has arrived at dock 1; meanwhile dock 1 has made a second call, with another clock
reading, and has set its request. -/
def raceActs : List System.Act := sysSend.take (sysSend.length - 6) ++
  [.dock 1 (.call ⟨nameA, methN, [], true⟩ 78), .dock 1 (.store 1), .dock 1 (.setReq 1), .dock 1 (.work 4 []),
   .dock 1 (.visit 4 1), .dock 1 (.work 4 []), .dock 1 (.work 4 [])]

/-- C81 (refuted): the goroutine of a call and the handler of a ready packet commit the same call; dock 1 panics. -/
theorem C81_race_refuted : ∃ C H R black acts S T d i, run (System.State.step C H R black) .init acts = some S ∧
    acts.all undisturbed = true ∧ S.step C H R black (.dock d (.commit i)) = some T ∧ stopped S d = false ∧
    stopped T d = true ∧ (S.dock d).n = 2 ∧ (S.dock d).index 0 ≠ (S.dock d).index 1 := by
  obtain ⟨S, h, e⟩ := sysWitness (C := sysC) (H := sysH) (R := sysR) (as := raceActs)
    (f := fun S => (stopped S 1, (S.step sysC sysH sysR [] (.dock 1 (.commit 1))).map (stopped · 1), (S.dock 1).n,
      (S.dock 1).index 0, (S.dock 1).index 1))
    (b := (false, some true, 2, 77, 78)) (by decide +kernel)
  simp only [Prod.mk.injEq] at e
  obtain ⟨T, hT, h1⟩ := Option.map_eq_some_iff.mp e.2.1
  exact ⟨sysC, sysH, sysR, [], raceActs, S, T, 1, 1, h, by decide, hT, e.1, h1, e.2.2.1, by
    rw [e.2.2.2.1, e.2.2.2.2]; decide⟩

/-- Two calls with the same clock reading are both executed and answered, and both answers are looked up before the
first one is removed. -/
def clockActs : List System.Act := sysSend ++
  [.dock 1 (.call ⟨nameA, methN, [], true⟩ 77), .dock 1 (.store 1), .dock 1 (.setReq 1), .dock 1 (.commit 1),
   .deliver 5, .deliver 5, .dock 0 (.invoke 0), .dock 0 (.finish 0 ⟨[.bool 0 true], []⟩), .dock 0 (.respond 0),
   .dock 0 (.invoke 1), .dock 0 (.finish 1 ⟨[.bool 0 true], []⟩), .dock 0 (.respond 1), .deliver 4, .deliver 4,
   .dock 1 (.callback 0), .dock 1 (.receive 1), .dock 1 (.closeChan 1)]

/-- C81 (refuted): two calls with the same clock reading; dock 1 sends on a closed channel and panics. -/
theorem C81_clock_refuted : ∃ C H R black acts S T d k, run (System.State.step C H R black) .init acts = some S ∧
    acts.all undisturbed = true ∧ S.step C H R black (.dock d (.callback k)) = some T ∧ stopped S d = false ∧
    stopped T d = true := by
  obtain ⟨S, h, e⟩ := sysWitness (C := sysC) (H := sysH) (R := sysR) (as := clockActs)
    (f := fun S => (stopped S 1, (S.step sysC sysH sysR [] (.dock 1 (.callback 1))).map (stopped · 1)))
    (b := (false, some true)) (by decide +kernel)
  simp only [Prod.mk.injEq] at e
  obtain ⟨T, hT, h1⟩ := Option.map_eq_some_iff.mp e.2
  exact ⟨sysC, sysH, sysR, [], clockActs, S, T, 1, 1, h, by decide, hT, e.1, h1⟩

/-- Dock 1 calls a method with the argument 0.0. -/
def zeroActs : List System.Act := sysSend ++
  [.dock 1 (.call ⟨nameA, methN, [.f64 0 0], true⟩ 78), .dock 1 (.store 1), .dock 1 (.setReq 1), .dock 1 (.commit 1),
   .deliver 5]

/-- C81 (refuted): dock 0 panics when the request with the argument 0.0 arrives. -/
theorem C81_payload_refuted : ∃ C H R black acts S T d e, run (System.State.step C H R black) .init acts = some S ∧
    acts.all undisturbed = true ∧ S.step C H R black (.deliver e) = some T ∧ stopped S d = false ∧
    stopped T d = true := by
  obtain ⟨S, h, e⟩ := sysWitness (C := sysC) (H := sysH) (R := sysR) (as := zeroActs)
    (f := fun S => (stopped S 0, (S.step sysC sysH sysR [] (.deliver 5)).map (stopped · 0)))
    (b := (false, some true)) (by decide +kernel)
  simp only [Prod.mk.injEq] at e
  obtain ⟨T, hT, h1⟩ := Option.map_eq_some_iff.mp e.2
  exact ⟨sysC, sysH, sysR, [], zeroActs, S, T, 0, 5, h, by decide, hT, e.1, h1⟩

end Verif.Props
