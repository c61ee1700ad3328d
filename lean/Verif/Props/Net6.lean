import Verif.Net.Broadcast

/-!
# C98: A broadcast reaches every peer

`Send` of a socket hands its object once to each peer that is connected when it is called, and a peer whose connection has
failed does not keep the others from getting it.
-/

namespace Verif.Props

open Verif Verif.Net

/-- The peer at which something became of the object of call `c`. -/
def castAt (c : Nat) : CastEv → Option Nat
  | .queued c' p => if c' = c then some p else none
  | .dropped c' p _ => if c' = c then some p else none

/-- The call an event belongs to. -/
def castCall : CastEv → Nat
  | .queued c _ => c
  | .dropped c _ _ => c

/-! ## What an object meets -/

/-- Bookkeeping of broadcasts: indices are in range, packets are dropped at full queues only, queues have room for 20. -/
structure CastWf {α : Type} (s : Cast α) : Prop where
  calls : ∀ e ∈ s.log, castCall e < s.calls.length
  peers : s.peers.Nodup ∧ ∀ p ∈ s.peers, p < s.made
  full : ∀ c p n, .dropped c p n ∈ s.log → n = 20
  room : ∀ p, (s.queue p).length ≤ 20

theorem castWf_init (α : Type) : CastWf (Cast.init α) := by
  constructor <;> simp [Cast.init]

theorem castWf_step {α : Type} (s : Cast α) (a : CastAct α) (t : Cast α) (I : CastWf s) (h : s.step a = some t) :
    CastWf t := by
  cases a with
  | connect =>
    cases h
    refine ⟨I.calls, ⟨?_, ?_⟩, I.full, I.room⟩
    · refine List.nodup_append.mpr ⟨I.peers.1, by simp, ?_⟩
      intro x hx y hy e
      simp only [List.mem_singleton] at hy
      have := I.peers.2 x hx
      omega
    · intro p hp
      rcases List.mem_append.mp hp with hp | hp
      · exact Nat.lt_succ_of_lt (I.peers.2 p hp)
      · simp only [List.mem_singleton] at hp
        simp [hp]
  | forget => cases h; exact ⟨I.calls, by simp, I.full, I.room⟩
  | send obj =>
    cases h
    refine ⟨fun e he => ?_, I.peers, I.full, I.room⟩
    have := I.calls e he
    simp only [List.length_append, List.length_singleton]
    omega
  | check c =>
    simp only [Cast.step] at h
    split at h
    · rename_i obj p rest hc
      have hlt : c < s.calls.length := (List.getElem?_eq_some_iff.mp hc).1
      split at h
      · rename_i hq
        cases h
        refine ⟨fun e he => ?_, I.peers, fun c' p' n hm => ?_, I.room⟩
        · simp only [List.length_set]
          rcases List.mem_append.mp he with he | he
          · exact I.calls e he
          · simp only [List.mem_singleton] at he; subst he; exact hlt
        · rcases List.mem_append.mp hm with hm | hm
          · exact I.full c' p' n hm
          · simp only [List.mem_singleton, CastEv.dropped.injEq] at hm
            rw [hm.2.2, hq]; rfl
      · cases h
        exact ⟨by simpa using I.calls, I.peers, I.full, I.room⟩
    · cases h
  | push c =>
    simp only [Cast.step] at h
    split at h
    · rename_i obj p rest hc
      have hlt : c < s.calls.length := (List.getElem?_eq_some_iff.mp hc).1
      split at h
      · cases h
      · rename_i hq
        cases h
        refine ⟨fun e he => ?_, I.peers, fun c' p' n hm => ?_, fun p' => ?_⟩
        · simp only [List.length_set]
          rcases List.mem_append.mp he with he | he
          · exact I.calls e he
          · simp only [List.mem_singleton] at he; subst he; exact hlt
        · rcases List.mem_append.mp hm with hm | hm
          · exact I.full c' p' n hm
          · simp at hm
        · by_cases hp : p' = p
          · subst hp
            simp only [upd_same, List.length_append, List.length_singleton]
            unfold cSendChanSize at hq
            omega
          · simpa only [upd_other _ _ hp] using I.room p'
    · cases h
  | take p =>
    simp only [Cast.step] at h
    split at h
    · cases h
    · split at h
      · cases h
      · rename_i x rest hq
        cases h
        refine ⟨I.calls, I.peers, I.full, fun p' => ?_⟩
        by_cases hp : p' = p
        · subst hp
          have := I.room p'
          rw [hq] at this
          simp only [upd_same]
          simp only [List.length_cons] at this
          omega
        · simpa only [upd_other _ _ hp] using I.room p'
  | stop p =>
    simp only [Cast.step] at h
    split at h
    · cases h
    · cases h; exact ⟨I.calls, I.peers, I.full, I.room⟩

/-- Call `c`, which began with the peers `ps`, is at some point of its loop. -/
def CastOn {α : Type} (c : Nat) (obj : α) (ps : List Nat) (s : Cast α) : Prop :=
  ∃ x, s.calls[c]? = some x ∧ x.obj = obj ∧ s.log.filterMap (castAt c) ++ x.todo = ps

theorem castOn_step {α : Type} (c : Nat) (obj : α) (ps : List Nat) (s : Cast α) (a : CastAct α) (t : Cast α)
    (I : CastOn c obj ps s) (h : s.step a = some t) : CastOn c obj ps t := by
  obtain ⟨x, hx, ho, hp⟩ := I
  have hlt : c < s.calls.length := (List.getElem?_eq_some_iff.mp hx).1
  cases a with
  | connect => cases h; exact ⟨x, hx, ho, hp⟩
  | forget => cases h; exact ⟨x, hx, ho, hp⟩
  | send o =>
    cases h
    exact ⟨x, by simpa [List.getElem?_append_left hlt] using hx, ho, hp⟩
  | check d =>
    simp only [Cast.step] at h
    split at h
    · rename_i o p rest hd
      split at h
      · cases h
        by_cases e : d = c
        · subst e
          rw [hx] at hd; cases hd
          exact ⟨⟨o, rest, false⟩, by simp [hlt], ho, by simpa [castAt] using hp⟩
        · exact ⟨x, by simpa [List.getElem?_set_ne e] using hx, ho, by simpa [castAt, e] using hp⟩
      · cases h
        by_cases e : d = c
        · subst e
          rw [hx] at hd; cases hd
          exact ⟨⟨o, p :: rest, true⟩, by simp [hlt], ho, hp⟩
        · exact ⟨x, by simpa [List.getElem?_set_ne e] using hx, ho, hp⟩
    · cases h
  | push d =>
    simp only [Cast.step] at h
    split at h
    · rename_i o p rest hd
      split at h
      · cases h
      · cases h
        by_cases e : d = c
        · subst e
          rw [hx] at hd; cases hd
          exact ⟨⟨o, rest, false⟩, by simp [hlt], ho, by simpa [castAt] using hp⟩
        · exact ⟨x, by simpa [List.getElem?_set_ne e] using hx, ho, by simpa [castAt, e] using hp⟩
    · cases h
  | take p =>
    simp only [Cast.step] at h
    split at h
    · cases h
    · split at h
      · cases h
      · cases h; exact ⟨x, hx, ho, hp⟩
  | stop p =>
    simp only [Cast.step] at h
    split at h
    · cases h
    · cases h; exact ⟨x, hx, ho, hp⟩

/-- C98 (partial): a call of `Send` that has come to its end has met exactly the peers of the socket at its beginning, each
once and in order, whatever other goroutines did; and an object is discarded only by a peer with 20 objects in its queue.
Missing: that the call comes to its end, see `C98_blocked_refuted`. -/
theorem C98_each_once_partial {α : Type} (pre more : List (CastAct α)) (s t : Cast α) (obj : α)
    (hs : run Cast.step (Cast.init α) pre = some s) (ht : run Cast.step s (.send obj :: more) = some t)
    (hd : (t.calls[s.calls.length]?.map (·.todo)) = some []) :
    t.log.filterMap (castAt s.calls.length) = s.peers ∧ s.peers.Nodup ∧
      ∀ c p n, .dropped c p n ∈ t.log → n = 20 := by
  have W := run_inv castWf_step pre _ s (castWf_init α) hs
  have W' := run_inv castWf_step _ s t W ht
  refine ⟨?_, W.peers.1, W'.full⟩
  simp only [run, Cast.step] at ht
  have hnone : s.log.filterMap (castAt s.calls.length) = [] := by
    rw [List.filterMap_eq_nil_iff]
    intro e he
    have := W.calls e he
    cases e <;> simp only [castCall] at this <;> simp only [castAt] <;> rw [if_neg (by omega)]
  have I := run_inv (castOn_step s.calls.length obj s.peers) more _ t
    ⟨⟨obj, s.peers, false⟩, by simp, rfl, by simp [hnone]⟩ ht
  obtain ⟨x, hx, _, hp⟩ := I
  rw [hx] at hd
  simp only [Option.map_some, Option.some.injEq] at hd
  rw [hd, List.append_nil] at hp
  exact hp

/-- Two peers, two calls that overlap; a third peer connects during the first call and is met by neither. -/
example : ∃ s t : Cast Nat, run Cast.step (Cast.init Nat) [.connect, .connect, .send 5, .check 0] = some s ∧
    run Cast.step s (.send 6 :: [.connect, .check 1, .push 1, .push 0, .take 0, .check 1, .push 1]) = some t ∧
    (t.calls[s.calls.length]?.map (·.todo)) = some [] ∧ s.peers = [0, 1] ∧ t.peers = [0, 1, 2] ∧
    t.log.filterMap (castAt 1) = [0, 1] ∧ t.log.filterMap (castAt 0) = [0] :=
  ⟨_, _, rfl, rfl, rfl, rfl, rfl, rfl, rfl⟩

/-! ## Whether the call ends -/

/-- Only the last call may be on its way, and if it waits there is room. -/
structure CastAlone {α : Type} (s : Cast α) : Prop where
  wf : CastWf s
  last : ∀ (c : Nat) x, s.calls[c]? = some x → x.todo ≠ [] → c + 1 = s.calls.length
  waits : ∀ (c : Nat) obj (p : Nat) rest, s.calls[c]? = some (CastCall.mk obj (p :: rest) true) →
    (s.queue p).length < 20

theorem castAlone_step {α : Type} (s : Cast α) (a : CastAct α) (t : Cast α)
    (ok : ∀ obj, a = .send obj → ∀ x ∈ s.calls, x.todo = []) (I : CastAlone s) (h : s.step a = some t) :
    CastAlone t := by
  have W := castWf_step s a t I.wf h
  cases a with
  | connect => cases h; exact ⟨W, I.last, I.waits⟩
  | forget => cases h; exact ⟨W, I.last, I.waits⟩
  | stop p =>
    simp only [Cast.step] at h
    split at h
    · cases h
    · cases h; exact ⟨W, I.last, I.waits⟩
  | send obj =>
    cases h
    have old : ∀ c x, (s.calls ++ [⟨obj, s.peers, false⟩])[c]? = some x → s.calls[c]? = some x ∨
        (c = s.calls.length ∧ x = ⟨obj, s.peers, false⟩) := by
      intro c x hx
      by_cases hc : c < s.calls.length
      · left; rwa [List.getElem?_append_left hc] at hx
      · right
        rw [List.getElem?_append_right (Nat.le_of_not_lt hc)] at hx
        have : c - s.calls.length = 0 := by
          have := (List.getElem?_eq_some_iff.mp hx).1
          simp only [List.length_singleton] at this
          omega
        rw [this] at hx
        simp only [List.getElem?_cons_zero, Option.some.injEq] at hx
        exact ⟨by omega, hx.symm⟩
    refine ⟨W, fun c x hx hn => ?_, fun c o p rest hx => ?_⟩
    · rcases old c x hx with hx | ⟨hc, _⟩
      · exact absurd (ok obj rfl x (List.mem_of_getElem? hx)) hn
      · simp [hc]
    · rcases old c _ hx with hx | ⟨_, hx⟩
      · exact I.waits c o p rest hx
      · exact absurd (congrArg CastCall.waiting hx) (by simp)
  | check d =>
    simp only [Cast.step] at h
    split at h
    · rename_i obj p rest hd
      have hlt : d < s.calls.length := (List.getElem?_eq_some_iff.mp hd).1
      have hlast := I.last d _ hd (by simp)
      split at h
      · cases h
        refine ⟨W, fun c x hx hn => ?_, fun c o p' rest' hx => ?_⟩
        · simp only [List.length_set]
          by_cases e : d = c
          · exact e ▸ hlast
          · exact I.last c x (by simpa [List.getElem?_set_ne e] using hx) hn
        · by_cases e : d = c
          · subst e; simp [hlt] at hx
          · exact I.waits c o p' rest' (by simpa [List.getElem?_set_ne e] using hx)
      · rename_i hq
        cases h
        refine ⟨W, fun c x hx hn => ?_, fun c o p' rest' hx => ?_⟩
        · simp only [List.length_set]
          by_cases e : d = c
          · exact e ▸ hlast
          · exact I.last c x (by simpa [List.getElem?_set_ne e] using hx) hn
        · by_cases e : d = c
          · subst e
            simp only [List.getElem?_set_self hlt, Option.some.injEq, CastCall.mk.injEq, List.cons.injEq] at hx
            have := I.wf.room p
            unfold cSendChanSize at hq
            show (s.queue p').length < 20
            rw [← hx.2.1.1]
            omega
          · exact I.waits c o p' rest' (by simpa [List.getElem?_set_ne e] using hx)
    · cases h
  | push d =>
    simp only [Cast.step] at h
    split at h
    · rename_i obj p rest hd
      have hlt : d < s.calls.length := (List.getElem?_eq_some_iff.mp hd).1
      have hlast := I.last d _ hd (by simp)
      split at h
      · cases h
      · cases h
        refine ⟨W, fun c x hx hn => ?_, fun c o p' rest' hx => ?_⟩
        · simp only [List.length_set]
          by_cases e : d = c
          · exact e ▸ hlast
          · exact I.last c x (by simpa [List.getElem?_set_ne e] using hx) hn
        · by_cases e : d = c
          · subst e; simp [hlt] at hx
          · have := I.last c _ (by simpa [List.getElem?_set_ne e] using hx) (by simp)
            omega
    · cases h
  | take q =>
    simp only [Cast.step] at h
    split at h
    · cases h
    · split at h
      · cases h
      · rename_i x rest hq
        cases h
        refine ⟨W, I.last, fun c o p' rest' hx => ?_⟩
        have := I.waits c o p' rest' hx
        by_cases e : p' = q
        · subst e
          simp only [upd_same]
          rw [hq] at this
          simp only [List.length_cons] at this
          omega
        · simpa only [upd_other _ _ e] using this

/-- C98 (partial): if a call of `Send` begins only when the earlier ones have come to their ends, no call ever waits: as
long as it has peers to visit, it can take its next step, also if the connections of peers have failed and their queues
are full. -/
theorem C98_alone_partial {α : Type} (acts : List (CastAct α)) (s : Cast α)
    (ha : AllSteps Cast.step (Cast.init α) acts fun t a => ∀ obj, a = .send obj → ∀ x ∈ t.calls, x.todo = [])
    (hs : run Cast.step (Cast.init α) acts = some s) (c : Nat) (x : CastCall α) (hx : s.calls[c]? = some x)
    (hn : x.todo ≠ []) : ∃ t, s.step (.check c) = some t ∨ s.step (.push c) = some t := by
  have I := run_inv_steps (I := CastAlone) castAlone_step acts _ s ha
    ⟨castWf_init α, by simp [Cast.init], by simp [Cast.init]⟩ hs
  obtain ⟨obj, todo, w⟩ := x
  cases todo with
  | nil => exact absurd rfl hn
  | cons p rest =>
    cases w with
    | false =>
      simp only [Cast.step, hx]
      split
      · exact ⟨_, .inl rfl⟩
      · exact ⟨_, .inl rfl⟩
    | true =>
      have := I.waits c obj p rest hx
      simp only [Cast.step, hx]
      rw [if_neg (by unfold cSendChanSize; omega)]
      exact ⟨_, .inr rfl⟩

/-- The send routine of peer 0 has ended.  `n` calls one after the other fill its queue, while peer 1 goes on. -/
def castFill : Nat → Nat → List (CastAct Nat)
  | _, 0 => []
  | c, n + 1 => [.send c, .check c, .push c, .check c, .push c, .take 1] ++ castFill (c + 1) n

/-- The queue of peer 0 is full: the next call discards its object there and goes on to peer 1. -/
example : ∃ s : Cast Nat, run Cast.step (Cast.init Nat)
      ([.connect, .connect, .stop 0] ++ castFill 0 20 ++ [.send 20, .check 20]) = some s ∧
    (s.queue 0).length = 20 ∧ s.calls[20]? = some ⟨20, [1], false⟩ ∧ .dropped 20 0 20 ∈ s.log ∧
    s.step (.check 20) ≠ none := by
  refine ⟨_, rfl, rfl, rfl, ?_, ?_⟩
  · decide +kernel
  · exact fun h => by cases h

/-- Two calls have both found room for one more object in the queue of peer 0. -/
def castJam : List (CastAct Nat) :=
  [.connect, .connect, .stop 0] ++ castFill 0 19 ++ [.send 19, .send 20, .check 19, .check 20, .push 19]

/-- Call 20 waits at peer 0, whose queue is full and is not emptied any more. -/
def CastStuck (s : Cast Nat) : Prop :=
  s.calls[20]? = some ⟨20, [0, 1], true⟩ ∧ (s.queue 0).length = 20 ∧ s.ended 0 = true ∧
    s.log.filterMap (castAt 20) = []

theorem castStuck_step (s : Cast Nat) (a : CastAct Nat) (t : Cast Nat) (I : CastStuck s) (h : s.step a = some t) :
    CastStuck t := by
  obtain ⟨h1, h2, h3, h4⟩ := I
  have hlt : 20 < s.calls.length := (List.getElem?_eq_some_iff.mp h1).1
  cases a with
  | connect => cases h; exact ⟨h1, h2, h3, h4⟩
  | forget => cases h; exact ⟨h1, h2, h3, h4⟩
  | send o => cases h; exact ⟨by simpa [List.getElem?_append_left hlt] using h1, h2, h3, h4⟩
  | check d =>
    simp only [Cast.step] at h
    split at h
    · rename_i o p rest hd
      have e : d ≠ 20 := by rintro rfl; rw [h1] at hd; cases hd
      split at h
      · cases h
        exact ⟨by simpa [List.getElem?_set_ne e] using h1, h2, h3, by simpa [castAt, e] using h4⟩
      · cases h
        exact ⟨by simpa [List.getElem?_set_ne e] using h1, h2, h3, h4⟩
    · cases h
  | push d =>
    simp only [Cast.step] at h
    split at h
    · rename_i o p rest hd
      split at h
      · cases h
      · rename_i hq
        have hp : (0 : Nat) ≠ p := by
          rintro rfl
          unfold cSendChanSize at hq
          omega
        have e : d ≠ 20 := by
          rintro rfl
          rw [h1] at hd
          cases hd
          exact hp rfl
        cases h
        exact ⟨by simpa [List.getElem?_set_ne e] using h1, by simpa only [upd_other _ _ hp] using h2, h3,
          by simpa [castAt, e] using h4⟩
    · cases h
  | take p =>
    simp only [Cast.step] at h
    split at h
    · cases h
    · rename_i he
      split at h
      · cases h
      · have hp : (0 : Nat) ≠ p := by rintro rfl; exact he h3
        cases h
        exact ⟨h1, by simpa only [upd_other _ _ hp] using h2, h3, h4⟩
  | stop p =>
    simp only [Cast.step] at h
    split at h
    · cases h
    · rename_i he
      have hp : (0 : Nat) ≠ p := by rintro rfl; exact he h3
      cases h
      exact ⟨h1, h2, by simpa only [upd_other _ _ hp] using h3, h4⟩

/-- C98 (refuted): the connection of peer 0 has failed, that of peer 1 works and its queue is empty.  When two goroutines
call `Send` at the same time, one of them can wait at peer 0 for ever, and peer 1 never gets its object. -/
theorem C98_blocked_refuted : ∃ s : Cast Nat, run Cast.step (Cast.init Nat) castJam = some s ∧ s.peers = [0, 1] ∧
    s.queue 1 = [] ∧ s.ended 1 = false ∧
    ∀ more t, run Cast.step s more = some t →
      (∃ x, t.calls[20]? = some x ∧ x.todo = [0, 1]) ∧ .queued 20 1 ∉ t.log := by
  refine ⟨_, rfl, rfl, rfl, rfl, fun more t ht => ?_⟩
  obtain ⟨h1, _, _, h4⟩ := run_inv castStuck_step more _ t ⟨rfl, rfl, rfl, rfl⟩ ht
  refine ⟨⟨_, h1, rfl⟩, fun hm => ?_⟩
  have := List.mem_filterMap.mpr ⟨_, hm, (rfl : castAt 20 (.queued 20 1) = some 1)⟩
  rw [h4] at this
  cases this

end Verif.Props
