import Verif.Net.Flow
import Verif.Props.Net10

/-!
# C159: the test of the package network

/repo/network/API_test.go:52-67, with any strings and any count of the wait group.
-/

namespace Verif.Props.Flow

open Verif Verif.Net Verif.Net.Flow

/-! ## Every execution is finite -/

/-- The steps that a string still to be sent can cause. -/
def cost (x : Str) : Nat := 9 + 3 * x.length

/-- The steps that a frame still to be handed up can cause. -/
def frameCost (x : Str) : Nat := 3 * max 1 x.length

/-- How far the test still has to go. -/
def mainLeft : Main → Nat
  | .dialing => 18 | .greeting => 17 | .running => 16 | .waiting => 13 | .nilC => 12 | .sinkC => 11 | .testC => 10 | .putC => 9
  | .unlinkC => 8 | .listener => 7 | .nilS => 6 | .sinkS => 5 | .testS => 4 | .putS => 3 | .unlinkS => 2 | .ended => 1 | .fatal => 0

/-- How often the goroutine that dials can still do something. -/
def dialLeft : Dialer → Nat
  | .polling l => l + 3 | .expiring => 2 | .leaving => 1 | .over _ => 0

/-- How much the goroutine that accepts can still cause. -/
def accLeft (msgs : List Str) : Acceptor → Nat
  | .first => 6 + (msgs.map cost).sum | .greeting rest => 5 + (rest.map cost).sum | .running => 4 | .again => 1 | .ended => 0

/-- How much a string in the queue can still cause. -/
def queueCost : Option Str → Nat
  | none => 0 | some x => 8 + 3 * x.length

/-- How much the send routine of the server can still cause. -/
def sendLeft : Sender → Nat
  | .off => 1 | .waiting => 1 | .writing x => 8 + 3 * x.length | .tested x => 7 + 3 * x.length | .sending x => 6 + 3 * x.length
  | .ended => 0

/-- How much the slice in the channel can still cause. -/
def chanLeft : Option (Option Str) → Nat
  | some (some x) => 4 + 3 * x.length | _ => 0

/-- How much the receive routine of the client can still cause. -/
def recvLeft : Receiver → Nat
  | .off => 1 | .reading => 1 | .testing l => 2 + (l.map frameCost).sum | .calling o l => 1 + frameCost o + (l.map frameCost).sum
  | .ended => 0

/-- Whether a routine that waits can still do something. -/
def idleLeft : Idler → Nat
  | .ended => 0 | _ => 1

/-- How many steps are still possible at most. -/
def left (msgs : List Str) (s : State) : Nat :=
  mainLeft s.main + dialLeft s.dial + (if s.status = 0 then 1 else 0) + accLeft msgs s.acc + (s.queue.map queueCost).sum + sendLeft s.sendS +
    idleLeft s.recvS + idleLeft s.sendC + recvLeft s.recvC + 3 * s.buf.length + chanLeft s.chanC + (if s.crashed then 0 else 1)

theorem frames_sum (ls : List Str) (h : ∀ x ∈ ls, Line x) : (ls.map frameCost).sum = 3 * ls.flatten.length := by
  induction ls with
  | nil => rfl
  | cons x ls ih =>
    have hx : 1 ≤ x.length := by
      obtain ⟨t, rfl, _⟩ := h x (by simp)
      simp
    have := ih fun y hy => h y (by simp [hy])
    simp only [List.map_cons, List.sum_cons, List.flatten_cons, List.length_append, this, frameCost]
    omega

theorem txt_chunk (b c : Str) : ∃ ls rest, recvChunk txtSerializer b c = (ls, some rest) ∧ (∀ x ∈ ls, Line x) ∧ 0 ∉ rest ∧
    ls.flatten ++ rest = b ++ c := by
  unfold recvChunk
  exact txt_loop _ _ (by simp)

theorem left_done {msgs : List Str} {s t : State} (h : left msgs t < left msgs s) (hc : s.crashed = false) : left msgs (done s t) < left msgs s := by
  unfold done
  split
  · simp only [left, hc] at *
    simp
  · exact h

theorem left_main {msgs : List Str} {s t : State} (hc : s.crashed = false) (h : s.mainStep = some t) : left msgs t < left msgs s := by
  unfold State.mainStep at h
  cases hm : s.main <;> simp only [hm] at h
  case dialing =>
    split at h
    · obtain rfl := Option.some.inj h; simp only [left, mainLeft, hm]; omega
    · obtain rfl := Option.some.inj h; simp only [left, mainLeft, hm]; omega
    · cases h
  case greeting => obtain rfl := Option.some.inj h; refine left_done ?_ hc; simp only [left, mainLeft, hm]; omega
  case running =>
    obtain rfl := Option.some.inj h
    simp only [left, mainLeft, hm, idleLeft, recvLeft]
    omega
  case testC | testS => obtain rfl := Option.some.inj h; simp only [left, hm]; split <;> simp only [mainLeft] <;> omega
  case nilS =>
    obtain rfl := Option.some.inj h
    simp only [left, mainLeft, hm]
    by_cases hq : s.queue.length = cSendChanSize
    · rw [if_pos hq]; omega
    · rw [if_neg hq]
      simp only [List.map_append, List.sum_append, List.map_cons, queueCost, List.map_nil, List.sum_cons, List.sum_nil]; omega
  case putC =>
    split at h
    · cases h
    · obtain rfl := Option.some.inj h
      simp only [left, mainLeft, hm]; omega
  case waiting | listener =>
    split at h
    · obtain rfl := Option.some.inj h
      simp only [left, mainLeft, hm]; omega
    · cases h
  case putS =>
    split at h
    · obtain rfl := Option.some.inj h
      simp only [left, mainLeft, hm, chanLeft]; omega
    · cases h
  case ended | fatal => cases h
  all_goals obtain rfl := Option.some.inj h; simp only [left, mainLeft, hm]; omega

theorem left_dial {msgs : List Str} {s t : State} (h : s.dialStep = some t) : left msgs t < left msgs s := by
  simp only [State.dialStep] at h
  repeat' split at h
  all_goals first | (cases h; done) | skip
  all_goals obtain rfl := Option.some.inj h
  all_goals clear h
  all_goals simp only [left, dialLeft, *]
  all_goals first | omega | (simp; omega)

theorem left_accept {msgs : List Str} {s t : State} (hc : s.crashed = false) (h : s.acceptStep msgs = some t) :
    left msgs t < left msgs s := by
  unfold State.acceptStep at h
  split at h
  · rename_i ha _
    obtain rfl := Option.some.inj h
    simp only [left, accLeft, ha]
    split <;> omega
  · rename_i ha _
    obtain rfl := Option.some.inj h
    simp only [left, accLeft, ha]
    omega
  · rename_i ha _
    obtain rfl := Option.some.inj h
    simp only [left, accLeft, ha]
    omega
  · rename_i ha
    obtain rfl := Option.some.inj h
    simp only [left, accLeft, ha, List.map_cons, List.sum_cons, cost]
    by_cases hq : s.queue.length = cSendChanSize
    · rw [if_pos hq]; omega
    · rw [if_neg hq]
      simp only [List.map_append, List.sum_append, List.map_cons, queueCost, List.map_nil, List.sum_cons, List.sum_nil]; omega
  · rename_i ha
    obtain rfl := Option.some.inj h
    refine left_done ?_ hc
    simp only [left, accLeft, ha]
    omega
  · rename_i ha
    obtain rfl := Option.some.inj h
    simp only [left, accLeft, ha, sendLeft, idleLeft]
    omega
  · cases h

theorem left_send {msgs : List Str} {s t : State} (hc : s.crashed = false) (h : s.sendStep = some t) : left msgs t < left msgs s := by
  unfold State.sendStep at h
  cases hm : s.sendS <;> simp only [hm] at h
  case waiting =>
    cases hq : s.queue with
    | nil => rw [hq] at h; cases h
    | cons x rest =>
      rw [hq] at h
      cases x <;> obtain rfl := Option.some.inj h <;>
        simp only [left, sendLeft, hm, hq, List.map_cons, List.sum_cons, queueCost] <;> omega
  case writing x =>
    obtain rfl := Option.some.inj h
    by_cases hl : s.linkS = true
    · simp only [left, hm, if_pos hl, sendLeft]; omega
    · simp only [left, hm, if_neg hl, sendLeft]; omega
  case tested =>
    split at h
    · obtain rfl := Option.some.inj h; simp only [left, hm, sendLeft]; omega
    · rw [← Option.some.inj h]; simp only [left, hm, hc]; simp
  case sending =>
    split at h
    · rename_i hn
      obtain rfl := Option.some.inj h
      simp only [left, hm, sendLeft, chanLeft, hn]; omega
    · cases h
  all_goals cases h

theorem left_recv {msgs : List Str} {s t : State} (hc : s.crashed = false) (h : s.recvStep = some t) : left msgs t < left msgs s := by
  unfold State.recvStep at h
  cases hm : s.recvC with
  | off => simp [hm] at h
  | ended => simp [hm] at h
  | reading =>
    simp only [hm] at h
    cases hq : s.chanC with
    | none => simp [hq] at h
    | some y =>
      cases y with
      | none =>
        simp only [hq] at h
        obtain rfl := Option.some.inj h
        simp only [left, hm, hq, recvLeft, chanLeft]; omega
      | some x =>
        simp only [hq] at h
        obtain ⟨ls, rest, e, h1, _, h2⟩ := txt_chunk s.buf (x.take cRecvBytesSize)
        simp only [e] at h
        obtain rfl := Option.some.inj h
        have h3 := frames_sum ls h1
        have h4 := congrArg List.length h2
        simp only [List.length_append, List.length_take] at h4
        simp only [left, hm, hq, recvLeft, chanLeft]; omega
  | testing l =>
    cases l with
    | nil =>
      simp only [hm] at h
      obtain rfl := Option.some.inj h
      simp only [left, hm, recvLeft]; simp
    | cons o l =>
      simp only [hm] at h
      obtain rfl := Option.some.inj h
      by_cases hl : s.sink = true
      · simp only [left, hm, if_pos hl, recvLeft, List.map_cons, List.sum_cons, frameCost]; omega
      · simp only [left, hm, if_neg hl, recvLeft, List.map_cons, List.sum_cons, frameCost]; omega
  | calling o l =>
    simp only [hm] at h
    split at h
    · obtain rfl := Option.some.inj h
      refine left_done ?_ hc
      simp only [left, hm, recvLeft, frameCost]; omega
    · rw [← Option.some.inj h]; simp only [left, hm, hc]; simp

theorem left_step {msgs : List Str} {s t : State} {a : Act} (h : s.step msgs a = some t) : left msgs t < left msgs s := by
  unfold State.step at h
  split at h
  · cases h
  rename_i hc
  simp only [not_or, Bool.not_eq_true] at hc
  cases a with
  | main => exact left_main hc.1 h
  | dial => exact left_dial h
  | accept => exact left_accept hc.1 h
  | sendS => exact left_send hc.1 h
  | recvC => exact left_recv hc.1 h
  | recvS =>
    simp only at h
    split at h
    · rename_i hh
      obtain rfl := Option.some.inj h; simp only [left, hh.1, idleLeft]; omega
    · cases h
  | sendC =>
    simp only at h
    split at h
    · rename_i hh
      obtain rfl := Option.some.inj h; simp only [left, hh.1, idleLeft]; omega
    · cases h

theorem left_run {msgs : List Str} : ∀ (as : List Act) (s t : State), run (State.step msgs) s as = some t →
    as.length + left msgs t ≤ left msgs s := by
  intro as
  induction as with
  | nil => intro s t h; cases h; simp
  | cons a as ih =>
    intro s t h
    simp only [run] at h
    cases e : s.step msgs a with
    | none => rw [e] at h; cases h
    | some u =>
      rw [e] at h
      have h1 := ih u t h
      have h2 := left_step e
      simp only [List.length_cons]
      omega

/-! ## The invariant -/

/-- How far the test is. -/
def stage : Main → Nat
  | .dialing => 0 | .greeting => 1 | .running => 2 | .waiting => 3 | .nilC => 4 | .sinkC => 5 | .testC => 6 | .putC => 7
  | .unlinkC => 8 | .listener => 9 | .nilS => 10 | .sinkS => 11 | .testS => 12 | .putS => 13 | .unlinkS => 14 | .ended => 15 | .fatal => 0

/-- `OnConnected` of the server has returned. -/
def greeted : Acceptor → Bool
  | .running | .again | .ended => true | _ => false

/-- The string that the send routine of the server is writing. -/
def hand : Sender → List Str
  | .writing x | .tested x | .sending x => [x] | _ => []

/-- The string in the channel. -/
def item : Option (Option Str) → List Str
  | some (some x) => [x] | _ => []

/-- The frames that have not been handed up. -/
def todo : Receiver → List Str
  | .testing l => l | .calling o l => o :: l | _ => []

/-- What is on its way from the server to the client. -/
def under (s : State) : List Str := item s.chanC ++ hand s.sendS ++ s.queue.filterMap id

/-- What holds in all executions, by how far the test and the goroutine that accepts are. -/
structure Inv (msgs : List Str) (n : Nat) (s : State) : Prop where
  crashed : s.crashed = false
  count : s.wg + s.packets.length + (if greeted s.acc then 1 else 0) + (if 2 ≤ stage s.main then 1 else 0) = n
  past : 4 ≤ stage s.main → s.wg = 0
  first : s.acc = .first → s.queue = [] ∧ s.sendS = .off ∧ s.recvS = .off ∧ s.chanC = none ∧ s.read = [] ∧ s.status ≠ 2 ∧
    (s.status = 0 → s.chanconn = none) ∧ (s.status ≠ 0 → s.chanconn = some true) ∧ stage s.main = 0 ∧ s.chanS = false
  greeting : ∀ rest, s.acc = .greeting rest → s.sendS = .off ∧ s.recvS = .off ∧ s.chanC = none ∧ s.read = [] ∧ s.queue.length ≤ 20 ∧
    (s.queue ++ rest.map some).take 20 = (msgs.take 20).map some
  running : s.acc = .running → s.sendS = .off ∧ s.recvS = .off ∧ s.chanC = none ∧ s.read = []
  started : s.acc = .again ∨ s.acc = .ended → s.sendS ≠ .off ∧ s.recvS ≠ .off
  items : greeted s.acc = true → s.read ++ under s = msgs.take 20
  text : s.packets.flatten ++ (todo s.recvC).flatten ++ s.buf = s.read.flatten
  lines : ∀ x ∈ s.packets ++ todo s.recvC, Line x
  rest : 0 ∉ s.buf
  dialled : s.dial = .over true → s.acc ≠ .first
  expiring : s.dial = .expiring → s.status ≠ 0
  fresh : s.acc ≠ .first → s.status ≠ 0
  client : stage s.main ≤ 2 → s.sendC = .off ∧ s.recvC = .off
  client' : 3 ≤ stage s.main → s.sendC ≠ .off ∧ s.recvC ≠ .off
  told : stage s.main ≤ 4 → s.told = false ∧ s.sendC ≠ .ended
  told' : 5 ≤ stage s.main → s.told = true ∨ s.sendC = .ended
  sink : stage s.main ≤ 5 → s.sink = true
  linkC : s.acc ≠ .first → stage s.main ≤ 8 → s.linkC = true
  linkS : s.acc ≠ .first → stage s.main ≤ 14 → s.linkS = true
  chanS : stage s.main ≤ 7 → s.chanS = false ∧ s.recvS ≠ .ended
  chanS' : 8 ≤ stage s.main → s.chanS = true ∨ s.recvS = .ended
  conn : s.acc ≠ .first → stage s.main ≤ 9 → s.chanconn = none ∧ s.acc ≠ .ended
  conn' : 10 ≤ stage s.main → s.chanconn = some false ∨ s.acc = .ended
  queue : stage s.main ≤ 10 → none ∉ s.queue ∧ s.sendS ≠ .ended
  queue' : 11 ≤ stage s.main → none ∈ s.queue ∨ s.sendS = .ended
  chanC : stage s.main ≤ 13 → s.chanC ≠ some none ∧ s.recvC ≠ .ended
  chanC' : 14 ≤ stage s.main → s.chanC = some none ∨ s.recvC = .ended

theorem inv_init (msgs : List Str) (n : Nat) : Inv msgs n (.init n) := by
  constructor <;> simp [State.init, greeted, stage, under, item, hand, todo]

theorem count_lines (ls : List Str) (h : ∀ x ∈ ls, Line x) : ls.flatten.count 0 = ls.length := by
  induction ls with
  | nil => rfl
  | cons x ls ih =>
    have hx : x.count 0 = 1 := by
      obtain ⟨t, rfl, ht⟩ := h x (by simp)
      rw [List.count_append, List.count_eq_zero_of_not_mem ht]; rfl
    have := ih fun y hy => h y (by simp [hy])
    simp only [List.flatten_cons, List.count_append, hx, this, List.length_cons]
    omega

/-- What the program is meant to be: the strings that fit the queue, which are the first twenty, end with a NUL, none is longer than the
buffer of the receive routine, and the wait group waits for all lines. -/
structure Fits (msgs : List Str) (n : Nat) : Prop where
  last : ∃ pre x, msgs.take 20 = pre ++ [x ++ [0]]
  size : ∀ x ∈ msgs.take 20, x.length ≤ cRecvBytesSize
  wg : 2 + (msgs.take 20).flatten.count 0 ≤ n

/-- If nothing is waited for, nothing is on its way. -/
theorem quiet {msgs : List Str} {n : Nat} {s : State} (F : Fits msgs n) (I : Inv msgs n s) (h : s.wg = 0) :
    n = 2 + (msgs.take 20).flatten.count 0 ∧ 2 ≤ stage s.main ∧ (s.acc = .again ∨ s.acc = .ended) ∧ todo s.recvC = [] ∧ item s.chanC = [] ∧
      hand s.sendS = [] ∧ s.queue.filterMap id = [] := by
  have hwg := F.wg
  have hc := I.count
  rw [h] at hc
  have hp : s.read.flatten.count 0 = s.packets.length + (todo s.recvC).length := by
    rw [← I.text, List.count_append, List.count_eq_zero_of_not_mem I.rest, ← List.flatten_append, count_lines _ I.lines]
    simp
  have hg : greeted s.acc = true := by
    cases hg : greeted s.acc with
    | true => rfl
    | false =>
      have hr : s.read = [] := by
        cases ha : s.acc with
        | first => exact (I.first ha).2.2.2.2.1
        | greeting r => exact (I.greeting r ha).2.2.2.1
        | running | again | ended => rw [ha] at hg; cases hg
      rw [hr] at hp
      simp [hg] at hc hp
      split at hc <;> omega
  have hi := I.items hg
  have hk : (msgs.take 20).flatten.count 0 = s.read.flatten.count 0 + (under s).flatten.count 0 := by
    rw [← hi, List.flatten_append, List.count_append]
  rw [if_pos hg] at hc
  have hu : under s = [] := by
    cases hu : under s with
    | nil => rfl
    | cons y l =>
      exfalso
      obtain ⟨pre, x, hx⟩ := F.last
      have hm : x ++ [0] ∈ under s := by
        have h1 : (s.read ++ under s).getLast? = some (x ++ [0]) := by rw [hi, hx]; simp
        rw [List.getLast?_append, hu] at h1
        rw [hu]
        cases h2 : (y :: l).getLast? with
        | none => simp at h2
        | some z =>
          rw [h2] at h1
          simp at h1
          exact h1 ▸ List.mem_of_getLast? h2
      have : 0 < (under s).flatten.count 0 := List.count_pos_iff.mpr (by simp only [List.mem_flatten]; exact ⟨_, hm, by simp⟩)
      split at hc <;> omega
  rw [hu] at hk
  simp only [List.flatten_nil, List.count_nil] at hk
  have h2 : 2 ≤ stage s.main ∧ (todo s.recvC).length = 0 := by
    split at hc <;> omega
  unfold under at hu
  simp only [List.append_eq_nil_iff] at hu
  refine ⟨?_, h2.1, ?_, List.eq_nil_of_length_eq_zero h2.2, hu.1.1, hu.1.2, hu.2⟩
  · split at hc <;> omega
  · cases ha : s.acc with
    | again => exact .inl rfl
    | ended => exact .inr rfl
    | first | greeting => rw [ha] at hg; cases hg
    | running =>
      exfalso
      have h1 := (I.running ha).2.2.2
      rw [h1] at hi
      unfold under at hi
      obtain ⟨pre, x, hx⟩ := F.last
      rw [hu.1.1, hu.1.2, hu.2, hx] at hi
      simp at hi

local macro "fld " hm:term ", " t:term : tactic => `(tactic| (
  have h' := $t
  first
    | exact h'
    | (revert h'; simp (config := { contextual := true }) [$hm:term, stage, greeted]; done)
    | (revert h'; simp (config := { contextual := true }) [$hm:term, stage, greeted, under, item, hand, todo]; done)))


theorem inv_main {msgs : List Str} {n : Nat} {s t : State} (F : Fits msgs n) (I : Inv msgs n s) (h : s.mainStep = some t) : Inv msgs n t := by
  unfold State.mainStep at h
  cases hm : s.main <;> simp only [hm] at h
  case dialing =>
    split at h
    · rename_i hd
      have hf := I.dialled hd
      obtain rfl := Option.some.inj h
      exact {
        crashed := by fld hm, I.crashed
        count := by fld hm, I.count
        past := by fld hm, I.past
        first := fun h => absurd h hf
        greeting := by fld hm, I.greeting
        running := by fld hm, I.running
        started := by fld hm, I.started
        items := by fld hm, I.items
        text := by fld hm, I.text
        lines := by fld hm, I.lines
        rest := by fld hm, I.rest
        dialled := by fld hm, I.dialled
        expiring := by fld hm, I.expiring
        fresh := by fld hm, I.fresh
        client := by fld hm, I.client
        client' := by fld hm, I.client'
        told := by fld hm, I.told
        told' := by fld hm, I.told'
        sink := by fld hm, I.sink
        linkC := by fld hm, I.linkC
        linkS := by fld hm, I.linkS
        chanS := by fld hm, I.chanS
        chanS' := by fld hm, I.chanS'
        conn := by fld hm, I.conn
        conn' := by fld hm, I.conn'
        queue := by fld hm, I.queue
        queue' := by fld hm, I.queue'
        chanC := by fld hm, I.chanC
        chanC' := by fld hm, I.chanC' }
    · obtain rfl := Option.some.inj h
      exact {
        crashed := by fld hm, I.crashed
        count := by fld hm, I.count
        past := by fld hm, I.past
        first := by fld hm, I.first
        greeting := by fld hm, I.greeting
        running := by fld hm, I.running
        started := by fld hm, I.started
        items := by fld hm, I.items
        text := by fld hm, I.text
        lines := by fld hm, I.lines
        rest := by fld hm, I.rest
        dialled := by fld hm, I.dialled
        expiring := by fld hm, I.expiring
        fresh := by fld hm, I.fresh
        client := by fld hm, I.client
        client' := by fld hm, I.client'
        told := by fld hm, I.told
        told' := by fld hm, I.told'
        sink := by fld hm, I.sink
        linkC := by fld hm, I.linkC
        linkS := by fld hm, I.linkS
        chanS := by fld hm, I.chanS
        chanS' := by fld hm, I.chanS'
        conn := by fld hm, I.conn
        conn' := by fld hm, I.conn'
        queue := by fld hm, I.queue
        queue' := by fld hm, I.queue'
        chanC := by fld hm, I.chanC
        chanC' := by fld hm, I.chanC' }
    · cases h
  case greeting =>
    unfold done at h
    split at h
    · rename_i hw
      have := (quiet F I hw).2.1
      rw [hm] at this
      exact absurd this (by decide)
    · rename_i hw
      obtain rfl := Option.some.inj h
      exact {
        crashed := by fld hm, I.crashed
        count := by have h1 := I.count; simp only [hm, stage] at h1 ⊢; revert h1; split <;> simp <;> omega
        past := by fld hm, I.past
        first := by fld hm, I.first
        greeting := by fld hm, I.greeting
        running := by fld hm, I.running
        started := by fld hm, I.started
        items := by fld hm, I.items
        text := by fld hm, I.text
        lines := by fld hm, I.lines
        rest := by fld hm, I.rest
        dialled := by fld hm, I.dialled
        expiring := by fld hm, I.expiring
        fresh := by fld hm, I.fresh
        client := by fld hm, I.client
        client' := by fld hm, I.client'
        told := by fld hm, I.told
        told' := by fld hm, I.told'
        sink := by fld hm, I.sink
        linkC := by fld hm, I.linkC
        linkS := by fld hm, I.linkS
        chanS := by fld hm, I.chanS
        chanS' := by fld hm, I.chanS'
        conn := by fld hm, I.conn
        conn' := by fld hm, I.conn'
        queue := by fld hm, I.queue
        queue' := by fld hm, I.queue'
        chanC := by fld hm, I.chanC
        chanC' := by fld hm, I.chanC' }
  case running =>
    obtain rfl := Option.some.inj h
    exact {
    crashed := by fld hm, I.crashed
    count := by fld hm, I.count
    past := by fld hm, I.past
    first := by fld hm, I.first
    greeting := by fld hm, I.greeting
    running := by fld hm, I.running
    started := by fld hm, I.started
    items := by fld hm, I.items
    text := by have h1 := I.text; rw [(I.client (by rw [hm]; decide)).2] at h1; exact h1
    lines := by have h1 := I.lines; rw [(I.client (by rw [hm]; decide)).2] at h1; exact h1
    rest := by fld hm, I.rest
    dialled := by fld hm, I.dialled
    expiring := by fld hm, I.expiring
    fresh := by fld hm, I.fresh
    client := by fld hm, I.client
    client' := by fld hm, I.client'
    told := by fld hm, I.told
    told' := by fld hm, I.told'
    sink := by fld hm, I.sink
    linkC := by fld hm, I.linkC
    linkS := by fld hm, I.linkS
    chanS := by fld hm, I.chanS
    chanS' := by fld hm, I.chanS'
    conn := by fld hm, I.conn
    conn' := by fld hm, I.conn'
    queue := by fld hm, I.queue
    queue' := by fld hm, I.queue'
    chanC := by fld hm, I.chanC
    chanC' := by fld hm, I.chanC' }
  case waiting =>
    split at h
    · rename_i hg
      obtain rfl := Option.some.inj h
      exact {
        crashed := by fld hm, I.crashed
        count := by fld hm, I.count
        past := fun _ => hg
        first := by fld hm, I.first
        greeting := by fld hm, I.greeting
        running := by fld hm, I.running
        started := by fld hm, I.started
        items := by fld hm, I.items
        text := by fld hm, I.text
        lines := by fld hm, I.lines
        rest := by fld hm, I.rest
        dialled := by fld hm, I.dialled
        expiring := by fld hm, I.expiring
        fresh := by fld hm, I.fresh
        client := by fld hm, I.client
        client' := by fld hm, I.client'
        told := by fld hm, I.told
        told' := by fld hm, I.told'
        sink := by fld hm, I.sink
        linkC := by fld hm, I.linkC
        linkS := by fld hm, I.linkS
        chanS := by fld hm, I.chanS
        chanS' := by fld hm, I.chanS'
        conn := by fld hm, I.conn
        conn' := by fld hm, I.conn'
        queue := by fld hm, I.queue
        queue' := by fld hm, I.queue'
        chanC := by fld hm, I.chanC
        chanC' := by fld hm, I.chanC' }
    · cases h
  case nilC =>
    obtain rfl := Option.some.inj h
    exact {
    crashed := by fld hm, I.crashed
    count := by fld hm, I.count
    past := by fld hm, I.past
    first := by fld hm, I.first
    greeting := by fld hm, I.greeting
    running := by fld hm, I.running
    started := by fld hm, I.started
    items := by fld hm, I.items
    text := by fld hm, I.text
    lines := by fld hm, I.lines
    rest := by fld hm, I.rest
    dialled := by fld hm, I.dialled
    expiring := by fld hm, I.expiring
    fresh := by fld hm, I.fresh
    client := by fld hm, I.client
    client' := by fld hm, I.client'
    told := by fld hm, I.told
    told' := by fld hm, I.told'
    sink := by fld hm, I.sink
    linkC := by fld hm, I.linkC
    linkS := by fld hm, I.linkS
    chanS := by fld hm, I.chanS
    chanS' := by fld hm, I.chanS'
    conn := by fld hm, I.conn
    conn' := by fld hm, I.conn'
    queue := by fld hm, I.queue
    queue' := by fld hm, I.queue'
    chanC := by fld hm, I.chanC
    chanC' := by fld hm, I.chanC' }
  case sinkC =>
    obtain rfl := Option.some.inj h
    exact {
    crashed := by fld hm, I.crashed
    count := by fld hm, I.count
    past := by fld hm, I.past
    first := by fld hm, I.first
    greeting := by fld hm, I.greeting
    running := by fld hm, I.running
    started := by fld hm, I.started
    items := by fld hm, I.items
    text := by fld hm, I.text
    lines := by fld hm, I.lines
    rest := by fld hm, I.rest
    dialled := by fld hm, I.dialled
    expiring := by fld hm, I.expiring
    fresh := by fld hm, I.fresh
    client := by fld hm, I.client
    client' := by fld hm, I.client'
    told := by fld hm, I.told
    told' := by fld hm, I.told'
    sink := by fld hm, I.sink
    linkC := by fld hm, I.linkC
    linkS := by fld hm, I.linkS
    chanS := by fld hm, I.chanS
    chanS' := by fld hm, I.chanS'
    conn := by fld hm, I.conn
    conn' := by fld hm, I.conn'
    queue := by fld hm, I.queue
    queue' := by fld hm, I.queue'
    chanC := by fld hm, I.chanC
    chanC' := by fld hm, I.chanC' }
  case testC =>
    have hl : s.linkC = true := I.linkC (fun e => by have := (I.first e).2.2.2.2.2.2.2.2.1; rw [hm] at this; exact absurd this (by decide)) (by rw [hm]; decide)
    rw [hl] at h
    obtain rfl := Option.some.inj h
    exact {
    crashed := by fld hm, I.crashed
    count := by fld hm, I.count
    past := by fld hm, I.past
    first := by fld hm, I.first
    greeting := by fld hm, I.greeting
    running := by fld hm, I.running
    started := by fld hm, I.started
    items := by fld hm, I.items
    text := by fld hm, I.text
    lines := by fld hm, I.lines
    rest := by fld hm, I.rest
    dialled := by fld hm, I.dialled
    expiring := by fld hm, I.expiring
    fresh := by fld hm, I.fresh
    client := by fld hm, I.client
    client' := by fld hm, I.client'
    told := by fld hm, I.told
    told' := by fld hm, I.told'
    sink := by fld hm, I.sink
    linkC := by fld hm, I.linkC
    linkS := by fld hm, I.linkS
    chanS := by fld hm, I.chanS
    chanS' := by fld hm, I.chanS'
    conn := by fld hm, I.conn
    conn' := by fld hm, I.conn'
    queue := by fld hm, I.queue
    queue' := by fld hm, I.queue'
    chanC := by fld hm, I.chanC
    chanC' := by fld hm, I.chanC' }
  case putC =>
    split at h
    · cases h
    · rename_i hg
      obtain rfl := Option.some.inj h
      exact {
        crashed := by fld hm, I.crashed
        count := by fld hm, I.count
        past := by fld hm, I.past
        first := by fld hm, I.first
        greeting := by fld hm, I.greeting
        running := by fld hm, I.running
        started := by fld hm, I.started
        items := by fld hm, I.items
        text := by fld hm, I.text
        lines := by fld hm, I.lines
        rest := by fld hm, I.rest
        dialled := by fld hm, I.dialled
        expiring := by fld hm, I.expiring
        fresh := by fld hm, I.fresh
        client := by fld hm, I.client
        client' := by fld hm, I.client'
        told := by fld hm, I.told
        told' := by fld hm, I.told'
        sink := by fld hm, I.sink
        linkC := by fld hm, I.linkC
        linkS := by fld hm, I.linkS
        chanS := by fld hm, I.chanS
        chanS' := by fld hm, I.chanS'
        conn := by fld hm, I.conn
        conn' := by fld hm, I.conn'
        queue := by fld hm, I.queue
        queue' := by fld hm, I.queue'
        chanC := by fld hm, I.chanC
        chanC' := by fld hm, I.chanC' }
  case unlinkC =>
    obtain rfl := Option.some.inj h
    exact {
    crashed := by fld hm, I.crashed
    count := by fld hm, I.count
    past := by fld hm, I.past
    first := by fld hm, I.first
    greeting := by fld hm, I.greeting
    running := by fld hm, I.running
    started := by fld hm, I.started
    items := by fld hm, I.items
    text := by fld hm, I.text
    lines := by fld hm, I.lines
    rest := by fld hm, I.rest
    dialled := by fld hm, I.dialled
    expiring := by fld hm, I.expiring
    fresh := by fld hm, I.fresh
    client := by fld hm, I.client
    client' := by fld hm, I.client'
    told := by fld hm, I.told
    told' := by fld hm, I.told'
    sink := by fld hm, I.sink
    linkC := by fld hm, I.linkC
    linkS := by fld hm, I.linkS
    chanS := by fld hm, I.chanS
    chanS' := by fld hm, I.chanS'
    conn := by fld hm, I.conn
    conn' := by fld hm, I.conn'
    queue := by fld hm, I.queue
    queue' := by fld hm, I.queue'
    chanC := by fld hm, I.chanC
    chanC' := by fld hm, I.chanC' }
  case listener =>
    split at h
    · rename_i hg
      obtain rfl := Option.some.inj h
      exact {
        crashed := by fld hm, I.crashed
        count := by fld hm, I.count
        past := by fld hm, I.past
        first := by fld hm, I.first
        greeting := by fld hm, I.greeting
        running := by fld hm, I.running
        started := by fld hm, I.started
        items := by fld hm, I.items
        text := by fld hm, I.text
        lines := by fld hm, I.lines
        rest := by fld hm, I.rest
        dialled := by fld hm, I.dialled
        expiring := by fld hm, I.expiring
        fresh := by fld hm, I.fresh
        client := by fld hm, I.client
        client' := by fld hm, I.client'
        told := by fld hm, I.told
        told' := by fld hm, I.told'
        sink := by fld hm, I.sink
        linkC := by fld hm, I.linkC
        linkS := by fld hm, I.linkS
        chanS := by fld hm, I.chanS
        chanS' := by fld hm, I.chanS'
        conn := by fld hm, I.conn
        conn' := by fld hm, I.conn'
        queue := by fld hm, I.queue
        queue' := by fld hm, I.queue'
        chanC := by fld hm, I.chanC
        chanC' := by fld hm, I.chanC' }
    · cases h
  case nilS =>
    have hq := quiet F I (I.past (by rw [hm]; decide))
    have hn : s.queue = [] := by
      have h1 := (I.queue (by rw [hm]; decide)).1
      cases e : s.queue with
      | nil => rfl
      | cons x l =>
        exfalso
        cases x with
        | none => rw [e] at h1; simp at h1
        | some y => have := hq.2.2.2.2.2.2; rw [e] at this; simp at this
    rw [hn] at h
    have hne : ¬ ([] : List (Option Str)).length = cSendChanSize := by decide
    rw [if_neg hne, List.nil_append] at h
    obtain rfl := Option.some.inj h
    exact {
    crashed := by fld hm, I.crashed
    count := by fld hm, I.count
    past := by fld hm, I.past
    first := by fld hm, I.first
    greeting := fun r e => by rcases hq.2.2.1 with e1 | e1 <;> rw [e1] at e <;> cases e
    running := by fld hm, I.running
    started := by fld hm, I.started
    items := fun e => by have := I.items e; unfold under at this ⊢; simpa [hn] using this
    text := by fld hm, I.text
    lines := by fld hm, I.lines
    rest := by fld hm, I.rest
    dialled := by fld hm, I.dialled
    expiring := by fld hm, I.expiring
    fresh := by fld hm, I.fresh
    client := by fld hm, I.client
    client' := by fld hm, I.client'
    told := by fld hm, I.told
    told' := by fld hm, I.told'
    sink := by fld hm, I.sink
    linkC := by fld hm, I.linkC
    linkS := by fld hm, I.linkS
    chanS := by fld hm, I.chanS
    chanS' := by fld hm, I.chanS'
    conn := by fld hm, I.conn
    conn' := by fld hm, I.conn'
    queue := by fld hm, I.queue
    queue' := fun _ => .inl (by simp)
    chanC := by fld hm, I.chanC
    chanC' := by fld hm, I.chanC' }
  case sinkS =>
    obtain rfl := Option.some.inj h
    exact {
    crashed := by fld hm, I.crashed
    count := by fld hm, I.count
    past := by fld hm, I.past
    first := by fld hm, I.first
    greeting := by fld hm, I.greeting
    running := by fld hm, I.running
    started := by fld hm, I.started
    items := by fld hm, I.items
    text := by fld hm, I.text
    lines := by fld hm, I.lines
    rest := by fld hm, I.rest
    dialled := by fld hm, I.dialled
    expiring := by fld hm, I.expiring
    fresh := by fld hm, I.fresh
    client := by fld hm, I.client
    client' := by fld hm, I.client'
    told := by fld hm, I.told
    told' := by fld hm, I.told'
    sink := by fld hm, I.sink
    linkC := by fld hm, I.linkC
    linkS := by fld hm, I.linkS
    chanS := by fld hm, I.chanS
    chanS' := by fld hm, I.chanS'
    conn := by fld hm, I.conn
    conn' := by fld hm, I.conn'
    queue := by fld hm, I.queue
    queue' := by fld hm, I.queue'
    chanC := by fld hm, I.chanC
    chanC' := by fld hm, I.chanC' }
  case testS =>
    have hl : s.linkS = true := I.linkS (fun e => by have := (I.first e).2.2.2.2.2.2.2.2.1; rw [hm] at this; exact absurd this (by decide)) (by rw [hm]; decide)
    rw [hl] at h
    obtain rfl := Option.some.inj h
    exact {
    crashed := by fld hm, I.crashed
    count := by fld hm, I.count
    past := by fld hm, I.past
    first := by fld hm, I.first
    greeting := by fld hm, I.greeting
    running := by fld hm, I.running
    started := by fld hm, I.started
    items := by fld hm, I.items
    text := by fld hm, I.text
    lines := by fld hm, I.lines
    rest := by fld hm, I.rest
    dialled := by fld hm, I.dialled
    expiring := by fld hm, I.expiring
    fresh := by fld hm, I.fresh
    client := by fld hm, I.client
    client' := by fld hm, I.client'
    told := by fld hm, I.told
    told' := by fld hm, I.told'
    sink := by fld hm, I.sink
    linkC := by fld hm, I.linkC
    linkS := by fld hm, I.linkS
    chanS := by fld hm, I.chanS
    chanS' := by fld hm, I.chanS'
    conn := by fld hm, I.conn
    conn' := by fld hm, I.conn'
    queue := by fld hm, I.queue
    queue' := by fld hm, I.queue'
    chanC := by fld hm, I.chanC
    chanC' := by fld hm, I.chanC' }
  case putS =>
    have hq := quiet F I (I.past (by rw [hm]; decide))
    split at h
    · rename_i hg
      obtain rfl := Option.some.inj h
      exact {
        crashed := by fld hm, I.crashed
        count := by fld hm, I.count
        past := by fld hm, I.past
        first := fun e => by rcases hq.2.2.1 with e1 | e1 <;> rw [e1] at e <;> cases e
        greeting := fun r e => by rcases hq.2.2.1 with e1 | e1 <;> rw [e1] at e <;> cases e
        running := fun e => by rcases hq.2.2.1 with e1 | e1 <;> rw [e1] at e <;> cases e
        started := by fld hm, I.started
        items := fun e => by have := I.items e; unfold under at this ⊢; simpa [hg, item] using this
        text := by fld hm, I.text
        lines := by fld hm, I.lines
        rest := by fld hm, I.rest
        dialled := by fld hm, I.dialled
        expiring := by fld hm, I.expiring
        fresh := by fld hm, I.fresh
        client := by fld hm, I.client
        client' := by fld hm, I.client'
        told := by fld hm, I.told
        told' := by fld hm, I.told'
        sink := by fld hm, I.sink
        linkC := by fld hm, I.linkC
        linkS := by fld hm, I.linkS
        chanS := by fld hm, I.chanS
        chanS' := by fld hm, I.chanS'
        conn := by fld hm, I.conn
        conn' := by fld hm, I.conn'
        queue := by fld hm, I.queue
        queue' := by fld hm, I.queue'
        chanC := by fld hm, I.chanC
        chanC' := by fld hm, I.chanC' }
    · cases h
  case unlinkS =>
    obtain rfl := Option.some.inj h
    exact {
    crashed := by fld hm, I.crashed
    count := by fld hm, I.count
    past := by fld hm, I.past
    first := by fld hm, I.first
    greeting := by fld hm, I.greeting
    running := by fld hm, I.running
    started := by fld hm, I.started
    items := by fld hm, I.items
    text := by fld hm, I.text
    lines := by fld hm, I.lines
    rest := by fld hm, I.rest
    dialled := by fld hm, I.dialled
    expiring := by fld hm, I.expiring
    fresh := by fld hm, I.fresh
    client := by fld hm, I.client
    client' := by fld hm, I.client'
    told := by fld hm, I.told
    told' := by fld hm, I.told'
    sink := by fld hm, I.sink
    linkC := by fld hm, I.linkC
    linkS := by fld hm, I.linkS
    chanS := by fld hm, I.chanS
    chanS' := by fld hm, I.chanS'
    conn := by fld hm, I.conn
    conn' := by fld hm, I.conn'
    queue := by fld hm, I.queue
    queue' := by fld hm, I.queue'
    chanC := by fld hm, I.chanC
    chanC' := by fld hm, I.chanC' }
  all_goals cases h


theorem early {msgs : List Str} {n : Nat} {s : State} (F : Fits msgs n) (I : Inv msgs n s)
    (h : (s.acc ≠ .again ∧ s.acc ≠ .ended) ∨ todo s.recvC ≠ [] ∨ item s.chanC ≠ [] ∨ hand s.sendS ≠ [] ∨ s.queue.filterMap id ≠ []) :
    stage s.main ≤ 3 ∧ s.wg ≠ 0 := by
  have hw : s.wg ≠ 0 := fun e => by
    have hq := quiet F I e
    rcases h with h | h | h | h | h
    · rcases hq.2.2.1 with e | e
      · exact h.1 e
      · exact h.2 e
    · exact h hq.2.2.2.1
    · exact h hq.2.2.2.2.1
    · exact h hq.2.2.2.2.2.1
    · exact h hq.2.2.2.2.2.2
  refine ⟨Nat.le_of_not_lt fun e => hw (I.past e), hw⟩

theorem inv_dial {msgs : List Str} {n : Nat} {s t : State} (F : Fits msgs n) (I : Inv msgs n s) (h : s.dialStep = some t) : Inv msgs n t := by
  unfold State.dialStep at h
  cases hm : s.dial <;> simp only [hm] at h
  case polling left =>
    split at h
    · rename_i h0
      have hf : s.acc = .first := Classical.byContradiction fun e => I.fresh e h0
      have hs := (I.first hf).2.2.2.2.2.2.2.2.1
      split at h
      · obtain rfl := Option.some.inj h
        exact {
          crashed := by fld hm, I.crashed
          count := by fld hm, I.count
          past := by fld hm, I.past
          first := fun _ => by have h1 := I.first hf; simp [h1]
          greeting := by fld hm, I.greeting
          running := by fld hm, I.running
          started := by fld hm, I.started
          items := by fld hm, I.items
          text := by fld hm, I.text
          lines := by fld hm, I.lines
          rest := by fld hm, I.rest
          dialled := by fld hm, I.dialled
          expiring := by fld hm, I.expiring
          fresh := fun e => absurd hf e
          client := by fld hm, I.client
          client' := by fld hm, I.client'
          told := by fld hm, I.told
          told' := by fld hm, I.told'
          sink := by fld hm, I.sink
          linkC := by fld hm, I.linkC
          linkS := by fld hm, I.linkS
          chanS := by fld hm, I.chanS
          chanS' := by fld hm, I.chanS'
          conn := fun e => absurd hf e
          conn' := fun e => absurd e (by simp only; omega)
          queue := by fld hm, I.queue
          queue' := by fld hm, I.queue'
          chanC := by fld hm, I.chanC
          chanC' := by fld hm, I.chanC' }
      · cases h
    · rename_i h0
      split at h
      · obtain rfl := Option.some.inj h
        exact {
          crashed := by fld hm, I.crashed
          count := by fld hm, I.count
          past := by fld hm, I.past
          first := by fld hm, I.first
          greeting := by fld hm, I.greeting
          running := by fld hm, I.running
          started := by fld hm, I.started
          items := by fld hm, I.items
          text := by fld hm, I.text
          lines := by fld hm, I.lines
          rest := by fld hm, I.rest
          dialled := by fld hm, I.dialled
          expiring := by fld hm, I.expiring
          fresh := by fld hm, I.fresh
          client := by fld hm, I.client
          client' := by fld hm, I.client'
          told := by fld hm, I.told
          told' := by fld hm, I.told'
          sink := by fld hm, I.sink
          linkC := by fld hm, I.linkC
          linkS := by fld hm, I.linkS
          chanS := by fld hm, I.chanS
          chanS' := by fld hm, I.chanS'
          conn := by fld hm, I.conn
          conn' := by fld hm, I.conn'
          queue := by fld hm, I.queue
          queue' := by fld hm, I.queue'
          chanC := by fld hm, I.chanC
          chanC' := by fld hm, I.chanC' }
      · split at h
        · obtain rfl := Option.some.inj h
          exact {
            crashed := by fld hm, I.crashed
            count := by fld hm, I.count
            past := by fld hm, I.past
            first := by fld hm, I.first
            greeting := by fld hm, I.greeting
            running := by fld hm, I.running
            started := by fld hm, I.started
            items := by fld hm, I.items
            text := by fld hm, I.text
            lines := by fld hm, I.lines
            rest := by fld hm, I.rest
            dialled := by fld hm, I.dialled
            expiring := fun _ => h0
            fresh := by fld hm, I.fresh
            client := by fld hm, I.client
            client' := by fld hm, I.client'
            told := by fld hm, I.told
            told' := by fld hm, I.told'
            sink := by fld hm, I.sink
            linkC := by fld hm, I.linkC
            linkS := by fld hm, I.linkS
            chanS := by fld hm, I.chanS
            chanS' := by fld hm, I.chanS'
            conn := by fld hm, I.conn
            conn' := by fld hm, I.conn'
            queue := by fld hm, I.queue
            queue' := by fld hm, I.queue'
            chanC := by fld hm, I.chanC
            chanC' := by fld hm, I.chanC' }
        · obtain rfl := Option.some.inj h
          exact {
            crashed := by fld hm, I.crashed
            count := by fld hm, I.count
            past := by fld hm, I.past
            first := by fld hm, I.first
            greeting := by fld hm, I.greeting
            running := by fld hm, I.running
            started := by fld hm, I.started
            items := by fld hm, I.items
            text := by fld hm, I.text
            lines := by fld hm, I.lines
            rest := by fld hm, I.rest
            dialled := by fld hm, I.dialled
            expiring := by fld hm, I.expiring
            fresh := by fld hm, I.fresh
            client := by fld hm, I.client
            client' := by fld hm, I.client'
            told := by fld hm, I.told
            told' := by fld hm, I.told'
            sink := by fld hm, I.sink
            linkC := by fld hm, I.linkC
            linkS := by fld hm, I.linkS
            chanS := by fld hm, I.chanS
            chanS' := by fld hm, I.chanS'
            conn := by fld hm, I.conn
            conn' := by fld hm, I.conn'
            queue := by fld hm, I.queue
            queue' := by fld hm, I.queue'
            chanC := by fld hm, I.chanC
            chanC' := by fld hm, I.chanC' }
  case expiring =>
    obtain rfl := Option.some.inj h
    exact {
    crashed := by fld hm, I.crashed
    count := by fld hm, I.count
    past := by fld hm, I.past
    first := fun e => by have h1 := I.first e; have h2 := I.expiring hm; simp [h1, h2]
    greeting := by fld hm, I.greeting
    running := by fld hm, I.running
    started := by fld hm, I.started
    items := by fld hm, I.items
    text := by fld hm, I.text
    lines := by fld hm, I.lines
    rest := by fld hm, I.rest
    dialled := by fld hm, I.dialled
    expiring := by fld hm, I.expiring
    fresh := fun _ => by simp
    client := by fld hm, I.client
    client' := by fld hm, I.client'
    told := by fld hm, I.told
    told' := by fld hm, I.told'
    sink := by fld hm, I.sink
    linkC := by fld hm, I.linkC
    linkS := by fld hm, I.linkS
    chanS := by fld hm, I.chanS
    chanS' := by fld hm, I.chanS'
    conn := by fld hm, I.conn
    conn' := by fld hm, I.conn'
    queue := by fld hm, I.queue
    queue' := by fld hm, I.queue'
    chanC := by fld hm, I.chanC
    chanC' := by fld hm, I.chanC' }
  case leaving =>
    obtain rfl := Option.some.inj h
    exact {
    crashed := by fld hm, I.crashed
    count := by fld hm, I.count
    past := by fld hm, I.past
    first := by fld hm, I.first
    greeting := by fld hm, I.greeting
    running := by fld hm, I.running
    started := by fld hm, I.started
    items := by fld hm, I.items
    text := by fld hm, I.text
    lines := by fld hm, I.lines
    rest := by fld hm, I.rest
    dialled := fun e e1 => by simp at e; exact (I.first e1).2.2.2.2.2.1 e
    expiring := by fld hm, I.expiring
    fresh := by fld hm, I.fresh
    client := by fld hm, I.client
    client' := by fld hm, I.client'
    told := by fld hm, I.told
    told' := by fld hm, I.told'
    sink := by fld hm, I.sink
    linkC := by fld hm, I.linkC
    linkS := by fld hm, I.linkS
    chanS := by fld hm, I.chanS
    chanS' := by fld hm, I.chanS'
    conn := by fld hm, I.conn
    conn' := by fld hm, I.conn'
    queue := by fld hm, I.queue
    queue' := by fld hm, I.queue'
    chanC := by fld hm, I.chanC
    chanC' := by fld hm, I.chanC' }
  case over => cases h


theorem inv_accept {msgs : List Str} {n : Nat} {s t : State} (F : Fits msgs n) (I : Inv msgs n s) (h : s.acceptStep msgs = some t) : Inv msgs n t := by
  unfold State.acceptStep at h
  split at h
  · rename_i hm hcc
    have h1 := I.first hm
    have hs := h1.2.2.2.2.2.2.2.2.1
    obtain rfl := Option.some.inj h
    exact {
      crashed := by fld hm, I.crashed
      count := by fld hm, I.count
      past := by fld hm, I.past
      first := fun e => by cases e
      greeting := fun r e => by cases e; simp [h1]
      running := by fld hm, I.running
      started := by fld hm, I.started
      items := by fld hm, I.items
      text := by fld hm, I.text
      lines := by fld hm, I.lines
      rest := by fld hm, I.rest
      dialled := by fld hm, I.dialled
      expiring := by fld hm, I.expiring
      fresh := fun _ => by simp
      client := by fld hm, I.client
      client' := by fld hm, I.client'
      told := by fld hm, I.told
      told' := by fld hm, I.told'
      sink := by fld hm, I.sink
      linkC := fun _ _ => rfl
      linkS := fun _ _ => rfl
      chanS := by fld hm, I.chanS
      chanS' := by fld hm, I.chanS'
      conn := fun _ _ => ⟨rfl, fun e => by cases e⟩
      conn' := fun e => absurd e (by simp only; omega)
      queue := by fld hm, I.queue
      queue' := by fld hm, I.queue'
      chanC := by fld hm, I.chanC
      chanC' := by fld hm, I.chanC' }
  · rename_i hm hcc
    have h1 := I.first hm
    by_cases h0 : s.status = 0
    · rw [h1.2.2.2.2.2.2.1 h0] at hcc; cases hcc
    · rw [h1.2.2.2.2.2.2.2.1 h0] at hcc; cases hcc
  · rename_i hm hcc
    obtain rfl := Option.some.inj h
    exact {
      crashed := by fld hm, I.crashed
      count := by fld hm, I.count
      past := by fld hm, I.past
      first := by fld hm, I.first
      greeting := by fld hm, I.greeting
      running := by fld hm, I.running
      started := by fld hm, I.started
      items := by fld hm, I.items
      text := by fld hm, I.text
      lines := by fld hm, I.lines
      rest := by fld hm, I.rest
      dialled := by fld hm, I.dialled
      expiring := by fld hm, I.expiring
      fresh := by fld hm, I.fresh
      client := by fld hm, I.client
      client' := by fld hm, I.client'
      told := by fld hm, I.told
      told' := by fld hm, I.told'
      sink := by fld hm, I.sink
      linkC := by fld hm, I.linkC
      linkS := by fld hm, I.linkS
      chanS := by fld hm, I.chanS
      chanS' := by fld hm, I.chanS'
      conn := fun _ e => by have := (I.conn (by rw [hm]; simp) e).1; rw [hcc] at this; cases this
      conn' := fun _ => .inr rfl
      queue := by fld hm, I.queue
      queue' := by fld hm, I.queue'
      chanC := by fld hm, I.chanC
      chanC' := by fld hm, I.chanC' }
  · rename_i x rest _ hm
    have hst := early F I (.inl (by simp [hm]))
    obtain rfl := Option.some.inj h
    have h1 := I.greeting _ hm
    exact {
      crashed := by fld hm, I.crashed
      count := by fld hm, I.count
      past := by fld hm, I.past
      first := by fld hm, I.first
      greeting := fun r e => by
        cases e
        simp only
        split
        · rename_i hl
          refine ⟨h1.1, h1.2.1, h1.2.2.1, h1.2.2.2.1, h1.2.2.2.2.1, ?_⟩
          rw [← h1.2.2.2.2.2, List.take_append, List.take_append, hl]; simp [cSendChanSize]
        · rename_i hl
          refine ⟨h1.1, h1.2.1, h1.2.2.1, h1.2.2.2.1, ?_, ?_⟩
          · have := h1.2.2.2.2.1
            simp only [cSendChanSize] at hl
            simp only [List.length_append, List.length_singleton]; omega
          · rw [← h1.2.2.2.2.2]; simp
      running := by fld hm, I.running
      started := by fld hm, I.started
      items := by fld hm, I.items
      text := by fld hm, I.text
      lines := by fld hm, I.lines
      rest := by fld hm, I.rest
      dialled := by fld hm, I.dialled
      expiring := by fld hm, I.expiring
      fresh := by fld hm, I.fresh
      client := by fld hm, I.client
      client' := by fld hm, I.client'
      told := by fld hm, I.told
      told' := by fld hm, I.told'
      sink := by fld hm, I.sink
      linkC := by fld hm, I.linkC
      linkS := by fld hm, I.linkS
      chanS := by fld hm, I.chanS
      chanS' := by fld hm, I.chanS'
      conn := by fld hm, I.conn
      conn' := by fld hm, I.conn'
      queue := fun e => by have h2 := I.queue e; refine ⟨?_, h2.2⟩; simp only; split <;> simp [h2.1]
      queue' := fun e => absurd e (by simp only; omega)
      chanC := by fld hm, I.chanC
      chanC' := by fld hm, I.chanC' }
  · rename_i hm
    have hst := early F I (.inl (by simp [hm]))
    unfold done at h
    rw [if_neg hst.2] at h
    obtain rfl := Option.some.inj h
    have h1 := I.greeting _ hm
    exact {
      crashed := by fld hm, I.crashed
      count := by have h2 := I.count; have hw := hst.2; simp only [hm, greeted, Bool.false_eq_true, if_false, if_true] at h2 ⊢; omega
      past := fun e => absurd e (by simp only; omega)
      first := by fld hm, I.first
      greeting := by fld hm, I.greeting
      running := fun _ => ⟨h1.1, h1.2.1, h1.2.2.1, h1.2.2.2.1⟩
      started := by fld hm, I.started
      items := fun _ => by
        have h2 := h1.2.2.2.2.2
        simp only [List.map_nil, List.append_nil] at h2
        rw [List.take_of_length_le h1.2.2.2.2.1] at h2
        show s.read ++ (item s.chanC ++ hand s.sendS ++ s.queue.filterMap id) = _
        rw [h1.1, h1.2.2.1, h1.2.2.2.1, h2]
        simp [item, hand]
      text := by fld hm, I.text
      lines := by fld hm, I.lines
      rest := by fld hm, I.rest
      dialled := by fld hm, I.dialled
      expiring := by fld hm, I.expiring
      fresh := by fld hm, I.fresh
      client := by fld hm, I.client
      client' := by fld hm, I.client'
      told := by fld hm, I.told
      told' := by fld hm, I.told'
      sink := by fld hm, I.sink
      linkC := by fld hm, I.linkC
      linkS := by fld hm, I.linkS
      chanS := by fld hm, I.chanS
      chanS' := by fld hm, I.chanS'
      conn := by fld hm, I.conn
      conn' := by fld hm, I.conn'
      queue := by fld hm, I.queue
      queue' := by fld hm, I.queue'
      chanC := by fld hm, I.chanC
      chanC' := by fld hm, I.chanC' }
  · rename_i hm
    have hst := early F I (.inl (by simp [hm]))
    obtain rfl := Option.some.inj h
    have h1 := I.running hm
    exact {
      crashed := by fld hm, I.crashed
      count := by fld hm, I.count
      past := by fld hm, I.past
      first := by fld hm, I.first
      greeting := by fld hm, I.greeting
      running := by fld hm, I.running
      started := by fld hm, I.started
      items := fun _ => by have h2 := I.items (by rw [hm]; rfl); unfold under at h2 ⊢; simpa [h1, hand] using h2
      text := by fld hm, I.text
      lines := by fld hm, I.lines
      rest := by fld hm, I.rest
      dialled := by fld hm, I.dialled
      expiring := by fld hm, I.expiring
      fresh := by fld hm, I.fresh
      client := by fld hm, I.client
      client' := by fld hm, I.client'
      told := by fld hm, I.told
      told' := by fld hm, I.told'
      sink := by fld hm, I.sink
      linkC := by fld hm, I.linkC
      linkS := by fld hm, I.linkS
      chanS := by fld hm, I.chanS
      chanS' := fun e => absurd e (by simp only; omega)
      conn := by fld hm, I.conn
      conn' := by fld hm, I.conn'
      queue := fun e => ⟨(I.queue e).1, by simp⟩
      queue' := fun e => absurd e (by simp only; omega)
      chanC := by fld hm, I.chanC
      chanC' := by fld hm, I.chanC' }
  · cases h


theorem inv_send {msgs : List Str} {n : Nat} {s t : State} (F : Fits msgs n) (I : Inv msgs n s) (h : s.sendStep = some t) : Inv msgs n t := by
  unfold State.sendStep at h
  cases hm : s.sendS <;> simp only [hm] at h
  case waiting =>
    cases hq : s.queue with
    | nil => rw [hq] at h; cases h
    | cons x rest =>
      rw [hq] at h
      cases x with
      | none =>
        obtain rfl := Option.some.inj h
        exact {
          crashed := by fld hm, I.crashed
          count := by fld hm, I.count
          past := by fld hm, I.past
          first := fun e => absurd (I.first e).2.1 (by rw [hm]; simp)
          greeting := fun r e => absurd (I.greeting r e).1 (by rw [hm]; simp)
          running := fun e => absurd (I.running e).1 (by rw [hm]; simp)
          started := by fld hm, I.started
          items := fun e => by have h2 := I.items e; unfold under at h2 ⊢; simpa [hm, hq, hand, item] using h2
          text := by fld hm, I.text
          lines := by fld hm, I.lines
          rest := by fld hm, I.rest
          dialled := by fld hm, I.dialled
          expiring := by fld hm, I.expiring
          fresh := by fld hm, I.fresh
          client := by fld hm, I.client
          client' := by fld hm, I.client'
          told := by fld hm, I.told
          told' := by fld hm, I.told'
          sink := by fld hm, I.sink
          linkC := by fld hm, I.linkC
          linkS := by fld hm, I.linkS
          chanS := by fld hm, I.chanS
          chanS' := by fld hm, I.chanS'
          conn := by fld hm, I.conn
          conn' := by fld hm, I.conn'
          queue := fun e => absurd (I.queue e).1 (by simp [hq])
          queue' := fun _ => .inr rfl
          chanC := by fld hm, I.chanC
          chanC' := by fld hm, I.chanC' }
      | some x =>
        obtain rfl := Option.some.inj h
        exact {
          crashed := by fld hm, I.crashed
          count := by fld hm, I.count
          past := by fld hm, I.past
          first := fun e => absurd (I.first e).2.1 (by rw [hm]; simp)
          greeting := fun r e => absurd (I.greeting r e).1 (by rw [hm]; simp)
          running := fun e => absurd (I.running e).1 (by rw [hm]; simp)
          started := by fld hm, I.started
          items := fun e => by have h2 := I.items e; unfold under at h2 ⊢; simpa [hm, hq, hand, item] using h2
          text := by fld hm, I.text
          lines := by fld hm, I.lines
          rest := by fld hm, I.rest
          dialled := by fld hm, I.dialled
          expiring := by fld hm, I.expiring
          fresh := by fld hm, I.fresh
          client := by fld hm, I.client
          client' := by fld hm, I.client'
          told := by fld hm, I.told
          told' := by fld hm, I.told'
          sink := by fld hm, I.sink
          linkC := by fld hm, I.linkC
          linkS := by fld hm, I.linkS
          chanS := by fld hm, I.chanS
          chanS' := by fld hm, I.chanS'
          conn := by fld hm, I.conn
          conn' := by fld hm, I.conn'
          queue := fun e => by have h2 := I.queue e; rw [hq] at h2; simpa using h2.1
          queue' := fun e => by have h2 := I.queue' e; rw [hq, hm] at h2; simpa using h2
          chanC := by fld hm, I.chanC
          chanC' := by fld hm, I.chanC' }
  case writing x =>
    have hst := early F I (.inr (.inr (.inr (.inl (by simp [hm, hand])))))
    have hl : s.linkS = true := I.linkS (fun e => absurd (I.first e).2.1 (by rw [hm]; simp)) (by omega)
    rw [hl] at h
    obtain rfl := Option.some.inj h
    exact {
    crashed := by fld hm, I.crashed
    count := by fld hm, I.count
    past := by fld hm, I.past
    first := fun e => absurd (I.first e).2.1 (by rw [hm]; simp)
    greeting := fun r e => absurd (I.greeting r e).1 (by rw [hm]; simp)
    running := fun e => absurd (I.running e).1 (by rw [hm]; simp)
    started := by fld hm, I.started
    items := fun e => by have h2 := I.items e; unfold under at h2 ⊢; simpa [hm, hand, item] using h2
    text := by fld hm, I.text
    lines := by fld hm, I.lines
    rest := by fld hm, I.rest
    dialled := by fld hm, I.dialled
    expiring := by fld hm, I.expiring
    fresh := by fld hm, I.fresh
    client := by fld hm, I.client
    client' := by fld hm, I.client'
    told := by fld hm, I.told
    told' := by fld hm, I.told'
    sink := by fld hm, I.sink
    linkC := by fld hm, I.linkC
    linkS := by fld hm, I.linkS
    chanS := by fld hm, I.chanS
    chanS' := by fld hm, I.chanS'
    conn := by fld hm, I.conn
    conn' := by fld hm, I.conn'
    queue := by fld hm, I.queue
    queue' := by fld hm, I.queue'
    chanC := by fld hm, I.chanC
    chanC' := by fld hm, I.chanC' }
  case tested x =>
    have hst := early F I (.inr (.inr (.inr (.inl (by simp [hm, hand])))))
    have hl : s.linkS = true := I.linkS (fun e => absurd (I.first e).2.1 (by rw [hm]; simp)) (by omega)
    rw [if_pos hl] at h
    obtain rfl := Option.some.inj h
    exact {
    crashed := by fld hm, I.crashed
    count := by fld hm, I.count
    past := by fld hm, I.past
    first := fun e => absurd (I.first e).2.1 (by rw [hm]; simp)
    greeting := fun r e => absurd (I.greeting r e).1 (by rw [hm]; simp)
    running := fun e => absurd (I.running e).1 (by rw [hm]; simp)
    started := by fld hm, I.started
    items := fun e => by have h2 := I.items e; unfold under at h2 ⊢; simpa [hm, hand, item] using h2
    text := by fld hm, I.text
    lines := by fld hm, I.lines
    rest := by fld hm, I.rest
    dialled := by fld hm, I.dialled
    expiring := by fld hm, I.expiring
    fresh := by fld hm, I.fresh
    client := by fld hm, I.client
    client' := by fld hm, I.client'
    told := by fld hm, I.told
    told' := by fld hm, I.told'
    sink := by fld hm, I.sink
    linkC := by fld hm, I.linkC
    linkS := by fld hm, I.linkS
    chanS := by fld hm, I.chanS
    chanS' := by fld hm, I.chanS'
    conn := by fld hm, I.conn
    conn' := by fld hm, I.conn'
    queue := by fld hm, I.queue
    queue' := by fld hm, I.queue'
    chanC := by fld hm, I.chanC
    chanC' := by fld hm, I.chanC' }
  case sending x =>
    have hst := early F I (.inr (.inr (.inr (.inl (by simp [hm, hand])))))
    split at h
    · rename_i hq
      obtain rfl := Option.some.inj h
      exact {
        crashed := by fld hm, I.crashed
        count := by fld hm, I.count
        past := by fld hm, I.past
        first := fun e => absurd (I.first e).2.1 (by rw [hm]; simp)
        greeting := fun r e => absurd (I.greeting r e).1 (by rw [hm]; simp)
        running := fun e => absurd (I.running e).1 (by rw [hm]; simp)
        started := by fld hm, I.started
        items := fun e => by have h2 := I.items e; unfold under at h2 ⊢; simpa [hm, hq, hand, item] using h2
        text := by fld hm, I.text
        lines := by fld hm, I.lines
        rest := by fld hm, I.rest
        dialled := by fld hm, I.dialled
        expiring := by fld hm, I.expiring
        fresh := by fld hm, I.fresh
        client := by fld hm, I.client
        client' := by fld hm, I.client'
        told := by fld hm, I.told
        told' := by fld hm, I.told'
        sink := by fld hm, I.sink
        linkC := by fld hm, I.linkC
        linkS := by fld hm, I.linkS
        chanS := by fld hm, I.chanS
        chanS' := by fld hm, I.chanS'
        conn := by fld hm, I.conn
        conn' := by fld hm, I.conn'
        queue := by fld hm, I.queue
        queue' := by fld hm, I.queue'
        chanC := by fld hm, I.chanC
        chanC' := fun e => absurd e (by simp only; omega) }
    · cases h
  all_goals cases h


theorem inv_recv {msgs : List Str} {n : Nat} {s t : State} (F : Fits msgs n) (I : Inv msgs n s) (h : s.recvStep = some t) : Inv msgs n t := by
  unfold State.recvStep at h
  cases hm : s.recvC with
  | off => simp [hm] at h
  | ended => simp [hm] at h
  | reading =>
    simp only [hm] at h
    cases hq : s.chanC with
    | none => simp [hq] at h
    | some y =>
      cases y with
      | none =>
        simp only [hq] at h
        obtain rfl := Option.some.inj h
        exact {
          crashed := by fld hm, I.crashed
          count := by fld hm, I.count
          past := by fld hm, I.past
          first := fun e => absurd (I.first e).2.2.2.1 (by rw [hq]; simp)
          greeting := fun r e => absurd (I.greeting r e).2.2.1 (by rw [hq]; simp)
          running := fun e => absurd (I.running e).2.2.1 (by rw [hq]; simp)
          started := by fld hm, I.started
          items := fun e => by have h2 := I.items e; unfold under at h2 ⊢; simpa [hm, hq, hand, item] using h2
          text := by fld hm, I.text
          lines := by fld hm, I.lines
          rest := by fld hm, I.rest
          dialled := by fld hm, I.dialled
          expiring := by fld hm, I.expiring
          fresh := by fld hm, I.fresh
          client := by fld hm, I.client
          client' := by fld hm, I.client'
          told := by fld hm, I.told
          told' := by fld hm, I.told'
          sink := by fld hm, I.sink
          linkC := by fld hm, I.linkC
          linkS := by fld hm, I.linkS
          chanS := by fld hm, I.chanS
          chanS' := by fld hm, I.chanS'
          conn := by fld hm, I.conn
          conn' := by fld hm, I.conn'
          queue := by fld hm, I.queue
          queue' := by fld hm, I.queue'
          chanC := fun e => absurd hq (I.chanC e).1
          chanC' := fun _ => .inr rfl }
      | some x =>
        have hst := early F I (.inr (.inr (.inl (by simp [hq, item]))))
        simp only [hq] at h
        have hg : greeted s.acc = true := by
          cases ha : s.acc with
          | first => exact absurd (I.first ha).2.2.2.1 (by rw [hq]; simp)
          | greeting r => exact absurd (I.greeting r ha).2.2.1 (by rw [hq]; simp)
          | running | again | ended => rfl
        have hx : x.length ≤ cRecvBytesSize := F.size x (by rw [← I.items hg]; simp [under, hq, item])
        rw [List.take_of_length_le hx] at h
        obtain ⟨ls, rest, e, h1, h3, h2⟩ := txt_chunk s.buf x
        simp only [e] at h
        obtain rfl := Option.some.inj h
        have ht := I.text
        have hl := I.lines
        rw [hm] at ht hl
        exact {
          crashed := by fld hm, I.crashed
          count := by fld hm, I.count
          past := by fld hm, I.past
          first := fun e => absurd (I.first e).2.2.2.1 (by rw [hq]; simp)
          greeting := fun r e => absurd (I.greeting r e).2.2.1 (by rw [hq]; simp)
          running := fun e => absurd (I.running e).2.2.1 (by rw [hq]; simp)
          started := by fld hm, I.started
          items := fun e => by have h2 := I.items e; unfold under at h2 ⊢; simpa [hm, hq, hand, item] using h2
          text := by simp only [todo, List.flatten_append, List.flatten_cons, List.flatten_nil, List.append_nil]; rw [← ht, List.append_assoc, h2]; simp [todo]
          lines := fun y hy => (List.mem_append.mp hy).elim (fun hy => hl y (List.mem_append_left _ hy)) (h1 y)
          rest := h3
          dialled := by fld hm, I.dialled
          expiring := by fld hm, I.expiring
          fresh := by fld hm, I.fresh
          client := by fld hm, I.client
          client' := by fld hm, I.client'
          told := by fld hm, I.told
          told' := by fld hm, I.told'
          sink := by fld hm, I.sink
          linkC := by fld hm, I.linkC
          linkS := by fld hm, I.linkS
          chanS := by fld hm, I.chanS
          chanS' := by fld hm, I.chanS'
          conn := by fld hm, I.conn
          conn' := by fld hm, I.conn'
          queue := by fld hm, I.queue
          queue' := by fld hm, I.queue'
          chanC := by fld hm, I.chanC
          chanC' := fun e => absurd e (by simp only; omega) }
  | testing l =>
    cases l with
    | nil =>
      simp only [hm] at h
      obtain rfl := Option.some.inj h
      exact {
        crashed := by fld hm, I.crashed
        count := by fld hm, I.count
        past := by fld hm, I.past
        first := by fld hm, I.first
        greeting := by fld hm, I.greeting
        running := by fld hm, I.running
        started := by fld hm, I.started
        items := I.items
        text := by fld hm, I.text
        lines := by fld hm, I.lines
        rest := by fld hm, I.rest
        dialled := by fld hm, I.dialled
        expiring := by fld hm, I.expiring
        fresh := by fld hm, I.fresh
        client := by fld hm, I.client
        client' := by fld hm, I.client'
        told := by fld hm, I.told
        told' := by fld hm, I.told'
        sink := by fld hm, I.sink
        linkC := by fld hm, I.linkC
        linkS := by fld hm, I.linkS
        chanS := by fld hm, I.chanS
        chanS' := by fld hm, I.chanS'
        conn := by fld hm, I.conn
        conn' := by fld hm, I.conn'
        queue := by fld hm, I.queue
        queue' := by fld hm, I.queue'
        chanC := by fld hm, I.chanC
        chanC' := by fld hm, I.chanC' }
    | cons o l =>
      have hst := early F I (.inr (.inl (by simp [hm, todo])))
      simp only [hm] at h
      rw [if_pos (I.sink (by omega))] at h
      obtain rfl := Option.some.inj h
      exact {
        crashed := by fld hm, I.crashed
        count := by fld hm, I.count
        past := by fld hm, I.past
        first := by fld hm, I.first
        greeting := by fld hm, I.greeting
        running := by fld hm, I.running
        started := by fld hm, I.started
        items := I.items
        text := by fld hm, I.text
        lines := by fld hm, I.lines
        rest := by fld hm, I.rest
        dialled := by fld hm, I.dialled
        expiring := by fld hm, I.expiring
        fresh := by fld hm, I.fresh
        client := by fld hm, I.client
        client' := by fld hm, I.client'
        told := by fld hm, I.told
        told' := by fld hm, I.told'
        sink := by fld hm, I.sink
        linkC := by fld hm, I.linkC
        linkS := by fld hm, I.linkS
        chanS := by fld hm, I.chanS
        chanS' := by fld hm, I.chanS'
        conn := by fld hm, I.conn
        conn' := by fld hm, I.conn'
        queue := by fld hm, I.queue
        queue' := by fld hm, I.queue'
        chanC := by fld hm, I.chanC
        chanC' := by fld hm, I.chanC' }
  | calling o l =>
    have hst := early F I (.inr (.inl (by simp [hm, todo])))
    simp only [hm] at h
    rw [if_pos (I.sink (by omega))] at h
    unfold done at h
    rw [if_neg hst.2] at h
    obtain rfl := Option.some.inj h
    have hw := hst.2
    exact {
    crashed := by fld hm, I.crashed
    count := by have h2 := I.count; simp only [List.length_append, List.length_singleton]; omega
    past := fun e => absurd e (by simp only; omega)
    first := by fld hm, I.first
    greeting := by fld hm, I.greeting
    running := by fld hm, I.running
    started := by fld hm, I.started
    items := I.items
    text := by have h2 := I.text; rw [hm] at h2; rw [← h2]; simp [todo]
    lines := fun y hy => I.lines y (by rw [hm]; simpa [todo] using hy)
    rest := by fld hm, I.rest
    dialled := by fld hm, I.dialled
    expiring := by fld hm, I.expiring
    fresh := by fld hm, I.fresh
    client := by fld hm, I.client
    client' := by fld hm, I.client'
    told := by fld hm, I.told
    told' := by fld hm, I.told'
    sink := by fld hm, I.sink
    linkC := by fld hm, I.linkC
    linkS := by fld hm, I.linkS
    chanS := by fld hm, I.chanS
    chanS' := by fld hm, I.chanS'
    conn := by fld hm, I.conn
    conn' := by fld hm, I.conn'
    queue := by fld hm, I.queue
    queue' := by fld hm, I.queue'
    chanC := by fld hm, I.chanC
    chanC' := by fld hm, I.chanC' }


theorem inv_step {msgs : List Str} {n : Nat} {s t : State} (F : Fits msgs n) (I : Inv msgs n s) {a : Act} (h : s.step msgs a = some t) : Inv msgs n t := by
  unfold State.step at h
  split at h
  · cases h
  cases a with
  | main => exact inv_main F I h
  | dial => exact inv_dial F I h
  | accept => exact inv_accept F I h
  | sendS => exact inv_send F I h
  | recvC => exact inv_recv F I h
  | recvS =>
    simp only at h
    split at h
    · rename_i hm
      obtain rfl := Option.some.inj h
      exact {
        crashed := by fld hm.1, I.crashed
        count := by fld hm.1, I.count
        past := by fld hm.1, I.past
        first := fun e => absurd (I.first e).2.2.1 (by rw [hm.1]; simp)
        greeting := fun r e => absurd (I.greeting r e).2.1 (by rw [hm.1]; simp)
        running := fun e => absurd (I.running e).2.1 (by rw [hm.1]; simp)
        started := by fld hm.1, I.started
        items := I.items
        text := by fld hm.1, I.text
        lines := by fld hm.1, I.lines
        rest := by fld hm.1, I.rest
        dialled := by fld hm.1, I.dialled
        expiring := by fld hm.1, I.expiring
        fresh := by fld hm.1, I.fresh
        client := by fld hm.1, I.client
        client' := by fld hm.1, I.client'
        told := by fld hm.1, I.told
        told' := by fld hm.1, I.told'
        sink := by fld hm.1, I.sink
        linkC := by fld hm.1, I.linkC
        linkS := by fld hm.1, I.linkS
        chanS := fun e => absurd hm.2 (by simp [(I.chanS e).1])
        chanS' := fun _ => .inr rfl
        conn := by fld hm.1, I.conn
        conn' := by fld hm.1, I.conn'
        queue := by fld hm.1, I.queue
        queue' := by fld hm.1, I.queue'
        chanC := by fld hm.1, I.chanC
        chanC' := by fld hm.1, I.chanC' }
    · cases h
  | sendC =>
    simp only at h
    split at h
    · rename_i hm
      obtain rfl := Option.some.inj h
      exact {
        crashed := by fld hm.1, I.crashed
        count := by fld hm.1, I.count
        past := by fld hm.1, I.past
        first := by fld hm.1, I.first
        greeting := by fld hm.1, I.greeting
        running := by fld hm.1, I.running
        started := by fld hm.1, I.started
        items := I.items
        text := by fld hm.1, I.text
        lines := by fld hm.1, I.lines
        rest := by fld hm.1, I.rest
        dialled := by fld hm.1, I.dialled
        expiring := by fld hm.1, I.expiring
        fresh := by fld hm.1, I.fresh
        client := by fld hm.1, I.client
        client' := by fld hm.1, I.client'
        told := fun e => absurd hm.2 (by simp [(I.told e).1])
        told' := fun _ => .inr rfl
        sink := by fld hm.1, I.sink
        linkC := by fld hm.1, I.linkC
        linkS := by fld hm.1, I.linkS
        chanS := by fld hm.1, I.chanS
        chanS' := by fld hm.1, I.chanS'
        conn := by fld hm.1, I.conn
        conn' := by fld hm.1, I.conn'
        queue := by fld hm.1, I.queue
        queue' := by fld hm.1, I.queue'
        chanC := by fld hm.1, I.chanC
        chanC' := by fld hm.1, I.chanC' }
    · cases h


theorem inv_reach {msgs : List Str} {n : Nat} {s : State} (F : Fits msgs n) (h : Reachable (State.step msgs) (.init n) s) : Inv msgs n s := by
  obtain ⟨as, h⟩ := h
  exact run_inv (I := Inv msgs n) (fun _ _ _ I h => inv_step F I h) as _ _ (inv_init msgs n) h

/-- Where nobody can go on, the test has ended or waits for more than is sent, and all that was sent has been handed up. -/
theorem stuck {msgs : List Str} {n : Nat} {s : State} (F : Fits msgs n) (I : Inv msgs n s) (hs : ∀ a, s.step msgs a = none)
    (hf : s.main ≠ .fatal) : (s.main = .waiting ∨ s.main = .ended) ∧ under s = [] ∧ todo s.recvC = [] ∧ greeted s.acc = true ∧
      (s.main = .ended → s.acc = .ended ∧ s.sendS = .ended ∧ s.recvS = .ended ∧ s.sendC = .ended ∧ s.recvC = .ended) := by
  have live : ¬ (s.crashed = true ∨ s.main = .fatal) := by simp [I.crashed, hf]
  have hd : s.dialStep = none := by have := hs .dial; unfold State.step at this; rwa [if_neg live] at this
  have hmn : s.mainStep = none := by have := hs .main; unfold State.step at this; rwa [if_neg live] at this
  have ha : s.acceptStep msgs = none := by have := hs .accept; unfold State.step at this; rwa [if_neg live] at this
  have hse : s.sendStep = none := by have := hs .sendS; unfold State.step at this; rwa [if_neg live] at this
  have hre : s.recvStep = none := by have := hs .recvC; unfold State.step at this; rwa [if_neg live] at this
  have hrs : ¬ (s.recvS = .waiting ∧ s.chanS = true) := fun e => by
    have := hs .recvS; unfold State.step at this; rw [if_neg live] at this; simp [e] at this
  have hsc : ¬ (s.sendC = .waiting ∧ s.told = true) := fun e => by
    have := hs .sendC; unfold State.step at this; rw [if_neg live] at this; simp [e] at this
  -- the goroutine that dials has ended
  obtain ⟨b, hb⟩ : ∃ b, s.dial = .over b := by
    unfold State.dialStep at hd
    cases e : s.dial with
    | over b => exact ⟨b, rfl⟩
    | expiring => simp [e] at hd
    | leaving => simp [e] at hd
    | polling l =>
      simp only [e] at hd
      split at hd
      · rename_i h0
        have hf : s.acc = .first := Classical.byContradiction fun e => I.fresh e h0
        rw [if_pos ((I.first hf).2.2.2.2.2.2.1 h0)] at hd
        cases hd
      · repeat' split at hd
        all_goals cases hd
  have h1 : 1 ≤ stage s.main := by
    unfold State.mainStep at hmn
    cases e : s.main <;> simp only [e] at hmn <;> try (simp [stage]; done)
    · rw [hb] at hmn; cases b <;> cases hmn
    · exact absurd e hf
  have hnf : s.acc ≠ .first := fun e => by have := (I.first e).2.2.2.2.2.2.2.2.1; omega
  have hacc : s.acc = .again ∨ s.acc = .ended := by
    unfold State.acceptStep at ha
    cases e : s.acc with
    | first => exact absurd e hnf
    | again => exact .inl rfl
    | ended => exact .inr rfl
    | running => simp [e] at ha
    | greeting r => cases r <;> simp [e] at ha
  have hg : greeted s.acc = true := by rcases hacc with e | e <;> rw [e] <;> rfl
  have hst := I.started hacc
  -- the test
  have hmain : s.main = .waiting ∨ s.main = .ended := by
    unfold State.mainStep at hmn
    cases e : s.main <;> simp only [e] at hmn <;> try (first | exact .inl rfl | exact .inr rfl | (cases hmn; done))
    · rw [e] at h1; exact absurd h1 (by decide)
    · rw [(I.chanS (by rw [e]; decide)).1] at hmn; cases hmn
    · rw [if_pos (I.conn hnf (by rw [e]; decide)).1] at hmn; cases hmn
    · have hq := quiet F I (I.past (by rw [e]; decide))
      have h2 := (I.chanC (by rw [e]; decide)).1
      have h3 : s.chanC = none := by
        cases e1 : s.chanC with
        | none => rfl
        | some y =>
          cases y with
          | none => exact absurd e1 h2
          | some x => have := hq.2.2.2.2.1; rw [e1] at this; cases this
      rw [if_pos h3] at hmn; cases hmn
    · exact absurd e hf
  have h3 : 3 ≤ stage s.main := by rcases hmain with e | e <;> rw [e] <;> decide
  have hcl := I.client' h3
  -- the receive routine of the client
  have hr : (s.recvC = .reading ∧ s.chanC = none) ∨ s.recvC = .ended := by
    unfold State.recvStep at hre
    cases e : s.recvC with
    | off => exact absurd e hcl.2
    | ended => exact .inr rfl
    | testing l => cases l <;> simp [e] at hre
    | calling o l =>
      simp only [e] at hre
      split at hre <;> cases hre
    | reading =>
      refine .inl ⟨rfl, ?_⟩
      simp only [e] at hre
      cases e1 : s.chanC with
      | none => rfl
      | some y =>
        exfalso
        cases y with
        | none => simp [e1] at hre
        | some x =>
          simp only [e1] at hre
          split at hre <;> cases hre
  -- the send routine of the server
  have hsd : (s.sendS = .waiting ∧ s.queue = []) ∨ s.sendS = .ended ∨ ∃ x, s.sendS = .sending x ∧ s.chanC ≠ none := by
    unfold State.sendStep at hse
    cases e : s.sendS with
    | off => exact absurd e hst.1
    | ended => exact .inr (.inl rfl)
    | waiting =>
      refine .inl ⟨rfl, ?_⟩
      simp only [e] at hse
      cases e1 : s.queue with
      | nil => rfl
      | cons y l => cases y <;> simp [e1] at hse
    | writing x => simp [e] at hse
    | tested x => simp only [e] at hse; split at hse <;> cases hse
    | sending x =>
      refine .inr (.inr ⟨x, rfl, fun e1 => ?_⟩)
      simp [e, e1] at hse
  rcases hmain with hw | hw
  · -- the test waits
    have hr : s.recvC = .reading ∧ s.chanC = none := hr.resolve_right (I.chanC (by rw [hw]; decide)).2
    have hsd : s.sendS = .waiting ∧ s.queue = [] := by
      rcases hsd with h | h | ⟨x, _, h⟩
      · exact h
      · exact absurd h (I.queue (by rw [hw]; decide)).2
      · exact absurd hr.2 h
    refine ⟨.inl hw, by simp [under, hr, hsd, item, hand], by simp [hr, todo], hg, fun e => by rw [hw] at e; cases e⟩
  · have hs15 : stage s.main = 15 := by rw [hw]; rfl
    have hq := quiet F I (I.past (by omega))
    refine ⟨.inr hw, by unfold under; rw [hq.2.2.2.2.1, hq.2.2.2.2.2.1, hq.2.2.2.2.2.2]; rfl, hq.2.2.2.1, hg, fun _ => ⟨?_, ?_, ?_, ?_, ?_⟩⟩
    · rcases I.conn' (by omega) with h | h
      · rcases hacc with e | e
        · unfold State.acceptStep at ha; simp [e, h] at ha
        · exact e
      · exact h
    · rcases hsd with h | h | ⟨x, h, _⟩
      · rcases I.queue' (by omega) with h' | h'
        · rw [h.2] at h'; simp at h'
        · exact h'
      · exact h
      · have := hq.2.2.2.2.2.1; rw [h] at this; cases this
    · rcases I.chanS' (by omega) with h | h
      · cases e : s.recvS with
        | off => exact absurd e hst.2
        | waiting => exact absurd ⟨e, h⟩ hrs
        | ended => rfl
      · exact h
    · rcases I.told' (by omega) with h | h
      · cases e : s.sendC with
        | off => exact absurd e hcl.1
        | waiting => exact absurd ⟨e, h⟩ hsc
        | ended => rfl
      · exact h
    · rcases I.chanC' (by omega) with h | h
      · rcases hr with h' | h'
        · rw [h] at h'; cases h'.2
        · exact h'
      · exact h

/-! ## `Dial` that fails -/

/-- If the goroutine that dials has taken `k` steps. -/
structure Polls (k : Nat) (s : State) : Prop where
  polling : ∀ l, s.dial = .polling l → 1000000 ≤ l + k
  expiring : s.dial = .expiring → 1000000 ≤ k
  leaving : s.dial = .leaving → 1000000 ≤ k ∨ s.status = 2
  failed : s.dial = .over false → 1000000 ≤ k
  fatal : s.main = .fatal → s.dial = .over false

theorem done_dial (s t : State) (h : t.dial = s.dial ∧ t.status = s.status ∧ (t.main = .fatal → s.main = .fatal)) :
    (done s t).dial = s.dial ∧ (done s t).status = s.status ∧ ((done s t).main = .fatal → s.main = .fatal) := by
  unfold done
  split
  · exact ⟨rfl, rfl, id⟩
  · exact h

/-- The other goroutines leave the one that dials alone. -/
theorem dial_others {msgs : List Str} {s t : State} {a : Act} (h : s.step msgs a = some t) (ha : a ≠ .dial) :
    t.dial = s.dial ∧ (t.status = s.status ∨ t.status = 2) ∧ (t.main = .fatal → s.dial = .over false) := by
  unfold State.step at h
  split at h
  · cases h
  rename_i hf
  have hf : s.main ≠ .fatal := fun e => hf (.inr e)
  cases a with
  | dial => exact absurd rfl ha
  | main =>
    simp only at h
    unfold State.mainStep at h
    cases hm : s.main <;> simp only [hm] at h
    case dialing =>
      split at h
      · obtain rfl := Option.some.inj h; exact ⟨rfl, .inl rfl, fun e => by cases e⟩
      · rename_i e; obtain rfl := Option.some.inj h; exact ⟨rfl, .inl rfl, fun _ => e⟩
      · cases h
    case greeting =>
      obtain rfl := Option.some.inj h
      have := done_dial s { s with main := .running } ⟨rfl, rfl, fun e => by cases e⟩
      simp only [hm] at this
      exact ⟨this.1, .inl this.2.1, fun e => by cases this.2.2 e⟩
    case waiting | putC | listener | putS =>
      split at h
      all_goals first
        | (cases h; done)
        | (obtain rfl := Option.some.inj h; exact ⟨rfl, .inl rfl, fun e => by cases e⟩)
    case testC | testS =>
      obtain rfl := Option.some.inj h
      refine ⟨rfl, .inl rfl, fun e => ?_⟩
      simp only at e
      split at e <;> cases e
    case ended => cases h
    case fatal => cases h
    all_goals obtain rfl := Option.some.inj h; exact ⟨rfl, .inl rfl, fun e => by cases e⟩
  | accept =>
    simp only at h
    unfold State.acceptStep at h
    split at h
    all_goals first
      | (cases h; done)
      | (rw [← Option.some.inj h]; exact ⟨rfl, .inr rfl, fun e => absurd e hf⟩)
      | (rw [← Option.some.inj h]; exact ⟨rfl, .inl rfl, fun e => absurd e hf⟩)
      | (rw [← Option.some.inj h]
         have := done_dial s { s with acc := .running } ⟨rfl, rfl, id⟩
         exact ⟨this.1, .inl this.2.1, fun e => absurd (this.2.2 e) hf⟩)
  | sendS =>
    simp only at h
    unfold State.sendStep at h
    repeat' split at h
    all_goals first
      | (cases h; done)
      | (rw [← Option.some.inj h]; exact ⟨rfl, .inl rfl, fun e => absurd e hf⟩)
  | recvS =>
    simp only at h
    split at h
    · rw [← Option.some.inj h]; exact ⟨rfl, .inl rfl, fun e => absurd e hf⟩
    · cases h
  | sendC =>
    simp only at h
    split at h
    · rw [← Option.some.inj h]; exact ⟨rfl, .inl rfl, fun e => absurd e hf⟩
    · cases h
  | recvC =>
    simp only at h
    unfold State.recvStep at h
    repeat' split at h
    all_goals first
      | (cases h; done)
      | (rw [← Option.some.inj h]; exact ⟨rfl, .inl rfl, fun e => absurd e hf⟩)
      | (rw [← Option.some.inj h]
         rename_i o l _ _
         have := done_dial s { s with recvC := .testing l, packets := s.packets ++ [o] } ⟨rfl, rfl, id⟩
         exact ⟨this.1, .inl this.2.1, fun e => absurd (this.2.2 e) hf⟩)

theorem polls_step {msgs : List Str} {k : Nat} {s t : State} {a : Act} (P : Polls k s) (h : s.step msgs a = some t) :
    Polls (k + if a = .dial then 1 else 0) t := by
  by_cases ha : a = .dial
  · subst ha
    unfold State.step at h
    split at h
    · cases h
    rename_i hf
    have hf : s.main ≠ .fatal := fun e => hf (.inr e)
    simp only at h
    unfold State.dialStep at h
    cases hm : s.dial with
    | over b => simp [hm] at h
    | expiring =>
      simp only [hm] at h
      rw [← Option.some.inj h]
      have := P.expiring hm
      exact ⟨fun l e => (by cases e), fun e => (by cases e), fun _ => .inl (by simp; omega), fun e => (by cases e), fun e => absurd e hf⟩
    | leaving =>
      simp only [hm] at h
      rw [← Option.some.inj h]
      refine ⟨fun l e => (by cases e), fun e => (by cases e), fun e => (by cases e), fun e => ?_, fun e => absurd e hf⟩
      rcases P.leaving hm with h1 | h1
      · simp; omega
      · simp [h1] at e
    | polling l =>
      have hp := P.polling l hm
      simp only [hm] at h
      repeat' split at h
      · rw [← Option.some.inj h]
        exact ⟨fun l' e => (by cases e; simp; omega), fun e => (by cases e), fun e => (by cases e), fun e => (by cases e), fun e => absurd e hf⟩
      · cases h
      · rename_i h2
        rw [← Option.some.inj h]
        exact ⟨fun l' e => (by cases e), fun e => (by cases e), fun _ => .inr h2, fun e => (by cases e), fun e => absurd e hf⟩
      · rw [← Option.some.inj h]
        exact ⟨fun l' e => (by cases e), fun _ => (by simp; omega), fun e => (by cases e), fun e => (by cases e), fun e => absurd e hf⟩
      · rw [← Option.some.inj h]
        exact ⟨fun l' e => (by cases e; simp; omega), fun e => (by cases e), fun e => (by cases e), fun e => (by cases e), fun e => absurd e hf⟩
  · rw [if_neg ha]
    obtain ⟨h1, h2, h3⟩ := dial_others h ha
    exact ⟨fun l e => P.polling l (h1 ▸ e), fun e => P.expiring (h1 ▸ e),
      fun e => (P.leaving (h1 ▸ e)).imp id fun h4 => h2.elim (fun h5 => h5.trans h4) id, fun e => P.failed (h1 ▸ e),
      fun e => h1.trans (h3 e)⟩

theorem polls_run {msgs : List Str} : ∀ (as : List Act) (k : Nat) (s t : State), Polls k s → run (State.step msgs) s as = some t →
    Polls (k + as.count .dial) t := by
  intro as
  induction as with
  | nil => intro k s t P h; cases h; exact P
  | cons a as ih =>
    intro k s t P h
    simp only [run] at h
    cases e : s.step msgs a with
    | none => rw [e] at h; cases h
    | some u =>
      rw [e] at h
      have := ih _ u t (polls_step P e) h
      rw [List.count_cons, Nat.add_comm (as.count _), ← Nat.add_assoc]
      simpa using this

end Verif.Props.Flow

namespace Verif.Props

open Verif Verif.Net Verif.Net.Flow Verif.Props.Flow

/-- **C159, every execution is finite.**  Whatever strings the server sends and whatever the test waits for: however the goroutines are
scheduled, they take at most 1000033 steps, nine more for each string and three for each of its bytes. -/
theorem C159_finite (msgs : List Str) (n : Nat) (acts : List Flow.Act) (t : Flow.State)
    (h : run (State.step msgs) (.init n) acts = some t) : acts.length ≤ 1000033 + 9 * msgs.length + 3 * msgs.flatten.length := by
  have h1 := left_run acts _ _ h
  have h2 : (msgs.map cost).sum = 9 * msgs.length + 3 * msgs.flatten.length := by
    clear h h1
    induction msgs with
    | nil => rfl
    | cons x l ih =>
      simp only [List.map_cons, List.sum_cons, ih, cost, List.length_cons, List.flatten_cons, List.length_append]
      omega
  have h3 : left msgs (.init n) = 1000033 + (msgs.map cost).sum := by
    simp only [left, State.init, mainLeft, dialLeft, accLeft, sendLeft, idleLeft, recvLeft, chanLeft]
    simp
    omega
  omega

/-- **C159, no crash.**  If the first twenty strings end with a NUL, none of them is longer than the buffer of the receive routine, and the
test waits for `OnConnected` of both and for at least as many packets as they have lines, then the process never crashes: nothing nil is
dereferenced and the counter of the wait group does not become negative. -/
theorem C159_safe (msgs : List Str) (n : Nat) (hl : ∃ pre x, msgs.take 20 = pre ++ [x ++ [0]])
    (hs : ∀ x ∈ msgs.take 20, x.length ≤ 10240) (hn : 2 + (msgs.take 20).flatten.count 0 ≤ n) (t : Flow.State)
    (h : Reachable (State.step msgs) (.init n) t) : t.crashed = false :=
  (inv_reach ⟨hl, hs, hn⟩ h).crashed

/-- **C159, the test ends.**  If moreover it waits for exactly so many packets, then however the goroutines are scheduled, where none of
them can go on the test has ended, the strings passed to `OnPacket` of the client are the lines of the first twenty strings, in order, and
every goroutine has returned; unless `Dial` has failed, after 1000000 turns of its loop. -/
theorem C159_ends (msgs : List Str) (n : Nat) (hl : ∃ pre x, msgs.take 20 = pre ++ [x ++ [0]])
    (hs : ∀ x ∈ msgs.take 20, x.length ≤ 10240) (hn : 2 + (msgs.take 20).flatten.count 0 = n) (acts : List Flow.Act) (t : Flow.State)
    (h : run (State.step msgs) (.init n) acts = some t) (hstop : ∀ a, t.step msgs a = none) :
    (t.main = .fatal ∧ 1000000 ≤ acts.count .dial) ∨
    (t.main = .ended ∧ (∀ x ∈ t.packets, Line x) ∧ t.packets.flatten = (msgs.take 20).flatten ∧
      t.acc = .ended ∧ t.sendS = .ended ∧ t.recvS = .ended ∧ t.sendC = .ended ∧ t.recvC = .ended) := by
  have F : Fits msgs n := ⟨hl, hs, Nat.le_of_eq hn⟩
  have I := inv_reach F ⟨acts, h⟩
  by_cases hf : t.main = .fatal
  · have P := polls_run acts 0 _ _ (by
      constructor <;> simp [State.init]) h
    have := P.failed (P.fatal hf)
    exact .inl ⟨hf, by omega⟩
  obtain ⟨h1, h2, h3, h4, h5⟩ := stuck F I hstop hf
  have hi := I.items h4
  rw [h2, List.append_nil] at hi
  have ht := I.text
  rw [h3, hi] at ht
  simp only [List.flatten_nil, List.append_nil] at ht
  have hb : t.buf = [] := by
    obtain ⟨pre, x, hx⟩ := hl
    rw [hx] at ht
    have h0 := congrArg List.getLast? ht
    cases hb : t.buf.getLast? with
    | none => simpa using hb
    | some z =>
      exfalso
      rw [List.getLast?_append, hb] at h0
      simp at h0
      subst h0
      exact I.rest (List.mem_of_getLast? hb)
  rw [hb, List.append_nil] at ht
  have hl' : ∀ x ∈ t.packets, Line x := fun x hx => I.lines x (List.mem_append_left _ hx)
  have hm : t.main = .ended := by
    rcases h1 with h1 | h1
    · exfalso
      have hc := I.count
      have hp := count_lines _ hl'
      rw [ht] at hp
      have hw : t.wg = 0 := by
        rw [h4, h1] at hc
        simp [stage] at hc
        omega
      have live := hstop .main
      unfold State.step at live
      rw [if_neg (by simp [I.crashed, hf])] at live
      simp [State.mainStep, h1, hw] at live
    · exact h1
  exact .inr ⟨hm, hl', ht, h5 hm⟩

/-- **C159, what is lost.**  `OnConnected` is called before the send routine is started, so that a queue that is full stays full and the
strings after the twentieth are lost: a test that waits for more than the lines of the first twenty never gets beyond `wg.Wait`. -/
theorem C159_lost (msgs : List Str) (n : Nat) (hl : ∃ pre x, msgs.take 20 = pre ++ [x ++ [0]])
    (hs : ∀ x ∈ msgs.take 20, x.length ≤ 10240) (hn : 2 + (msgs.take 20).flatten.count 0 < n) (t : Flow.State)
    (h : Reachable (State.step msgs) (.init n) t) :
    t.main = .dialing ∨ t.main = .greeting ∨ t.main = .running ∨ t.main = .waiting ∨ t.main = .fatal := by
  have F : Fits msgs n := ⟨hl, hs, Nat.le_of_lt hn⟩
  have I := inv_reach F h
  have hw : t.wg ≠ 0 := fun e => by have := (quiet F I e).1; omega
  have hst : ¬ 4 ≤ stage t.main := fun e => hw (I.past e)
  cases hm : t.main <;> rw [hm] at hst <;> first | exact absurd (by decide) hst | simp

/-- **C159, the test of the package.**  However the goroutines of `TestFlow` are scheduled, they do not crash, take at most 1000087 steps,
and where none of them can go on the test has passed, `OnPacket` has been called with `"Hello\000"` and `" World!\n\000"`, and every
goroutine has returned; unless `Dial` has failed, after 1000000 turns of its loop. -/
theorem C159_test (acts : List Flow.Act) (t : Flow.State) (h : run (State.step [flowText]) (.init 4) acts = some t) :
    t.crashed = false ∧ acts.length ≤ 1000087 ∧
    ((∀ a, t.step [flowText] a = none) → (t.main = .fatal ∧ 1000000 ≤ acts.count .dial) ∨
      (t.main = .ended ∧ t.packets = [bytesOf "Hello" ++ [0], bytesOf " World!\n" ++ [0]] ∧
        t.acc = .ended ∧ t.sendS = .ended ∧ t.recvS = .ended ∧ t.sendC = .ended ∧ t.recvC = .ended)) := by
  have hl : ∃ pre x, [flowText].take 20 = pre ++ [x ++ [0]] := ⟨[], bytesOf "Hello" ++ [0] ++ bytesOf " World!\n", rfl⟩
  have hs : ∀ x ∈ [flowText].take 20, x.length ≤ 10240 := by decide +kernel
  have hn : 2 + ([flowText].take 20).flatten.count 0 = 4 := by decide +kernel
  refine ⟨C159_safe _ 4 hl hs (Nat.le_of_eq hn) t ⟨acts, h⟩, ?_, fun hstop => ?_⟩
  · have h1 := C159_finite _ _ _ _ h
    have h2 : 1000033 + 9 * [flowText].length + 3 * [flowText].flatten.length = 1000087 := by decide +kernel
    omega
  · rcases C159_ends _ 4 hl hs hn acts t h hstop with h1 | ⟨h1, h2, h3, h4⟩
    · exact .inl h1
    · refine .inr ⟨h1, ?_, h4⟩
      have hk : ∀ x ∈ [bytesOf "Hello" ++ [0], bytesOf " World!\n" ++ [0]], Line x := by
        intro x hx
        simp only [List.mem_cons, List.not_mem_nil, or_false] at hx
        rcases hx with rfl | rfl
        · exact ⟨bytesOf "Hello", rfl, by decide +kernel⟩
        · exact ⟨bytesOf " World!\n", rfl, by decide +kernel⟩
      have he : t.packets.flatten ++ [] = [bytesOf "Hello" ++ [0], bytesOf " World!\n" ++ [0]].flatten ++ [] := by
        rw [h3]; decide +kernel
      have p1 := lines_prefix _ _ [] [] h2 hk (by simp) (he ▸ List.prefix_refl _)
      have p2 := lines_prefix _ _ [] [] hk h2 (by simp) (he ▸ List.prefix_refl _)
      exact p1.eq_of_length_le p2.length_le

/-- A run of `TestFlow`. -/
def flowRun : List Flow.Act :=
  [.dial, .accept, .dial, .accept, .dial, .main, .accept, .accept, .main, .main, .sendS, .sendS, .sendS, .sendS, .recvC, .recvC, .recvC,
   .recvC, .recvC, .main, .recvC, .main, .main, .main, .main, .main, .main, .main, .main, .main, .main, .main, .sendS, .recvS,
   .sendC, .recvC, .accept]

/-- `TestFlow` passes in this run, and nobody can go on. -/
example : ((run (State.step [flowText]) (.init 4) flowRun).map fun t => (t.main, t.crashed, t.acc, t.packets)) =
      some (.ended, false, .ended, [bytesOf "Hello" ++ [0], bytesOf " World!\n" ++ [0]]) ∧
    ((run (State.step [flowText]) (.init 4) flowRun).map fun t =>
      [Flow.Act.main, .dial, .accept, .sendS, .recvS, .sendC, .recvC].all fun a => t.step [flowText] a = none) = some true := by
  decide +kernel

/-- **C159, without the last NUL.**  If the last string does not end with a NUL the test can end while it is being written, and `Close`
sets to nil what `Write` has tested: the process crashes. -/
theorem C159_unended : ∃ acts t, run (State.step [[97, 0], [98]]) (.init 3) acts = some t ∧ t.crashed = true ∧ t.main = .ended := by
  refine ⟨[.dial, .accept, .accept, .accept, .accept, .accept, .dial, .dial, .main, .main, .main, .sendS, .sendS, .sendS, .sendS, .recvC,
    .recvC, .recvC, .recvC, .sendS, .sendS, .main, .main, .main, .main, .main, .main, .main, .main, .main, .main, .main, .main, .sendS], ?_⟩
  have : ((run (State.step [[97, 0], [98]]) (.init 3) [.dial, .accept, .accept, .accept, .accept, .accept, .dial, .dial, .main, .main, .main,
    .sendS, .sendS, .sendS, .sendS, .recvC, .recvC, .recvC, .recvC, .sendS, .sendS, .main, .main, .main, .main, .main, .main, .main, .main,
    .main, .main, .main, .main, .sendS]).map fun t => (t.crashed, t.main)) = some (true, .ended) := by decide +kernel
  cases e : run (State.step [[97, 0], [98]]) (.init 3) [.dial, .accept, .accept, .accept, .accept, .accept, .dial, .dial, .main, .main, .main,
    .sendS, .sendS, .sendS, .sendS, .recvC, .recvC, .recvC, .recvC, .sendS, .sendS, .main, .main, .main, .main, .main, .main, .main, .main,
    .main, .main, .main, .main, .sendS] with
  | none => rw [e] at this; cases this
  | some t =>
    rw [e] at this
    simp at this
    exact ⟨t, rfl, this.1, this.2⟩

/-- Twenty-one strings: the hypotheses of `C159_lost` are met by a test that waits for all of them. -/
example : (∃ pre x, (List.replicate 21 ([97, 0] : Str)).take 20 = pre ++ [x ++ [0]]) ∧
    2 + ((List.replicate 21 ([97, 0] : Str)).take 20).flatten.count 0 < 2 + 21 :=
  ⟨⟨List.replicate 19 [97, 0], [97], rfl⟩, by decide +kernel⟩

end Verif.Props
