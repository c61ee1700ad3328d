import Verif.Net.Peer
import Verif.Props.Proto1
import Mathlib.Data.List.Induction

/-! # C27 – C29: one direction of a connection -/

namespace Verif.Props

open Verif Verif.Net

section
variable {α : Type} (S : Serializer α)

/-- Invariant of the send side: what was taken off the queue, then the queue, is what was accepted. -/
private structure SendInv (s : Link α) : Prop where
  cap : s.queue.length ≤ 20
  drop : ∀ d ∈ s.dropped, d.2 = 20
  order : s.sending = true → s.dead = false → s.accepted = s.sent.map some ++ s.queue
  pre : s.sent.map some <+: s.accepted
  suf : s.queue <:+ s.accepted

private theorem sendInv_step (s : Link α) (a : Act α) (s' : Link α) (h : SendInv s)
    (e : s.step S a = some s') : SendInv s' := by
  obtain ⟨h1, h2, h3, h4, h5⟩ := h
  cases a with
  | check obj =>
    simp only [Link.step] at e
    split at e
    · cases e
    split at e
    · rename_i hq
      cases e
      refine ⟨h1, ?_, h3, h4, h5⟩
      intro d hd
      rcases List.mem_append.mp hd with hd | hd
      · exact h2 d hd
      · simp at hd; subst hd; exact hq
    · cases e; exact ⟨h1, h2, h3, h4, h5⟩
  | push i =>
    simp only [Link.step] at e
    split at e
    · cases e
    split at e
    · cases e
    rename_i hc
    cases e
    refine ⟨?_, h2, ?_, h4.trans (List.prefix_append _ _), ?_⟩
    · simp [cSendChanSize] at hc ⊢; omega
    · intro a b; simp only at a b ⊢; rw [h3 a b, List.append_assoc]
    · obtain ⟨t, ht⟩ := h5
      exact ⟨t, by rw [← ht]; simp⟩
  | transmit fail =>
    simp only [Link.step] at e
    split at e
    · cases e
    rename_i hrun
    simp only [not_or, Bool.not_eq_true, Bool.not_eq_false] at hrun
    split at e
    · cases e
    · rename_i rest hq
      cases e
      rw [hq] at h1 h5
      refine ⟨by simp at h1 ⊢; omega, h2, ?_, h4, (List.suffix_cons _ _).trans h5⟩
      intro h _; cases h
    · rename_i obj rest hq
      have h3' := h3 hrun.2 hrun.1
      rw [hq] at h1 h5 h3'
      have hpre : (s.sent ++ [obj]).map some <+: s.accepted := by
        rw [h3', List.map_append]
        exact ⟨rest, by simp⟩
      split at e
      · split at e
        · cases e
          refine ⟨by simp at h1 ⊢; omega, h2, ?_, hpre, (List.suffix_cons _ _).trans h5⟩
          intro _ _; simp only; rw [h3']; simp
        · cases e
          refine ⟨by simp at h1 ⊢; omega, h2, ?_, hpre, (List.suffix_cons _ _).trans h5⟩
          intro h _; cases h
      · cases e
        refine ⟨by simp at h1 ⊢; omega, h2, ?_, h4, (List.suffix_cons _ _).trans h5⟩
        intro _ h; cases h
  | recv n =>
    simp only [Link.step] at e
    split at e
    · cases e
    split at e
    · cases e; exact ⟨h1, h2, h3, h4, h5⟩
    · cases e; exact ⟨h1, h2, h3, h4, h5⟩

private theorem sendInv_reach {s : Link α} (h : Reachable (Link.step S) (Link.init α) s) : SendInv s :=
  h.inv (sendInv_step S) ⟨by simp [Link.init], by simp [Link.init], by simp [Link.init], by simp [Link.init],
    by simp [Link.init]⟩

/-- C27: in every state reachable by any interleaving of senders, the send routine and the receiver:
the queue holds at most 20 objects, `Send` discarded an object only at a moment when 20 were queued, the
objects transmitted are (in order, each once) the first accepted ones, and what is queued are the last
accepted ones; as long as the send routine runs, nothing is missing in between. -/
theorem C27_send_order (s : Link α) (h : Reachable (Link.step S) (Link.init α) s) :
    s.queue.length ≤ 20 ∧ (∀ d ∈ s.dropped, d.2 = 20) ∧
    s.sent.map some <+: s.accepted ∧ s.queue <:+ s.accepted ∧
    (s.sending = true → s.dead = false → s.accepted = s.sent.map some ++ s.queue) := by
  obtain ⟨h1, h2, h3, h4, h5⟩ := sendInv_reach S h
  exact ⟨h1, h2, h4, h5, h3⟩

/-- `Send` does discard: with 20 objects queued the test of line 55 drops the object, and otherwise it never
does. -/
theorem C27_send_drops_iff (s s' : Link α) (obj : Option α) (h : s.step S (.check obj) = some s') :
    (s'.dropped ≠ s.dropped ↔ s.queue.length = 20) ∧ s'.accepted = s.accepted := by
  simp only [Link.step] at h
  split at h
  · cases h
  split at h
  · rename_i hq
    cases h
    exact ⟨⟨fun _ => hq, fun _ => by simp⟩, rfl⟩
  · rename_i hq
    cases h
    exact ⟨⟨fun h => absurd rfl h, fun h => absurd h hq⟩, rfl⟩

end

/-- Two goroutines send concurrently; the one that tested first enters the queue second. -/
example : run (Link.step txtSerializer) (Link.init Str)
    [.check (some [1, 0]), .check (some [2, 0]), .push 1, .push 0, .transmit none, .recv 2] =
    some { Link.init Str with
      queue := [some [1, 0]], accepted := [some [2, 0], some [1, 0]], sent := [[2, 0]], delivered := [[2, 0]] } := rfl

/-! ## C28 End-to-end delivery -/

section
variable {α : Type} {S : Serializer α}

private theorem recvAll_append (buf : List Byte) (cs : List (List Byte)) (objs : List α) (buf' : List Byte)
    (h : recvAll S buf cs = (objs, some buf')) (c : List Byte) :
    recvAll S buf (cs ++ [c]) =
      (objs ++ (recvChunk S buf' c).1, (recvChunk S buf' c).2) := by
  induction cs generalizing buf objs with
  | nil =>
    simp only [recvAll] at h
    cases h
    simp only [List.nil_append, recvAll]
    split
    · rename_i h; rw [h]
    · rename_i h; rw [h]; simp
  | cons d cs ih =>
    simp only [recvAll] at h
    simp only [List.cons_append, recvAll]
    split at h
    · cases h
    · rename_i o b hr
      have h' := h
      simp only [Prod.mk.injEq] at h'
      obtain ⟨h1, h2⟩ := h'
      have := ih b (recvAll S b cs).1 (by rw [← h2])
      rw [this]
      simp [← h1]

/-- A serializer is faithful on the objects `good`: their bytes are frames that carry `recv` of them. -/
private def Faithful (S : Serializer α) (good : α → Prop) (recv : α → α) : Prop :=
  S.slice [] = 0 ∧ ∀ o, good o → ∃ f, S.marshal o = .ok f ∧ Frame S f (recv o)

/-- What is delivered, buffered and on the wire is a beginning of the frames of the packets that were sent. -/
private structure LinkInv (S : Serializer α) (good : α → Prop) (recv : α → α) (s : Link α) : Prop where
  send : SendInv s
  alive : s.dead = false ∧ s.gone = false
  stream : ∃ chunks fs, Frames S fs (s.sent.map recv) ∧ recvAll S [] chunks = (s.delivered, some s.recvBuf) ∧
    chunks.flatten ++ s.wire <+: fs.flatten ∧ (s.sending = true → chunks.flatten ++ s.wire = fs.flatten)

private theorem Frames.append {fs gs : List (List Byte)} {as bs : List α} (h : Frames S fs as)
    (h' : Frames S gs bs) : Frames S (fs ++ gs) (as ++ bs) := by
  induction h with
  | nil => exact h'
  | cons hf _ ih => exact .cons hf ih

private theorem head_nil {fs : List (List Byte)} {as : List α} (h : Frames S fs as) :
    ∀ f, fs.head? = some f → ([] : List Byte) <+: f ∧ [] ≠ f := by
  intro f hf
  cases h with
  | nil => simp at hf
  | cons hfr _ => simp at hf; subst hf; exact ⟨List.nil_prefix, fun e => hfr.pos e.symm⟩

private theorem linkInv_step {good : α → Prop} {recv : α → α} (hS : Faithful S good recv) (s : Link α) (a : Act α)
    (s' : Link α) (h : (∀ o, some o ∈ s.accepted → good o) → LinkInv S good recv s) (e : s.step S a = some s') :
    (∀ o, some o ∈ s'.accepted → good o) → LinkInv S good recv s' := by
  intro hg
  have hsub : ∀ o, some o ∈ s.accepted → good o := by
    intro o ho
    apply hg
    cases a with
    | check obj =>
      simp only [Link.step] at e
      split at e
      · cases e
      split at e <;> (cases e; exact ho)
    | push i =>
      simp only [Link.step] at e
      split at e
      · cases e
      split at e
      · cases e
      cases e; exact List.mem_append_left _ ho
    | transmit fail =>
      simp only [Link.step] at e
      split at e
      · cases e
      split at e
      · cases e
      · cases e; exact ho
      · split at e
        · split at e <;> (cases e; exact ho)
        · cases e; exact ho
    | recv n =>
      simp only [Link.step] at e
      split at e
      · cases e
      split at e <;> (cases e; exact ho)
  have hi := h hsub
  have hsend := sendInv_step S s a s' hi.send e
  obtain ⟨h1, h2, chunks, fs, hf, hr, hp, heq⟩ := hi
  suffices hh : (s'.dead = false ∧ s'.gone = false) ∧ ∃ chunks fs, Frames S fs (s'.sent.map recv) ∧
      recvAll S [] chunks = (s'.delivered, some s'.recvBuf) ∧
      chunks.flatten ++ s'.wire <+: fs.flatten ∧ (s'.sending = true → chunks.flatten ++ s'.wire = fs.flatten) from
    ⟨hsend, hh.1, hh.2⟩
  cases a with
  | check obj =>
    simp only [Link.step] at e
    split at e
    · cases e
    split at e <;> (cases e; exact ⟨h2, chunks, fs, hf, hr, hp, heq⟩)
  | push i =>
    simp only [Link.step] at e
    split at e
    · cases e
    split at e
    · cases e
    cases e; exact ⟨h2, chunks, fs, hf, hr, hp, heq⟩
  | transmit fail =>
    simp only [Link.step] at e
    split at e
    · cases e
    rename_i hrun
    simp only [not_or, Bool.not_eq_true, Bool.not_eq_false] at hrun
    split at e
    · cases e
    · cases e; exact ⟨h2, chunks, fs, hf, hr, hp, fun h => by cases h⟩
    · rename_i obj rest hq
      have hmem : some obj ∈ s.accepted := by
        rw [h1.order hrun.2 hrun.1, hq]; simp
      obtain ⟨f, hm, hfr⟩ := hS.2 obj (hsub obj hmem)
      rw [hm] at e
      simp only at e
      have hf' : Frames S (fs ++ [f]) ((s.sent ++ [obj]).map recv) := by
        rw [List.map_append]
        exact Frames.append hf (.cons hfr .nil)
      split at e
      · cases e
        refine ⟨h2, chunks, fs ++ [f], hf', hr, ?_, ?_⟩
        · simp only; rw [← List.append_assoc, heq hrun.2]; simp
        · intro _; simp only; rw [← List.append_assoc, heq hrun.2]; simp
      · rename_i k
        cases e
        refine ⟨h2, chunks, fs ++ [f], hf', hr, ?_, fun h => by cases h⟩
        simp only
        rw [← List.append_assoc, heq hrun.2, List.flatten_append, List.prefix_append_right_inj]
        simpa using List.take_prefix k f
  | recv n =>
    simp only [Link.step] at e
    split at e
    · cases e
    have hpre : (chunks ++ [s.wire.take n]).flatten <+: fs.flatten ++ [] := by
      refine List.IsPrefix.trans ?_ (by simpa using hp)
      rw [List.flatten_append]
      simp only [List.flatten_cons, List.flatten_nil, List.append_nil]
      rw [List.prefix_append_right_inj]
      exact List.take_prefix _ _
    have ht : Tail S ([] : List Byte) := by
      intro p hp; rw [List.prefix_nil.mp hp]; exact hS.1
    obtain ⟨k, y, _, _, g3, _⟩ := recvAll_prefix (chunks ++ [s.wire.take n]) hf [] ht []
      (by simpa using hpre) hS.1 (head_nil hf)
    have g := recvAll_append [] chunks _ _ hr (s.wire.take n)
    rw [g3] at g
    have hbytes : (chunks ++ [s.wire.take n]).flatten ++ s.wire.drop n = chunks.flatten ++ s.wire := by
      simp
    split at e
    · rename_i objs buf hc
      cases e
      refine ⟨h2, chunks ++ [s.wire.take n], fs, hf, ?_, ?_, ?_⟩
      · rw [g3, g, hc]
      · simp only; rw [hbytes]; exact hp
      · intro hs; simp only; rw [hbytes]; exact heq hs
    · rename_i objs hc
      rw [hc] at g
      simp at g

private theorem linkInv_reach {good : α → Prop} {recv : α → α} (hS : Faithful S good recv) {s : Link α}
    (h : Reachable (Link.step S) (Link.init α) s) (hg : ∀ o, some o ∈ s.accepted → good o) :
    LinkInv S good recv s := by
  refine h.inv (I := fun s => (∀ o, some o ∈ s.accepted → good o) → LinkInv S good recv s)
    (fun s a s' hi e => linkInv_step hS s a s' hi e) ?_ hg
  intro _
  refine ⟨⟨by simp [Link.init], by simp [Link.init], by simp [Link.init], by simp [Link.init], by simp [Link.init]⟩,
    ⟨rfl, rfl⟩, [], [], .nil, rfl, by simp [Link.init], by simp [Link.init]⟩

private theorem delivered_take {good : α → Prop} {recv : α → α} (hS : Faithful S good recv) {s : Link α}
    (h : LinkInv S good recv s) :
    s.delivered <+: s.sent.map recv ∧ (s.sending = true → s.wire = [] → s.delivered = s.sent.map recv) := by
  obtain ⟨h1, h2, chunks, fs, hf, hr, hp, heq⟩ := h
  have ht : Tail S ([] : List Byte) := by
    intro p hp; rw [List.prefix_nil.mp hp]; exact hS.1
  constructor
  · obtain ⟨k, y, _, _, g3, _⟩ := recvAll_prefix chunks hf [] ht []
      (by simpa using (List.prefix_append _ _).trans hp) hS.1 (head_nil hf)
    rw [hr] at g3
    rw [(Prod.mk.inj g3).1]
    exact List.take_prefix _ _
  · intro hs hw
    have hc := heq hs
    rw [hw, List.append_nil] at hc
    have := recvAll_whole hf [] ht chunks (by simpa using hc)
    rw [hr] at this
    exact (Prod.mk.inj this).1

private theorem end_to_end {good : α → Prop} {recv : α → α} (hS : Faithful S good recv) {s : Link α}
    (h : Reachable (Link.step S) (Link.init α) s) (hg : ∀ o, some o ∈ s.accepted → good o) :
    s.dead = false ∧ s.gone = false ∧ s.delivered.map some <+: s.accepted.map (Option.map recv) ∧
    (s.sending = true → s.queue = [] → s.wire = [] → s.delivered.map some = s.accepted.map (Option.map recv)) := by
  have hi := linkInv_reach hS h hg
  obtain ⟨d1, d2⟩ := delivered_take hS hi
  have e : (s.sent.map recv).map some = (s.sent.map some).map (Option.map recv) := by simp
  refine ⟨hi.alive.1, hi.alive.2, ?_, ?_⟩
  · refine (d1.map some).trans ?_
    rw [e]
    exact hi.send.pre.map _
  · intro hs hq hw
    rw [d2 hs hw, e, hi.send.order hs hi.alive.1, hq, List.append_nil]

end

/-- C28 for the packets of docks and hub.  In every reachable state of a connection, if all packets accepted
so far are sendable (see C21), then neither end died, and what was handed to `OnPacket` is a prefix of what
`Send` accepted, in decoded form and in order.  Moreover nothing gets lost: once the queue and the wire are
empty and no write failed, everything accepted has been delivered. -/
theorem C28_end_to_end (s : Link Proto.Packer)
    (h : Reachable (Link.step ferrySerializer) (Link.init _) s)
    (hg : ∀ p, some p ∈ s.accepted → Sendable p) :
    s.dead = false ∧ s.gone = false ∧ s.delivered.map some <+: s.accepted.map (Option.map Packer.received) ∧
    (s.sending = true → s.queue = [] → s.wire = [] →
      s.delivered.map some = s.accepted.map (Option.map Packer.received)) :=
  end_to_end ⟨rfl, fun p hp => ⟨_, Proto.marshal_ok p hp.2.1, frame_of_sendable p hp⟩⟩ h hg

/-- C28 for text connections. -/
theorem C28_end_to_end_text (s : Link Str) (h : Reachable (Link.step txtSerializer) (Link.init _) s)
    (hg : ∀ x, some x ∈ s.accepted → ∃ t : Str, x = t ++ [0] ∧ 0 ∉ t) :
    s.dead = false ∧ s.gone = false ∧ s.delivered.map some <+: s.accepted ∧
    (s.sending = true → s.queue = [] → s.wire = [] → s.delivered.map some = s.accepted) := by
  have := end_to_end (S := txtSerializer) (good := fun x => ∃ t : Str, x = t ++ [0] ∧ 0 ∉ t) (recv := id)
    ⟨rfl, fun x hx => ⟨x, rfl, txt_frame x hx⟩⟩ h hg
  simpa using this

/-- Two packets, the second arriving in two reads. -/
example : ∃ s, run (Link.step ferrySerializer) (Link.init _)
    [.check (some ⟨1, .heartbeat⟩), .push 0, .transmit none, .check (some ⟨1, .heartbeat⟩), .push 0, .recv 5,
      .transmit none, .recv 3, .recv 4] = some s ∧
    s.delivered = [⟨1, .heartbeat⟩, ⟨1, .heartbeat⟩] ∧ s.wire = [] := ⟨_, rfl, rfl, rfl⟩

/-! ## C29 Send never blocks -/

section
variable {α : Type} (S : Serializer α)

/-- C29 fails: two goroutines pass the test while 19 objects are queued, the first one fills the queue, and
the second one waits in `Send`.  If the send routine has ended by then (the write failed), it waits for ever:
no continuation whatsoever lets it proceed. -/
theorem C29_send_blocks_refuted (x : α) (data : List Byte) (hx : S.marshal x = .ok data) :
    ∃ s, Reachable (Link.step S) (Link.init α) s ∧ s.pending ≠ [] ∧
      ∀ as t, run (Link.step S) s as = some t → ∀ i, t.step S (.push i) = none := by
  let fill : List (Act α) := (List.replicate 19 [.check (some x), .push 0]).flatten
  let acts : List (Act α) := [.check (some x), .push 0, .transmit (some 0)] ++ fill ++
    [.check (some x), .check (some x), .push 0]
  let full : List (Option α) := List.replicate 20 (some x)
  refine ⟨⟨full, [some x], false, [], [], false, false, List.replicate 21 (some x), [], [x], []⟩, ⟨acts, ?_⟩, by simp, ?_⟩
  · simp [acts, fill, full, run, Link.step, Link.init, cSendChanSize, hx, List.replicate]
  · intro as t ht i
    have key : t.queue.length = 20 ∧ t.sending = false := by
      refine run_inv (I := fun s => s.queue.length = 20 ∧ s.sending = false) ?_ as _ t ?_ ht
      · rintro s a s' ⟨i1, i2⟩ e
        cases a with
        | check obj =>
          simp only [Link.step] at e
          split at e
          · cases e
          split at e <;> (cases e; exact ⟨i1, i2⟩)
        | push i =>
          simp only [Link.step, cSendChanSize, i1] at e
          split at e
          · cases e
          · simp at e
        | transmit f => simp [Link.step, i2] at e
        | recv n =>
          simp only [Link.step] at e
          split at e
          · cases e
          split at e <;> (cases e; exact ⟨i1, i2⟩)
      · exact ⟨by simp [full], rfl⟩
    simp only [Link.step, cSendChanSize, key.1]
    split
    · rfl
    · simp

/-- C29 when calls of `Send` on a peer do not overlap: in every execution in which no goroutine enters `Send`
while another one is inside, the channel send of line 59 is always possible at once.  Full statement: the same
without `hseq`. -/
theorem C29_send_never_blocks_partial (as : List (Act α)) (s : Link α)
    (hseq : ∀ pre obj post, as = pre ++ .check obj :: post →
      ∀ t, run (Link.step S) (Link.init α) pre = some t → t.pending = [])
    (hr : run (Link.step S) (Link.init α) as = some s) :
    ∀ i, i < s.pending.length → s.dead = false → ∃ s', s.step S (.push i) = some s' := by
  have key : s.pending.length ≤ 1 ∧ (s.pending ≠ [] → s.queue.length < 20) := by
    induction as using List.reverseRecOn generalizing s with
    | nil => cases hr; simp [Link.init]
    | append_singleton as a ih =>
      rw [run_append] at hr
      cases ht : run (Link.step S) (Link.init α) as with
      | none => rw [ht] at hr; cases hr
      | some t =>
        rw [ht] at hr
        simp only [Option.bind_some, run] at hr
        have hi := ih t (fun pre obj post e u hu => hseq pre obj (post ++ [a]) (by simp [e]) u hu) ht
        obtain ⟨i1, i2⟩ := hi
        split at hr
        · cases hr
        rename_i s' he
        cases hr
        have hcap := (C27_send_order S t ⟨as, ht⟩).1
        cases a with
        | check obj =>
          have hp := hseq as obj [] rfl t ht
          simp only [Link.step] at he
          split at he
          · cases he
          split at he
          · cases he; exact ⟨i1, i2⟩
          · rename_i hq
            cases he
            simp only [cSendChanSize] at hq
            simp only [hp]
            exact ⟨by simp, fun _ => by omega⟩
        | push i =>
          simp only [Link.step] at he
          split at he
          · cases he
          rename_i obj hobj
          split at he
          · cases he
          cases he
          have hi : i < t.pending.length := (List.getElem?_eq_some_iff.mp hobj).1
          have : t.pending.eraseIdx i = [] := by
            apply List.eq_nil_of_length_eq_zero
            rw [List.length_eraseIdx_of_lt hi]; omega
          simp only [this]
          simp
        | transmit f =>
          have hle : s.pending = t.pending ∧ s.queue.length ≤ t.queue.length := by
            simp only [Link.step] at he
            split at he
            · cases he
            split at he
            · cases he
            · rename_i hq; cases he; rw [hq]; simp
            · rename_i hq
              split at he
              · split at he <;> (cases he; rw [hq]; simp)
              · cases he; rw [hq]; simp
          rw [hle.1]
          exact ⟨i1, fun h => by have := i2 h; omega⟩
        | recv n =>
          simp only [Link.step] at he
          split at he
          · cases he
          split at he <;> (cases he; exact ⟨i1, i2⟩)
  intro i hi hd
  have hne : s.pending ≠ [] := by intro h; rw [h] at hi; simp at hi
  have hq := key.2 hne
  simp only [Link.step, List.getElem?_eq_getElem hi, hd, cSendChanSize]
  rw [if_neg (by simp; omega)]
  exact ⟨_, rfl⟩

end

/-- An execution in which calls do not overlap. -/
example : ∃ s, run (Link.step txtSerializer) (Link.init Str)
    [.check (some [1, 0]), .push 0, .check (some [2, 0])] = some s ∧ s.pending.length = 1 := ⟨_, rfl, rfl⟩

end Verif.Props
