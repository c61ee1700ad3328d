import Verif.Codec.Any
import Verif.Proto.Packet

/-!
# Model of the receive routine of a peer, /repo/network/peer.go:79-100, and of the txt serializer
-/

namespace Verif.Net

open Verif

/-- `ISerializer`, /repo/network/API.go:13-22, for objects of type `α`. -/
structure Serializer (α : Type) where
  marshal : α → Res (List Byte)
  unmarshal : List Byte → Res α
  slice : List Byte → Nat

/-- The serializer of docks and hub, /repo/serializer.go.  /repo/serializer.go:27-109. -/
def ferrySerializer : Serializer Proto.Packer := ⟨Proto.marshal, Proto.unmarshal, Proto.slice⟩

/-- `txtSerializer.Slice`, /repo/network/txt_serializer.go:19-27: one past the first NUL, or 0. -/
def txtSlice : List Byte → Nat
  | [] => 0
  | c :: rest => if c = 0 then 1 else if txtSlice rest = 0 then 0 else txtSlice rest + 1

/-- /repo/network/txt_serializer.go:10-17 -/
def txtSerializer : Serializer Str := ⟨.ok, .ok, txtSlice⟩

section
variable {α : Type} (S : Serializer α)

/-- The inner loop of the receive routine, /repo/network/peer.go:88-98: as long as `Slice` finds a frame,
take it off the buffer, unmarshal it and hand it up.  Returns the objects handed up and the remaining
buffer; `none` if `Unmarshal` ended the process.  `recvBuffer.Read(slice)` delivers as many bytes as are
there; `slice` is zero-filled, hence `fill`.  `fuel` bounds the number of frames; one per byte is enough
(`recvLoop_fuel`). -/
def recvLoop : Nat → List Byte → List α × Option (List Byte)
  | 0, buf => ([], some buf)
  | fuel + 1, buf =>
    let length := S.slice buf
    if length = 0 then ([], some buf)
    else
      match S.unmarshal (Codec.fill length (buf.take length)) with
      | .ok obj =>
        let (objs, end') := recvLoop fuel (buf.drop length)
        (obj :: objs, end')
      | _ => ([], none)

/-- One turn of the outer loop, /repo/network/peer.go:82-98, when `conn.Read` delivered `chunk`. -/
def recvChunk (buf chunk : List Byte) : List α × Option (List Byte) :=
  recvLoop S (buf.length + chunk.length) (buf ++ chunk)

/-- The receive routine fed with the chunks that the successive reads deliver.  /repo/network/peer.go:81-99. -/
def recvAll : List Byte → List (List Byte) → List α × Option (List Byte)
  | buf, [] => ([], some buf)
  | buf, c :: cs =>
    match recvChunk S buf c with
    | (objs, none) => (objs, none)
    | (objs, some buf') =>
      let (objs', end') := recvAll buf' cs
      (objs ++ objs', end')

/-- The loop never runs out of fuel when it gets one unit per buffered byte: more fuel changes nothing. -/
theorem recvLoop_fuel (h0 : S.slice [] = 0) (buf : List Byte) :
    ∀ n m, buf.length ≤ n → buf.length ≤ m → recvLoop S n buf = recvLoop S m buf := by
  suffices h : ∀ k, ∀ buf : List Byte, buf.length ≤ k → ∀ n m, buf.length ≤ n → buf.length ≤ m →
      recvLoop S n buf = recvLoop S m buf from h _ buf (Nat.le_refl _)
  intro k
  induction k with
  | zero =>
    intro buf hk n m _ _
    have : buf = [] := by cases buf <;> simp_all
    subst this
    cases n <;> cases m <;> simp [recvLoop, h0]
  | succ k ih =>
    intro buf hk n m hn hm
    by_cases hb : buf = []
    · subst hb; cases n <;> cases m <;> simp [recvLoop, h0]
    have hpos : 0 < buf.length := List.length_pos_iff.mpr hb
    obtain ⟨n, rfl⟩ : ∃ n', n = n' + 1 := ⟨n - 1, by omega⟩
    obtain ⟨m, rfl⟩ : ∃ n', m = n' + 1 := ⟨m - 1, by omega⟩
    simp only [recvLoop]
    split
    · rfl
    · rename_i hs
      split
      · rw [ih (buf.drop (S.slice buf)) (by simp; omega) n m (by simp; omega) (by simp; omega)]
      · rfl

/-! ## Frames -/

/-- `f` is a frame that carries `a`: `Slice` finds its end exactly, and `Unmarshal` yields `a`.  `Slice` and `Unmarshal`
as used in /repo/network/peer.go:88-94. -/
structure Frame (f : List Byte) (a : α) : Prop where
  slice_full : ∀ rest, S.slice (f ++ rest) = f.length
  slice_prefix : ∀ p, p <+: f → p ≠ f → S.slice p = 0
  pos : f ≠ []
  unmarshal : S.unmarshal f = .ok a

/-- A list of frames and what they carry.  For the loop /repo/network/peer.go:88-98. -/
inductive Frames : List (List Byte) → List α → Prop where
  | nil : Frames [] []
  | cons {f a fs as} : Frame S f a → Frames fs as → Frames (f :: fs) (a :: as)

/-- No frame ends in `t`.  The loop /repo/network/peer.go:88-98 stops there. -/
def Tail (t : List Byte) : Prop := ∀ p, p <+: t → S.slice p = 0

variable {S}

theorem Frames.length {fs : List (List Byte)} {as : List α} (h : Frames S fs as) : fs.length = as.length := by
  induction h with
  | nil => rfl
  | cons _ _ ih => simp [ih]

/-- `recvLoop` on complete frames followed by an incomplete one. -/
theorem recvLoop_frames {fs : List (List Byte)} {as : List α} (h : Frames S fs as) (y : List Byte)
    (hy : S.slice y = 0) : ∀ fuel, fs.length ≤ fuel → recvLoop S fuel (fs.flatten ++ y) = (as, some y) := by
  induction h with
  | nil => intro fuel _; cases fuel <;> simp [recvLoop, hy]
  | @cons f a fs as hf _ ih =>
    intro fuel hfuel
    obtain ⟨fuel, rfl⟩ : ∃ n, fuel = n + 1 := ⟨fuel - 1, by simp at hfuel; omega⟩
    have hs : S.slice ((f :: fs).flatten ++ y) = f.length := by
      rw [List.flatten_cons, List.append_assoc]; exact hf.slice_full _
    have hpos : f.length ≠ 0 := by simpa using hf.pos
    simp only [recvLoop, hs, if_neg hpos]
    have e1 : ((f :: fs).flatten ++ y).take f.length = f := by
      rw [List.flatten_cons, List.append_assoc, List.take_left']; rfl
    have e2 : ((f :: fs).flatten ++ y).drop f.length = fs.flatten ++ y := by
      rw [List.flatten_cons, List.append_assoc, List.drop_left']; rfl
    rw [e1, e2, ih fuel (by simp at hfuel; omega)]
    simp [Codec.fill, hf.unmarshal]

/-- A prefix of a stream of frames is some of the frames and an incomplete rest. -/
theorem split_prefix {fs : List (List Byte)} {as : List α} (h : Frames S fs as) (t : List Byte) (ht : Tail S t) :
    ∀ x, x <+: fs.flatten ++ t → ∃ (k : Nat) (y : List Byte),
      k ≤ fs.length ∧ x = (fs.take k).flatten ++ y ∧ S.slice y = 0 ∧
      y <+: (fs.drop k).flatten ++ t ∧
      (∀ f, (fs.drop k).head? = some f → y <+: f ∧ y ≠ f) := by
  induction h with
  | nil => intro x hx; exact ⟨0, x, Nat.le_refl _, by simp, ht _ (by simpa using hx), by simpa using hx, by simp⟩
  | @cons f a fs as hf hfs ih =>
    intro x hx
    rw [List.flatten_cons, List.append_assoc] at hx
    by_cases hlen : x.length < f.length
    · have hp : x <+: f := List.prefix_of_prefix_length_le hx (List.prefix_append _ _) (by omega)
      have hne : x ≠ f := by intro e; subst e; omega
      refine ⟨0, x, by simp, by simp, hf.slice_prefix x hp hne, ?_, ?_⟩
      · simpa [List.append_assoc] using hx
      · intro g hg; simp at hg; subst hg; exact ⟨hp, hne⟩
    · have hp : f <+: x := List.prefix_of_prefix_length_le (List.prefix_append _ _) hx (by omega)
      obtain ⟨x', rfl⟩ := hp
      have hx' : x' <+: fs.flatten ++ t := by
        rwa [List.prefix_append_right_inj] at hx
      obtain ⟨k, y, h1, h2, h3, h4, h5⟩ := ih x' hx'
      exact ⟨k + 1, y, by simpa using h1, by simp [h2], h3, by simpa using h4, by simpa using h5⟩

theorem Frames.take {fs : List (List Byte)} {as : List α} (h : Frames S fs as) :
    ∀ k, Frames S (fs.take k) (as.take k) := by
  induction h with
  | nil => intro k; simpa using Frames.nil
  | cons hf _ ih => intro k; cases k with
    | zero => simpa using Frames.nil
    | succ k => simpa using Frames.cons hf (ih k)

theorem Frames.drop {fs : List (List Byte)} {as : List α} (h : Frames S fs as) :
    ∀ k, Frames S (fs.drop k) (as.drop k) := by
  induction h with
  | nil => intro k; simpa using Frames.nil
  | cons hf hfs ih => intro k; cases k with
    | zero => simpa using Frames.cons hf hfs
    | succ k => simpa using ih k

theorem Frames.flatten_length {fs : List (List Byte)} {as : List α} (h : Frames S fs as) :
    fs.length ≤ fs.flatten.length := by
  induction h with
  | nil => simp
  | cons hf _ ih =>
    have : 0 < _ := List.length_pos_iff.mpr hf.pos
    simp; simp at ih; omega

/-- Reassembly: whatever chunks a prefix of the stream arrives in, the receiver has handed up exactly the
objects whose frames are complete, and holds the incomplete rest. -/
theorem recvAll_prefix (chunks : List (List Byte)) :
    ∀ {fs : List (List Byte)} {as : List α} (_ : Frames S fs as) (t : List Byte) (_ : Tail S t) (buf : List Byte),
      buf ++ chunks.flatten <+: fs.flatten ++ t → S.slice buf = 0 →
      (∀ f, fs.head? = some f → buf <+: f ∧ buf ≠ f) →
      ∃ (k : Nat) (y : List Byte), k ≤ fs.length ∧ buf ++ chunks.flatten = (fs.take k).flatten ++ y ∧
        recvAll S buf chunks = (as.take k, some y) ∧
        (∀ f, (fs.drop k).head? = some f → y <+: f ∧ y ≠ f) := by
  induction chunks with
  | nil =>
    intro fs as h t ht buf hpre hs hhead
    exact ⟨0, buf, by simp, by simp, by simp [recvAll], by simpa using hhead⟩
  | cons c cs ih =>
    intro fs as h t ht buf hpre hs hhead
    have hx : buf ++ c <+: fs.flatten ++ t :=
      (List.prefix_append (buf ++ c) cs.flatten).trans (by simpa using hpre)
    obtain ⟨k, y, hk, h2, h3, h4, h5⟩ := split_prefix h t ht _ hx
    have hfk : (fs.take k).length ≤ buf.length + c.length := by
      have := (h.take k).flatten_length
      have h2' := congrArg List.length h2
      simp at h2' this ⊢; omega
    have hrec : recvChunk S buf c = (as.take k, some y) := by
      unfold recvChunk
      rw [h2]
      exact recvLoop_frames (h.take k) y h3 _ hfk
    have hpre' : y ++ cs.flatten <+: (fs.drop k).flatten ++ t := by
      have e : fs.flatten = (fs.take k).flatten ++ (fs.drop k).flatten := by
        rw [← List.flatten_append, List.take_append_drop]
      have : (fs.take k).flatten ++ (y ++ cs.flatten) <+: (fs.take k).flatten ++ ((fs.drop k).flatten ++ t) := by
        have e2 : (fs.take k).flatten ++ (y ++ cs.flatten) = buf ++ (c :: cs).flatten := by
          rw [← List.append_assoc, ← h2]; simp
        rw [e2, ← List.append_assoc, ← e]; exact hpre
      rwa [List.prefix_append_right_inj] at this
    obtain ⟨k', y', hk', g2, g3, g4⟩ := ih (h.drop k) t ht y hpre' h3 h5
    refine ⟨k + k', y', by simp at hk'; omega, ?_, ?_, ?_⟩
    · have : buf ++ (c :: cs).flatten = (fs.take k).flatten ++ (y ++ cs.flatten) := by
        rw [← List.append_assoc, ← h2]; simp
      rw [this, g2, List.take_add, List.flatten_append, List.append_assoc]
    · simp only [recvAll, hrec, g3, List.take_add]
    · simpa [List.drop_drop, Nat.add_comm] using g4

/-- The whole stream: everything is handed up and the incomplete tail is kept. -/
theorem recvAll_whole {fs : List (List Byte)} {as : List α} (h : Frames S fs as) (t : List Byte) (ht : Tail S t)
    (chunks : List (List Byte)) (hc : chunks.flatten = fs.flatten ++ t) :
    recvAll S [] chunks = (as, some t) := by
  have h0 : S.slice [] = 0 := ht [] (List.nil_prefix)
  have hhead : ∀ f, fs.head? = some f → ([] : List Byte) <+: f ∧ [] ≠ f := by
    intro f hf
    cases h with
    | nil => simp at hf
    | cons hfr _ => simp at hf; subst hf; exact ⟨List.nil_prefix, fun e => hfr.pos e.symm⟩
  obtain ⟨k, y, hk, h2, h3, h4⟩ := recvAll_prefix chunks h t ht [] (by simp [hc]) h0 hhead
  have hkk : k = fs.length := by
    rcases Nat.lt_or_ge k fs.length with hlt | hge
    · exfalso
      obtain ⟨hd, hhd⟩ : ∃ f, (fs.drop k).head? = some f := by
        cases hd : fs.drop k with
        | nil => have := congrArg List.length hd; simp at this; omega
        | cons f _ => exact ⟨f, rfl⟩
      obtain ⟨p1, p2⟩ := h4 hd hhd
      have hlen : y.length < hd.length := by
        have := p1.length_le
        rcases Nat.lt_or_eq_of_le this with h | h
        · exact h
        · exact absurd (p1.eq_of_length h) p2
      have e : fs.flatten = (fs.take k).flatten ++ (fs.drop k).flatten := by
        rw [← List.flatten_append, List.take_append_drop]
      have l1 : hd.length ≤ (fs.drop k).flatten.length := by
        cases hdr : fs.drop k with
        | nil => simp [hdr] at hhd
        | cons f _ => simp [hdr] at hhd; subst hhd; simp
      have := congrArg List.length h2
      rw [List.nil_append, hc, e] at this
      simp only [List.length_append] at this
      omega
    · omega
  subst hkk
  rw [h3]
  have e : t = y := by
    rw [List.nil_append, hc, List.take_length] at h2
    exact List.append_cancel_left h2
  rw [h.length, List.take_length, e]

end

end Verif.Net
