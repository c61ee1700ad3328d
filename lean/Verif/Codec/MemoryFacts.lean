import Verif.Codec.Memory
import Verif.Codec.DecodeFacts

/-! # Facts about the memory requests of the decoder -/

namespace Verif.Codec

open Verif

theorem total_nil : total [] = 0 := rfl
theorem total_cons (r : Req) (rs : List Req) : total (r :: rs) = r.size + total rs := by simp [total]
theorem total_append (a b : List Req) : total (a ++ b) = total a + total b := by simp [total]

/-- What the last string may have been too long by. -/
def slack (t : List Byte) : Nat := if t = [] then 2^32 else 0

theorem slack_nil : slack [] = 2^32 := rfl
theorem slack_ne {t : List Byte} (h : t ≠ []) : slack t = 0 := by simp [slack, h]

theorem bind_ok_inv {α β : Type} {r : Res α} {g : α → Res β} {b : β} (h : (r >>= g) = .ok b) :
    ∃ a, r = .ok a ∧ g a = .ok b := by
  cases r with
  | ok a => exact ⟨a, rfl, h⟩
  | _ => cases h

theorem asFloat32_inv {p q : Val × List Byte} (h : asFloat32 p = .ok q) : q.2 = p.2 := by
  unfold asFloat32 at h
  split at h
  · cases h; rfl
  · cases h

theorem asFloat64_inv {p q : Val × List Byte} (h : asFloat64 p = .ok q) : q.2 = p.2 := by
  unfold asFloat64 at h
  split at h
  · cases h; rfl
  · cases h

/-- The bound for one value, for a recursive decoder. -/
def Bound (dec : List Byte → Res (Val × List Byte)) (req : List Byte → List Req) : Prop :=
  ∀ s v t, dec s = .ok (v, t) → s ≠ [] ∧ total (req s) + 16 + 16 * t.length ≤ 16 * s.length + slack t

theorem bound_array {dec : List Byte → Res (Val × List Byte)} {req : List Byte → List Req}
    (hd : Bound dec req) : ∀ n s vs t, decodeArray dec n s = .ok (vs, t) →
      16 * n + total (requestsArray dec req n s) + 16 * t.length ≤ 16 * s.length + slack t
  | 0, s, vs, t, h => by
    cases h
    simp [requestsArray, total_nil]
  | n + 1, s, vs, t, h => by
    obtain ⟨⟨v, u⟩, h1, h⟩ := bind_ok_inv h
    obtain ⟨⟨ws, w⟩, h2, h⟩ := bind_ok_inv h
    cases h
    obtain ⟨hs, b1⟩ := hd s v u h1
    have b2 := bound_array hd n u ws _ h2
    simp only [requestsArray, h1, total_append]
    cases n with
    | zero => cases h2; simp only [requestsArray, total_nil] at b2 ⊢; omega
    | succ n =>
      obtain ⟨⟨v', u'⟩, h3, _⟩ := bind_ok_inv h2
      rw [slack_ne (hd u v' u' h3).1] at b1
      omega

theorem bound_map {dec : List Byte → Res (Val × List Byte)} {req : List Byte → List Req}
    (hd : Bound dec req) : ∀ n d s kvs t, decodeMap dec n d s = .ok (kvs, t) →
      total (requestsMap dec req n s) + 16 * t.length ≤ 16 * s.length + slack t
  | 0, d, s, vs, t, h => by
    cases h
    simp [requestsMap, total_nil]
  | n + 1, d, s, kvs, t, h => by
    obtain ⟨⟨k, u⟩, h1, h⟩ := bind_ok_inv h
    obtain ⟨⟨v, w⟩, h2, h⟩ := bind_ok_inv h
    simp only at h2 h
    have hk : hashable k = true := by
      by_cases hk : hashable k = true
      · exact hk
      · rw [if_neg hk] at h; cases h
    rw [if_pos hk] at h
    obtain ⟨hs, b1⟩ := hd s k u h1
    obtain ⟨hu, b2⟩ := hd u v w h2
    have b3 := bound_map hd n _ w kvs t h
    rw [slack_ne hu] at b1
    simp only [requestsMap, h1, h2, hk, total_append, if_true]
    cases n with
    | zero => cases h; simp only [requestsMap, total_nil] at b3 ⊢; omega
    | succ n =>
      obtain ⟨⟨v', u'⟩, h3, _⟩ := bind_ok_inv h
      rw [slack_ne (hd w v' u' h3).1] at b2
      omega

/-- On success the requests are bounded by what was consumed, up to one string at the very end. -/
theorem bound : ∀ f, Bound (decodeF bytesReader f) (requestsF f)
  | 0 => by intro s v t h; cases h
  | f + 1 => by
    intro s v t h
    have hc := decodeF_consumes (f + 1) s v t h
    have hn := Val.nodes_pos v
    rcases readByte_or s with ⟨rfl, h1⟩ | ⟨c, s, rfl, h1⟩
    · rw [decodeF, h1] at h; cases h
    refine ⟨by simp, ?_⟩
    rw [decodeF, h1] at h
    change decodeTag bytesReader (decodeF bytesReader f) c s = _ at h
    unfold decodeTag at h
    rw [requestsF, h1]
    simp only [List.length_cons] at hc ⊢
    by_cases c1 : c = cFloat32
    · subst c1
      simp only [cFloat32, cNil, cFalse, cTrue] at h
      obtain ⟨⟨w, u⟩, h2, h⟩ := bind_ok_inv (g := asFloat32) h
      have := asFloat32_inv h
      simp only at this
      subst this
      have := (bound f s w _ h2).2
      simp only [if_true]
      omega
    by_cases c2 : c = cFloat64
    · subst c2
      simp only [cFloat32, cFloat64, cNil, cFalse, cTrue] at h
      obtain ⟨⟨w, u⟩, h2, h⟩ := bind_ok_inv (g := asFloat64) h
      have := asFloat64_inv h
      simp only at this
      subst this
      have := (bound f s w _ h2).2
      simp only [c1, if_true, if_false]
      omega
    by_cases c3 : c = cStr32
    · subst c3
      simp only [cStr32, cFloat32, cFloat64, cNil, cFalse, cTrue, cUint8, cUint16, cUint32, cUint64, cInt8,
        cInt16, cInt32, cInt64] at h
      obtain ⟨⟨n, u⟩, h2, h⟩ := bind_ok_inv (r := readUint32 bytesReader s) h
      simp only [c1, c2, if_true, if_false, h2]
      by_cases hz : n.toNat = 0
      · rw [if_pos hz, total_nil]; omega
      rw [if_neg hz, total_cons, total_nil, Req.size]
      rw [if_neg hz] at h
      have hu : u = s.drop 4 := by
        rcases readUint32_or s with ⟨_, h3⟩ | ⟨_, m, h3⟩
        · rw [h3] at h2; cases h2
        · rw [h3] at h2; cases h2; rfl
      by_cases h4 : u = []
      · simp only [h4, readBuf_nil] at h; cases h
      simp only [readBuf_ne h4] at h
      cases h
      have hl := n.isLt
      by_cases ht : u.drop n.toNat = []
      · rw [ht, slack_nil]; simp; omega
      · rw [slack_ne ht]
        simp only [List.drop_eq_nil_iff, Nat.not_le] at ht
        have : u.length ≤ s.length := by rw [hu]; simp
        simp; omega
    by_cases c4 : c = cArr32
    · subst c4
      simp only [cArr32, cStr32, cFloat32, cFloat64, cNil, cFalse, cTrue, cUint8, cUint16, cUint32, cUint64,
        cInt8, cInt16, cInt32, cInt64] at h
      obtain ⟨⟨n, u⟩, h2, h⟩ := bind_ok_inv (r := readUint32 bytesReader s) h
      obtain ⟨⟨vs, w⟩, h3, h⟩ := bind_ok_inv h
      cases h
      simp only [c1, c2, c3, if_true, if_false, h2]
      have b := bound_array (bound f) _ _ _ _ h3
      simp only at b
      have hu : u = s.drop 4 := by
        rcases readUint32_or s with ⟨_, h3⟩ | ⟨_, m, h3⟩
        · rw [h3] at h2; cases h2
        · rw [h3] at h2; cases h2; rfl
      have : u.length ≤ s.length := by rw [hu]; simp
      rw [total_cons, Req.size]
      omega
    by_cases c5 : c = cMap32
    · subst c5
      simp only [cMap32, cArr32, cStr32, cFloat32, cFloat64, cNil, cFalse, cTrue, cUint8, cUint16, cUint32,
        cUint64, cInt8, cInt16, cInt32, cInt64] at h
      obtain ⟨⟨n, u⟩, h2, h⟩ := bind_ok_inv (r := readUint32 bytesReader s) h
      obtain ⟨⟨vs, w⟩, h3, h⟩ := bind_ok_inv h
      cases h
      simp only [c1, c2, c3, c4, if_true, if_false, h2]
      have b := bound_map (bound f) _ _ _ _ _ h3
      simp only at b
      have hu : u = s.drop 4 := by
        rcases readUint32_or s with ⟨_, h3⟩ | ⟨_, m, h3⟩
        · rw [h3] at h2; cases h2
        · rw [h3] at h2; cases h2; rfl
      have : u.length ≤ s.length := by rw [hu]; simp
      omega
    simp only [c1, c2, c3, c4, c5, if_false, total_nil]
    omega

/-! ## What follows the value has no influence -/

/-- If `g` stops before the end of its input then it does the same without what it left over. -/
def Local {α : Type} (g : List Byte → Res (α × List Byte)) : Prop :=
  ∀ s x a t, x ≠ [] → g (s ++ x) = .ok (a, t ++ x) → g s = .ok (a, t)

/-- `g` leaves over an end of its input. -/
def Leaves {α : Type} (g : List Byte → Res (α × List Byte)) : Prop :=
  ∀ s a t, g s = .ok (a, t) → t <:+ s

theorem Local.bind {α β : Type} {g : List Byte → Res (α × List Byte)} {h : α × List Byte → Res (β × List Byte)}
    (hg : Local g) (hl : ∀ a, Leaves (fun s => h (a, s))) (hh : ∀ a, Local (fun s => h (a, s))) :
    Local (fun s => g s >>= h) := by
  intro s x b t hx e
  obtain ⟨⟨a, u⟩, e1, e2⟩ := bind_ok_inv e
  obtain ⟨w, hw⟩ := hl a u b _ e2
  have hu : u = (w ++ t) ++ x := by rw [← hw]; simp
  subst hu
  simp only [hg s x a _ hx e1, Res.bind_ok]
  exact hh a _ x b t hx e2

theorem Leaves.bind {α β : Type} {g : List Byte → Res (α × List Byte)} {h : α × List Byte → Res (β × List Byte)}
    (hg : Leaves g) (hl : ∀ a, Leaves (fun s => h (a, s))) : Leaves (fun s => g s >>= h) := by
  intro s b t e
  obtain ⟨⟨a, u⟩, e1, e2⟩ := bind_ok_inv e
  exact (hl a u b t e2).trans (hg s a u e1)

theorem local_pure {α : Type} (a : α) : Local (fun s => (.ok (a, s) : Res (α × List Byte))) := by
  intro s x b t hx e
  simp only [Res.ok.injEq, Prod.mk.injEq, List.append_cancel_right_eq] at e
  rw [e.1, e.2]

theorem leaves_pure {α : Type} (a : α) : Leaves (fun s => (.ok (a, s) : Res (α × List Byte))) := by
  intro s b t e
  cases e
  exact List.suffix_refl _

theorem local_readBuf (n : Nat) (hn : 0 < n) : Local (fun s => readBuf bytesReader s n) := by
  intro s x a t hx e
  have h0 : s ++ x ≠ [] := by simp [hx]
  simp only [readBuf_ne h0, Res.ok.injEq, Prod.mk.injEq] at e
  have hl := congrArg List.length e.2
  have hx' : 0 < x.length := List.length_pos_iff.mpr hx
  simp only [List.length_drop, List.length_append] at hl
  have hns : n ≤ s.length := by omega
  have hs : s ≠ [] := by rintro rfl; simp at hns; omega
  rw [List.take_append_of_le_length hns, List.drop_append_of_le_length hns, List.append_cancel_right_eq] at e
  simp only [readBuf_ne hs, e.1, e.2]

theorem leaves_readBuf (n : Nat) : Leaves (fun s => readBuf bytesReader s n) := by
  intro s a t e
  by_cases hs : s = []
  · subst hs; cases e
  · simp only [readBuf_ne hs] at e
    cases e
    exact List.drop_suffix _ _

theorem local_array {dec : List Byte → Res (Val × List Byte)} (hd : Local dec) (hl : Leaves dec) :
    ∀ n, Local (decodeArray dec n) ∧ Leaves (decodeArray dec n)
  | 0 => ⟨local_pure _, leaves_pure _⟩
  | n + 1 => by
    obtain ⟨h1, h2⟩ := local_array hd hl n
    exact ⟨hd.bind (fun a => h2.bind (fun b => leaves_pure _)) (fun a => h1.bind (fun b => leaves_pure _) (fun b => local_pure _)),
      hl.bind (fun a => h2.bind (fun b => leaves_pure _))⟩

theorem local_map {dec : List Byte → Res (Val × List Byte)} (hd : Local dec) (hl : Leaves dec) :
    ∀ n d, Local (decodeMap dec n d) ∧ Leaves (decodeMap dec n d)
  | 0, d => ⟨local_pure _, leaves_pure _⟩
  | n + 1, d => by
    have key : ∀ k v, Local (fun s => if hashable k then decodeMap dec n (assign k v d) s else .panic) ∧
        Leaves (fun s => if hashable k then decodeMap dec n (assign k v d) s else .panic) := by
      intro k v
      by_cases hk : hashable k = true
      · simpa only [hk, if_true] using local_map hd hl n (assign k v d)
      · constructor
        · intro s x a t hx e; simp only [hk] at e; cases e
        · intro s a t e; simp only [hk] at e; cases e
    exact ⟨hd.bind (fun k => hl.bind (fun v => (key k v).2))
        (fun k => hd.bind (fun v => (key k v).2) (fun v => (key k v).1)),
      hl.bind (fun k => hl.bind (fun v => (key k v).2))⟩

theorem local_asFloat32 (a : Val) : Local (fun s => asFloat32 (a, s)) ∧ Leaves (fun s => asFloat32 (a, s)) := by
  unfold asFloat32
  constructor
  · intro s x b t hx e
    simp only at e ⊢
    split at e
    · simp only [Res.ok.injEq, Prod.mk.injEq, List.append_cancel_right_eq] at e
      rw [e.1, e.2]
    · cases e
  · intro s b t e
    simp only at e
    split at e
    · cases e; exact List.suffix_refl _
    · cases e

theorem local_asFloat64 (a : Val) : Local (fun s => asFloat64 (a, s)) ∧ Leaves (fun s => asFloat64 (a, s)) := by
  unfold asFloat64
  constructor
  · intro s x b t hx e
    simp only at e ⊢
    split at e
    · simp only [Res.ok.injEq, Prod.mk.injEq, List.append_cancel_right_eq] at e
      rw [e.1, e.2]
    · cases e
  · intro s b t e
    simp only at e
    split at e
    · cases e; exact List.suffix_refl _
    · cases e

theorem local_err {α : Type} (e : GoErr) : Local (fun _ => (.err e : Res (α × List Byte))) := by
  intro s x a t hx h; cases h

theorem local_tag {dec : List Byte → Res (Val × List Byte)} (hd : Local dec) (hl : Leaves dec) (c : Byte) :
    Local (decodeTag bytesReader dec c) := by
  have b1 := local_readBuf 1 (by omega)
  have b2 := local_readBuf 2 (by omega)
  have b4 := local_readBuf 4 (by omega)
  have b8 := local_readBuf 8 (by omega)
  have r1 : Local (readByte bytesReader) := b1.bind (fun _ => leaves_pure _) (fun _ => local_pure _)
  have r2 : Local (readUint16 bytesReader) := b2.bind (fun _ => leaves_pure _) (fun _ => local_pure _)
  have r4 : Local (readUint32 bytesReader) := b4.bind (fun _ => leaves_pure _) (fun _ => local_pure _)
  have r8 : Local (readUint64 bytesReader) := b8.bind (fun _ => leaves_pure _) (fun _ => local_pure _)
  unfold decodeTag
  by_cases hc : c = cNil
  · simp only [if_pos hc]; exact local_pure _
  simp only [if_neg hc]
  clear hc
  by_cases hc : c = cFalse
  · simp only [if_pos hc]; exact local_pure _
  simp only [if_neg hc]
  clear hc
  by_cases hc : c = cTrue
  · simp only [if_pos hc]; exact local_pure _
  simp only [if_neg hc]
  clear hc
  by_cases hc : c = cFloat32
  · simp only [if_pos hc]
    exact hd.bind (fun a => (local_asFloat32 a).2) (fun a => (local_asFloat32 a).1)
  simp only [if_neg hc]
  clear hc
  by_cases hc : c = cFloat64
  · simp only [if_pos hc]
    exact hd.bind (fun a => (local_asFloat64 a).2) (fun a => (local_asFloat64 a).1)
  simp only [if_neg hc]
  clear hc
  by_cases hc : c = cUint8
  · simp only [if_pos hc]
    exact r1.bind (fun d => leaves_pure (Val.uint .u8 0 d)) (fun d => local_pure (Val.uint .u8 0 d))
  simp only [if_neg hc]
  clear hc
  by_cases hc : c = cUint16
  · simp only [if_pos hc]
    exact r2.bind (fun d => leaves_pure (Val.uint .u16 0 d)) (fun d => local_pure (Val.uint .u16 0 d))
  simp only [if_neg hc]
  clear hc
  by_cases hc : c = cUint32
  · simp only [if_pos hc]
    exact r4.bind (fun d => leaves_pure (Val.uint .u32 0 d)) (fun d => local_pure (Val.uint .u32 0 d))
  simp only [if_neg hc]
  clear hc
  by_cases hc : c = cUint64
  · simp only [if_pos hc]
    exact r8.bind (fun d => leaves_pure (Val.uint .u64 0 d)) (fun d => local_pure (Val.uint .u64 0 d))
  simp only [if_neg hc]
  clear hc
  by_cases hc : c = cInt8
  · simp only [if_pos hc]
    exact r1.bind (fun d => leaves_pure (Val.int .i8 0 d)) (fun d => local_pure (Val.int .i8 0 d))
  simp only [if_neg hc]
  clear hc
  by_cases hc : c = cInt16
  · simp only [if_pos hc]
    exact r2.bind (fun d => leaves_pure (Val.int .i16 0 d)) (fun d => local_pure (Val.int .i16 0 d))
  simp only [if_neg hc]
  clear hc
  by_cases hc : c = cInt32
  · simp only [if_pos hc]
    exact r4.bind (fun d => leaves_pure (Val.int .i32 0 d)) (fun d => local_pure (Val.int .i32 0 d))
  simp only [if_neg hc]
  clear hc
  by_cases hc : c = cInt64
  · simp only [if_pos hc]
    exact r8.bind (fun d => leaves_pure (Val.int .i64 0 d)) (fun d => local_pure (Val.int .i64 0 d))
  simp only [if_neg hc]
  clear hc
  by_cases hc : c = cStr32
  · simp only [if_pos hc]
    refine r4.bind (fun n => ?_) (fun n => ?_)
    · by_cases hz : n.toNat = 0
      · simp only [if_pos hz]; exact leaves_pure _
      · simp only [if_neg hz]; exact (leaves_readBuf _).bind (fun d => leaves_pure (Val.str 0 d))
    · by_cases hz : n.toNat = 0
      · simp only [if_pos hz]; exact local_pure _
      · simp only [if_neg hz]
        exact (local_readBuf _ (by omega)).bind (fun d => leaves_pure (Val.str 0 d)) (fun d => local_pure (Val.str 0 d))
  simp only [if_neg hc]
  clear hc
  by_cases hc : c = cArr32
  · simp only [if_pos hc]
    exact r4.bind (fun n => (local_array hd hl n.toNat).2.bind (fun d => leaves_pure (Val.seq .ifaceSlice d)))
      (fun n => (local_array hd hl n.toNat).1.bind (fun d => leaves_pure (Val.seq .ifaceSlice d))
        (fun d => local_pure (Val.seq .ifaceSlice d)))
  simp only [if_neg hc]
  clear hc
  by_cases hc : c = cMap32
  · simp only [if_pos hc]
    exact r4.bind (fun n => (local_map hd hl n.toNat []).2.bind (fun d => leaves_pure (Val.map .ifaceMap d)))
      (fun n => (local_map hd hl n.toNat []).1.bind (fun d => leaves_pure (Val.map .ifaceMap d))
        (fun d => local_pure (Val.map .ifaceMap d)))
  simp only [if_neg hc]
  exact local_err _

theorem leaves_decodeF (f : Nat) : Leaves (decodeF bytesReader f) :=
  fun s v t h => (decodeF_consumes f s v t h).1

theorem local_decodeF : ∀ f, Local (decodeF bytesReader f)
  | 0 => by intro s x a t hx e; cases e
  | f + 1 => by
    intro s x v t hx e
    have hc := (decodeF_consumes (f + 1) _ v _ e)
    have hn := Val.nodes_pos v
    cases s with
    | nil => simp only [List.nil_append, List.length_append] at hc; omega
    | cons c s =>
      simp only [decodeF, List.cons_append, readByte_cons, Res.bind_ok] at e ⊢
      exact local_tag (local_decodeF f) (leaves_decodeF f) c s x v t hx e

/-! ## The requests do not depend on what follows either -/

/-- What `g` leaves over ends in what followed. -/
theorem Leaves.split {α : Type} {g : List Byte → Res (α × List Byte)} (hg : Leaves g) {u t x : List Byte} {a : α}
    (h : g u = .ok (a, t ++ x)) : ∃ w, u = w ++ x := by
  obtain ⟨w, hw⟩ := hg _ _ _ h
  exact ⟨w ++ t, by rw [← hw]; simp⟩

/-- The claim for one value. -/
def Same (dec : List Byte → Res (Val × List Byte)) (req : List Byte → List Req) : Prop :=
  ∀ s x v t, x ≠ [] → dec (s ++ x) = .ok (v, t ++ x) → req (s ++ x) = req s

theorem same_array {dec : List Byte → Res (Val × List Byte)} {req : List Byte → List Req}
    (hd : Local dec) (hl : Leaves dec) (hs : Same dec req) : ∀ n s x vs t, x ≠ [] →
      decodeArray dec n (s ++ x) = .ok (vs, t ++ x) →
      requestsArray dec req n (s ++ x) = requestsArray dec req n s
  | 0, s, x, vs, t, hx, h => rfl
  | n + 1, s, x, vs, t, hx, h => by
    obtain ⟨⟨v, u⟩, h1, h⟩ := bind_ok_inv h
    obtain ⟨⟨ws, w⟩, h2, h⟩ := bind_ok_inv h
    simp only [Res.pure_eq, Res.ok.injEq, Prod.mk.injEq] at h2 h
    obtain ⟨_, rfl⟩ := h
    obtain ⟨u, rfl⟩ := (local_array hd hl n).2.split h2
    simp only [requestsArray, h1, hd s x v u hx h1, hs s x v u hx h1, same_array hd hl hs n u x ws t hx h2]

theorem same_map {dec : List Byte → Res (Val × List Byte)} {req : List Byte → List Req}
    (hd : Local dec) (hl : Leaves dec) (hs : Same dec req) : ∀ n d s x kvs t, x ≠ [] →
      decodeMap dec n d (s ++ x) = .ok (kvs, t ++ x) →
      requestsMap dec req n (s ++ x) = requestsMap dec req n s
  | 0, d, s, x, kvs, t, hx, h => rfl
  | n + 1, d, s, x, kvs, t, hx, h => by
    obtain ⟨⟨k, u⟩, h1, h⟩ := bind_ok_inv h
    obtain ⟨⟨v, w⟩, h2, h3⟩ := bind_ok_inv h
    simp only at h2 h3
    have hk : hashable k = true := by
      by_cases hk : hashable k = true
      · exact hk
      · rw [if_neg hk] at h3; cases h3
    rw [if_pos hk] at h3
    obtain ⟨w, rfl⟩ := (local_map hd hl n _).2.split h3
    obtain ⟨u, rfl⟩ := hl.split h2
    simp only [requestsMap, h1, hd s x k u hx h1, hs s x k u hx h1, h2, hd u x v w hx h2, hs u x v w hx h2, hk,
      if_true, same_map hd hl hs n _ w x kvs t hx h3]

theorem same : ∀ f, Same (decodeF bytesReader f) (requestsF f)
  | 0 => by intro s x v t hx e; rfl
  | f + 1 => by
    intro s x v t hx e
    have hc := (decodeF_consumes (f + 1) _ v _ e)
    have hn := Val.nodes_pos v
    cases s with
    | nil => simp only [List.nil_append, List.length_append] at hc; omega
    | cons c s =>
    have r4 : Local (readUint32 bytesReader) :=
      (local_readBuf 4 (by omega)).bind (fun _ => leaves_pure _) (fun _ => local_pure _)
    have hd := local_decodeF f
    have hl := leaves_decodeF f
    simp only [decodeF, List.cons_append, readByte_cons, Res.bind_ok] at e
    unfold decodeTag at e
    simp only [requestsF, List.cons_append, readByte_cons]
    by_cases c1 : c = cFloat32
    · subst c1
      simp only [cFloat32, cNil, cFalse, cTrue] at e
      obtain ⟨⟨w, u⟩, h2, h⟩ := bind_ok_inv (g := asFloat32) e
      have := asFloat32_inv h
      simp only at this
      subst this
      simp only [if_true]
      exact same f s x w t hx h2
    by_cases c2 : c = cFloat64
    · subst c2
      simp only [cFloat32, cFloat64, cNil, cFalse, cTrue] at e
      obtain ⟨⟨w, u⟩, h2, h⟩ := bind_ok_inv (g := asFloat64) e
      have := asFloat64_inv h
      simp only at this
      subst this
      simp only [c1, if_true, if_false]
      exact same f s x w t hx h2
    by_cases c3 : c = cStr32
    · subst c3
      simp only [cStr32, cFloat32, cFloat64, cNil, cFalse, cTrue, cUint8, cUint16, cUint32, cUint64, cInt8,
        cInt16, cInt32, cInt64] at e
      obtain ⟨⟨n, u⟩, h2, h⟩ := bind_ok_inv (r := readUint32 bytesReader (s ++ x)) e
      have lv : Leaves (fun s => if n.toNat = 0 then (.ok (Val.str 0 [], s) : Res (Val × List Byte))
          else readBuf bytesReader s n.toNat >>= fun p => .ok (Val.str 0 p.1, p.2)) := by
        by_cases hz : n.toNat = 0
        · simp only [if_pos hz]; exact leaves_pure _
        · simp only [if_neg hz]; exact (leaves_readBuf _).bind (fun d => leaves_pure (Val.str 0 d))
      obtain ⟨u, rfl⟩ := lv.split h
      simp only [c1, c2, if_true, if_false, h2, r4 s x n u hx h2]
    by_cases c4 : c = cArr32
    · subst c4
      simp only [cArr32, cStr32, cFloat32, cFloat64, cNil, cFalse, cTrue, cUint8, cUint16, cUint32, cUint64,
        cInt8, cInt16, cInt32, cInt64] at e
      obtain ⟨⟨n, u⟩, h2, h⟩ := bind_ok_inv (r := readUint32 bytesReader (s ++ x)) e
      obtain ⟨⟨vs, w⟩, h3, h⟩ := bind_ok_inv h
      simp only [Res.pure_eq, Res.ok.injEq, Prod.mk.injEq] at h3 h
      obtain ⟨_, rfl⟩ := h
      obtain ⟨u, rfl⟩ := (local_array hd hl _).2.split h3
      simp only [c1, c2, c3, if_true, if_false, h2, r4 s x n u hx h2,
        same_array hd hl (same f) _ u x vs t hx h3]
    by_cases c5 : c = cMap32
    · subst c5
      simp only [cMap32, cArr32, cStr32, cFloat32, cFloat64, cNil, cFalse, cTrue, cUint8, cUint16, cUint32,
        cUint64, cInt8, cInt16, cInt32, cInt64] at e
      obtain ⟨⟨n, u⟩, h2, h⟩ := bind_ok_inv (r := readUint32 bytesReader (s ++ x)) e
      obtain ⟨⟨vs, w⟩, h3, h⟩ := bind_ok_inv h
      simp only [Res.pure_eq, Res.ok.injEq, Prod.mk.injEq] at h3 h
      obtain ⟨_, rfl⟩ := h
      obtain ⟨u, rfl⟩ := (local_map hd hl _ _).2.split h3
      simp only [c1, c2, c3, c4, if_true, if_false, h2, r4 s x n u hx h2,
        same_map hd hl (same f) _ _ u x vs t hx h3]
    simp only [c1, c2, c3, c4, c5, if_false]

end Verif.Codec
