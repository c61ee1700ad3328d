import Verif.Codec.Count
import Verif.Props.Write1

/-!
# C129: the number of bytes the encoder reports

Full statement: the number returned by `encode` is the number of bytes that the writer accepted.  This is false for floats,
whose first byte is not counted (`C129_refuted`).
-/

namespace Verif.Props

open Verif Verif.Codec

variable {σ : Type} {W : Writer σ}

/-- The function does what the one without a number does; the number is at most the sum of the numbers returned by `Write`,
and exactly that under a condition. -/
structure FineVal (W : Writer σ) (exact : Prop) (c : Count σ) (e : Emit σ) : Prop where
  same : ∀ s, (c s).2 = e s
  sum : ∀ s, ∃ new, (c s).2.2.calls = s.calls ++ new ∧ (c s).1 ≤ (new.map WriteCall.n).sum ∧
    (exact → (c s).1 = (new.map WriteCall.n).sum) ∧ (W.lawful → ∀ c ∈ new, c.n ≤ c.data.length)

private theorem fine_count (p : Prop) (bs : List Byte) : FineVal W p (countBytes W bs) (emit W bs) :=
  ⟨fun _ => rfl, fun s => ⟨[⟨bs, (W.write s.st bs).1, (W.write s.st bs).2.1⟩], rfl, by simp [countBytes], fun _ => by simp [countBytes],
    fun hl => by simpa using (hl s.st bs).1⟩⟩

private theorem fine_seq {p : Prop} {a b : Count σ} {e f : Emit σ} (ha : FineVal W p a e) (hb : FineVal W p b f) :
    FineVal W p (a.seq b) (e.seq f) := by
  constructor
  · intro s
    have h1 := ha.same s
    unfold Count.seq Emit.seq
    rw [← h1]
    rcases hs : a s with ⟨n, _ | x, t⟩
    · exact hb.same t
    · rfl
  · intro s
    obtain ⟨new, h1, h2, h3, h4⟩ := ha.sum s
    unfold Count.seq
    rcases hs : a s with ⟨n, _ | x, t⟩
    · rw [hs] at h1 h2 h3
      obtain ⟨new', k1, k2, k3, k4⟩ := hb.sum t
      refine ⟨new ++ new', ?_, ?_, ?_, ?_⟩
      · change (b t).2.2.calls = _
        rw [k1, h1, List.append_assoc]
      · change n + (b t).1 ≤ _
        simp only [List.map_append, List.sum_append] at h2 ⊢
        omega
      · intro hp
        change n + (b t).1 = _
        have := h3 hp
        have := k3 hp
        simp only [List.map_append, List.sum_append] at *
        omega
      · intro hl c hc
        rcases List.mem_append.mp hc with hc | hc
        · exact h4 hl c hc
        · exact k4 hl c hc
    · rw [hs] at h1 h2 h3
      exact ⟨new, h1, h2, h3, h4⟩

private theorem fine_none (p : Prop) : FineVal W p Count.none (fun s => (none, s)) :=
  ⟨fun _ => rfl, fun s => ⟨[], by simp [Count.none], by simp [Count.none], fun _ => by simp [Count.none], by simp⟩⟩

private theorem fine_bad (p : Prop) : FineVal W p (fun s => (0, some .unsupported, s)) (fun s => (some .unsupported, s)) :=
  ⟨fun _ => rfl, fun s => ⟨[], by simp, by simp, fun _ => by simp, by simp⟩⟩

private theorem fine_float {p : Prop} (hp : ¬ p) (x y : List Byte) :
    FineVal W p ((countBytes W x).ignore (countBytes W y)) ((emit W x).ignore (emit W y)) := by
  refine ⟨fun _ => rfl, fun s => ⟨[⟨x, (W.write s.st x).1, (W.write s.st x).2.1⟩,
    ⟨y, (W.write (W.write s.st x).2.2 y).1, (W.write (W.write s.st x).2.2 y).2.1⟩], ?_, ?_, fun h => absurd h hp, ?_⟩⟩
  · simp [Count.ignore, countBytes]
  · simp [Count.ignore, countBytes]
  · intro hl
    simpa using ⟨(hl s.st x).1, (hl _ y).1⟩

/-- Tables of encoders that go alike. -/
private inductive FineTable (W : Writer σ) (p : Prop) : List (Val × Count σ × Count σ) → List (Val × Emit σ × Emit σ) → Prop where
  | nil : FineTable W p [] []
  | cons {k : Val} {a b : Count σ} {e f : Emit σ} {l m} (ha : FineVal W p a e) (hb : FineVal W p b f) (h : FineTable W p l m) :
      FineTable W p ((k, a, b) :: l) ((k, e, f) :: m)

private theorem fine_index {p : Prop} (k : Val) {l : List (Val × Count σ × Count σ)} {m : List (Val × Emit σ × Emit σ)}
    (h : FineTable W p l m) : FineVal W p (countMapIndex W k l) (emitMapIndex W k m) := by
  induction h with
  | nil => exact fine_count p _
  | cons ha hb _ ih =>
    simp only [countMapIndex, emitMapIndex]
    split
    · exact hb
    · exact ih

private theorem fine_loop {p : Prop} {t : List (Val × Count σ × Count σ)} {u : List (Val × Emit σ × Emit σ)}
    (ht : FineTable W p t u) {l : List (Val × Count σ × Count σ)} {m : List (Val × Emit σ × Emit σ)} (h : FineTable W p l m) :
    FineVal W p (countMapLoop W t l) (emitMapLoop W u m) := by
  induction h with
  | nil => exact fine_none p
  | cons ha hb _ ih => exact fine_seq (fine_seq ha (fine_index _ ht)) ih

mutual

private theorem fine_value {p : Prop} : ∀ v : Val, (p → floatFree v = true) → FineVal W p (countValue W v) (emitValue W v)
  | .nil, _ => fine_count p _
  | .bool _ _, _ => fine_count p _
  | .f32 _ _, h => fine_float (fun hp => by have := h hp; simp [floatFree] at this) _ _
  | .f64 _ _, h => fine_float (fun hp => by have := h hp; simp [floatFree] at this) _ _
  | .uint _ _ _, _ => fine_count p _
  | .int _ _ _, _ => fine_count p _
  | .str _ _, _ => fine_seq (fine_count p _) (fine_count p _)
  | .seq _ xs, h => by
    simp only [countValue, emitValue]
    exact fine_seq (fine_count p _) (fine_elems xs fun hp => by simpa [floatFree] using h hp)
  | .map _ kvs, h => by
    simp only [countValue, emitValue]
    have ht := fine_table kvs fun hp => by simpa [floatFree] using h hp
    exact fine_seq (fine_count p _) (fine_loop ht ht)
  | .bad _, _ => fine_bad p

private theorem fine_elems {p : Prop} : ∀ xs : List Val, (p → floatFreeList xs = true) →
    FineVal W p (countElems W xs) (emitElems W xs)
  | [], _ => fine_none p
  | x :: xs, h => by
    simp only [countElems, emitElems]
    simp only [floatFreeList, Bool.and_eq_true] at h
    exact fine_seq (fine_value x fun hp => (h hp).1) (fine_elems xs fun hp => (h hp).2)

private theorem fine_table {p : Prop} : ∀ kvs : List (Val × Val), (p → floatFreeEntries kvs = true) →
    FineTable W p (countTable W kvs) (emitTable W kvs)
  | [], _ => .nil
  | (k, v) :: rest, h => by
    simp only [countTable, emitTable]
    simp only [floatFreeEntries, Bool.and_eq_true] at h
    exact .cons (fine_value k fun hp => (h hp).1.1) (fine_value v fun hp => (h hp).1.2) (fine_table rest fun hp => (h hp).2)

end

private theorem fine_top {p : Prop} (v : Val) (h : p → floatFree v = true) : FineVal W p (countTo W v) (encodeTo W v) := by
  have hv := fine_value (W := W) v h
  have key : ∀ x y : List Byte, floatFree v = false →
      FineVal W p ((countBytes W x).ignore (countBytes W y)) ((emit W x).ignore (emit W y)) := by
    intro x y hn
    exact fine_float (fun hp => by rw [h hp] at hn; cases hn) x y
  unfold countTo
  split
  · exact fine_count p _
  · exact fine_count p _
  · exact key _ _ rfl
  · exact key _ _ rfl
  · exact fine_count p _
  · exact fine_count p _
  · exact fine_count p _
  · exact fine_count p _
  · exact fine_count p _
  · exact fine_count p _
  · exact fine_count p _
  · exact fine_count p _
  · exact fine_count p _
  · exact fine_count p _
  · exact fine_seq (fine_count p _) (fine_count p _)
  · rename_i h1 h2 h3 h4 h5 h6 h7 h8 h9 h10 h11 h12 h13 h14 h15
    have : encodeTo W v = emitValue W v := by
      unfold encodeTo
      split <;> first | rfl | simp_all
    rw [this]
    exact hv

/-- The numbers change nothing: error and writer are those of `encodeTo`. -/
theorem C129_same_partial (W : Writer σ) (v : Val) (s : Sink σ) : (countTo W v s).2 = encodeTo W v s :=
  (fine_top (p := False) v False.elim).same s

private theorem accepted_length {new : List WriteCall} (h : ∀ c ∈ new, c.n ≤ c.data.length) :
    (accepted new).length = (new.map WriteCall.n).sum := by
  induction new with
  | nil => rfl
  | cons c cs ih =>
    have := ih fun x hx => h x (List.mem_cons_of_mem _ hx)
    have := h c List.mem_cons_self
    simp only [accepted, List.flatMap_cons, List.length_append, List.length_take, List.map_cons, List.sum_cons] at *
    omega

/-- C129 (partial): whatever the writer does and wherever it fails, the number returned is never larger than the number of
bytes accepted, and it is that number if the value contains no float.  `new` are the calls of `Write` made by `encode`.
Full statement: the second part without `floatFree`. -/
theorem C129_count_partial (W : Writer σ) (hl : W.lawful) (v : Val) (s : Sink σ) :
    ∃ new, (countTo W v s).2.2.calls = s.calls ++ new ∧ (countTo W v s).1 ≤ (accepted new).length ∧
      (floatFree v = true → (countTo W v s).1 = (accepted new).length) := by
  obtain ⟨new, h1, h2, h3, h4⟩ := (fine_top (W := W) (p := floatFree v = true) v id).sum s
  rw [← accepted_length (h4 hl)] at h2 h3
  exact ⟨new, h1, h2, h3⟩

/-- A map with a list of numbers, and room for 12 of its 18 bytes: the writer fails within the header of the list. -/
example : roomWriter.lawful ∧ floatFree (.map .ifaceMap [(.str 0 [0x61], .seq .ifaceSlice [.int .int 0 5])]) = true ∧
    (countTo roomWriter (.map .ifaceMap [(.str 0 [0x61], .seq .ifaceSlice [.int .int 0 5])]) ⟨some 12, []⟩).1 = 12 ∧
    (encode (.map .ifaceMap [(.str 0 [0x61], .seq .ifaceSlice [.int .int 0 5])])).bytes.length = 18 :=
  ⟨roomWriter_lawful, by decide +kernel⟩

/-- C129 (partial): when Encode returns nil for a value without floats, the number beside it is the length of the encoding. -/
theorem C129_length_partial (W : Writer σ) (hl : W.lawful) (v : Val) (h : floatFree v = true) (s : Sink σ)
    (hs : (countTo W v s).2.1 = none) : (countTo W v s).1 = (encode v).bytes.length := by
  obtain ⟨new, h1, _, h3⟩ := C129_count_partial W hl v s
  obtain ⟨new', k1, k2, k3⟩ := C93_reported_partial W hl v (.inr h) s
  rw [← C129_same_partial] at k1 k2 k3
  have e : new = new' := List.append_cancel_left (h1.symm.trans k1)
  subst e
  rw [h3 h, (k2 fun c hc => ?_).1]
  cases hc' : c.err with
  | none => rfl
  | some _ =>
    obtain ⟨k, hk⟩ := (k3 ⟨c, hc, by simp [hc']⟩).2
    rw [hs] at hk
    cases hk

example : (countTo roomWriter (.map .ifaceMap [(.str 0 [0x61], .seq .ifaceSlice [.int .int 0 5])]) ⟨some 18, []⟩).2.1 = none ∧
    (countTo roomWriter (.map .ifaceMap [(.str 0 [0x61], .seq .ifaceSlice [.int .int 0 5])]) ⟨some 18, []⟩).1 = 18 := by
  decide +kernel

/-- C129 (refuted): a float of 64 bits takes ten bytes, nine are reported; one whose bits are a small number takes three, two
are reported. -/
theorem C129_refuted : (countTo bufferWriter (.f64 0 0x3ff0000000000000) ⟨[], []⟩).1 = 9 ∧
    (countTo bufferWriter (.f64 0 0x3ff0000000000000) ⟨[], []⟩).2.2.st.length = 10 ∧
    (countTo bufferWriter (.f64 0 0) ⟨[], []⟩).1 = 2 ∧ (countTo bufferWriter (.f64 0 0) ⟨[], []⟩).2.2.st.length = 3 := by
  decide +kernel

end Verif.Props
