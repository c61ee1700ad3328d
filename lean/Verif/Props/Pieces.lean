import Verif.Props.Cut

/-! # C10: every read served by one piece -/

namespace Verif.Props

open Verif Verif.Codec

/-! ## Running the decoder on two readers -/

/-- A relation between computations on two readers that every step of the decoder keeps. -/
structure ReaderSim {σ τ : Type} (R : Reader σ) (R' : Reader τ)
    (Q : ∀ {α : Type}, (σ → Res (α × σ)) → (τ → Res (α × τ)) → Prop) : Prop where
  done : ∀ {α : Type} (v : α), Q (fun s => .ok (v, s)) (fun s => .ok (v, s))
  error : ∀ {α : Type} (e : GoErr), Q (α := α) (fun _ => .err e) (fun _ => .err e)
  panic : ∀ {α : Type}, Q (α := α) (fun _ => .panic) (fun _ => .panic)
  stop : ∀ {α : Type}, Q (α := α) (fun _ => .diverge) (fun _ => .diverge)
  bind : ∀ {α β : Type} {a : σ → Res (α × σ)} {a' : τ → Res (α × τ)} {k : α → σ → Res (β × σ)}
    {k' : α → τ → Res (β × τ)}, Q a a' → (∀ v, Q (k v) (k' v)) →
    Q (fun s => a s >>= fun p => k p.1 p.2) (fun s => a' s >>= fun p => k' p.1 p.2)
  read : ∀ n, 0 < n → Q (fun s => readBuf R s n) (fun s => readBuf R' s n)

section
variable {σ τ : Type} {R : Reader σ} {R' : Reader τ}
  {Q : ∀ {α : Type}, (σ → Res (α × σ)) → (τ → Res (α × τ)) → Prop}

theorem ReaderSim.readByte (S : ReaderSim R R' Q) : Q (readByte R) (Codec.readByte R') :=
  S.bind (S.read 1 (by omega)) (fun d => S.done (at' d 0))

theorem ReaderSim.read16 (S : ReaderSim R R' Q) : Q (readUint16 R) (readUint16 R') :=
  S.bind (S.read 2 (by omega)) (fun d => S.done (shl 16 (at' d 0) 8 ||| shl 16 (at' d 1) 0))

theorem ReaderSim.read32 (S : ReaderSim R R' Q) : Q (readUint32 R) (readUint32 R') :=
  S.bind (S.read 4 (by omega)) (fun d => S.done
    (shl 32 (at' d 0) 24 ||| shl 32 (at' d 1) 16 ||| shl 32 (at' d 2) 8 ||| shl 32 (at' d 3) 0))

theorem ReaderSim.read64 (S : ReaderSim R R' Q) : Q (readUint64 R) (readUint64 R') :=
  S.bind (S.read 8 (by omega)) (fun d => S.done
    (shl 64 (at' d 0) 56 ||| shl 64 (at' d 1) 48 ||| shl 64 (at' d 2) 40 ||| shl 64 (at' d 3) 32 |||
      shl 64 (at' d 4) 24 ||| shl 64 (at' d 5) 16 ||| shl 64 (at' d 6) 8 ||| shl 64 (at' d 7) 0))

theorem ReaderSim.array (S : ReaderSim R R' Q) {dec : σ → Res (Val × σ)} {dec' : τ → Res (Val × τ)}
    (h : Q dec dec') : ∀ n, Q (decodeArray dec n) (decodeArray dec' n)
  | 0 => S.done []
  | n + 1 => S.bind h (fun v => S.bind (S.array h n) (fun vs => S.done (v :: vs)))

theorem ReaderSim.map (S : ReaderSim R R' Q) {dec : σ → Res (Val × σ)} {dec' : τ → Res (Val × τ)}
    (h : Q dec dec') : ∀ n d, Q (decodeMap dec n d) (decodeMap dec' n d)
  | 0, d => S.done d
  | n + 1, d => by
    refine S.bind (k := fun k s => dec s >>= fun p => if hashable k then decodeMap dec n (assign k p.1 d) p.2 else .panic)
      (k' := fun k s => dec' s >>= fun p => if hashable k then decodeMap dec' n (assign k p.1 d) p.2 else .panic)
      h (fun k => ?_)
    refine S.bind (k := fun v s => if hashable k then decodeMap dec n (assign k v d) s else .panic)
      (k' := fun v s => if hashable k then decodeMap dec' n (assign k v d) s else .panic) h (fun v => ?_)
    by_cases hk : hashable k = true
    · simp only [hk, if_true]; exact S.map h n _
    · simp only [hk]; exact S.panic

theorem ReaderSim.tag (S : ReaderSim R R' Q) {dec : σ → Res (Val × σ)} {dec' : τ → Res (Val × τ)}
    (h : Q dec dec') (c : Byte) : Q (decodeTag R dec c) (decodeTag R' dec' c) := by
  have e : ∀ {σ : Type} (R : Reader σ) dec, decodeTag R dec c = fun s => decodeTag R dec c s := fun _ _ => rfl
  rw [e R, e R']
  unfold decodeTag
  by_cases hc : c = cNil
  · simp only [if_pos hc]; exact S.done _
  simp only [if_neg hc]
  by_cases hc : c = cFalse
  · simp only [if_pos hc]; exact S.done _
  simp only [if_neg hc]
  by_cases hc : c = cTrue
  · simp only [if_pos hc]; exact S.done _
  simp only [if_neg hc]
  by_cases hc : c = cFloat32
  · simp only [if_pos hc]
    refine S.bind (k := fun v s => asFloat32 (v, s)) (k' := fun v s => asFloat32 (v, s)) h (fun v => ?_)
    unfold asFloat32
    dsimp only
    split
    · exact S.done _
    · exact S.panic
  simp only [if_neg hc]
  by_cases hc : c = cFloat64
  · simp only [if_pos hc]
    refine S.bind (k := fun v s => asFloat64 (v, s)) (k' := fun v s => asFloat64 (v, s)) h (fun v => ?_)
    unfold asFloat64
    dsimp only
    split
    · exact S.done _
    · exact S.panic
  simp only [if_neg hc]
  by_cases hc : c = cUint8
  · simp only [if_pos hc]; exact S.bind S.readByte (fun _ => S.done _)
  simp only [if_neg hc]
  by_cases hc : c = cUint16
  · simp only [if_pos hc]; exact S.bind S.read16 (fun _ => S.done _)
  simp only [if_neg hc]
  by_cases hc : c = cUint32
  · simp only [if_pos hc]; exact S.bind S.read32 (fun _ => S.done _)
  simp only [if_neg hc]
  by_cases hc : c = cUint64
  · simp only [if_pos hc]; exact S.bind S.read64 (fun _ => S.done _)
  simp only [if_neg hc]
  by_cases hc : c = cInt8
  · simp only [if_pos hc]; exact S.bind S.readByte (fun _ => S.done _)
  simp only [if_neg hc]
  by_cases hc : c = cInt16
  · simp only [if_pos hc]; exact S.bind S.read16 (fun _ => S.done _)
  simp only [if_neg hc]
  by_cases hc : c = cInt32
  · simp only [if_pos hc]; exact S.bind S.read32 (fun _ => S.done _)
  simp only [if_neg hc]
  by_cases hc : c = cInt64
  · simp only [if_pos hc]; exact S.bind S.read64 (fun _ => S.done _)
  simp only [if_neg hc]
  by_cases hc : c = cStr32
  · simp only [if_pos hc]
    refine S.bind (k := fun (n : BitVec 32) s => if n.toNat = 0 then .ok (Val.str 0 [], s) else
        readBuf R s n.toNat >>= fun p => .ok (Val.str 0 p.1, p.2))
      (k' := fun (n : BitVec 32) s => if n.toNat = 0 then .ok (Val.str 0 [], s) else
        readBuf R' s n.toNat >>= fun p => .ok (Val.str 0 p.1, p.2)) S.read32 (fun n => ?_)
    by_cases hn : n.toNat = 0
    · simp only [if_pos hn]; exact S.done _
    · simp only [if_neg hn]
      exact S.bind (S.read n.toNat (by omega)) (fun _ => S.done _)
  simp only [if_neg hc]
  by_cases hc : c = cArr32
  · simp only [if_pos hc]
    exact S.bind S.read32 (fun n => S.bind (S.array h n.toNat) (fun vs => S.done (Val.seq .ifaceSlice vs)))
  simp only [if_neg hc]
  by_cases hc : c = cMap32
  · simp only [if_pos hc]
    exact S.bind S.read32 (fun n => S.bind (S.map h n.toNat []) (fun d => S.done (Val.map .ifaceMap d)))
  simp only [if_neg hc]
  exact S.error _

/-- The decoder behaves alike on both readers. -/
theorem ReaderSim.decodeF (S : ReaderSim R R' Q) : ∀ f, Q (decodeF R f) (Codec.decodeF R' f)
  | 0 => S.stop
  | f + 1 => S.bind S.readByte (fun c => S.tag (S.decodeF f) c)

end

/-! ## The reads of the decoder -/

/-- `bytesReader` that also notes the size of the buffer of every successful `Read`. -/
def tracer : Reader (List Byte × List Nat) where
  read s n := if s.1 = [] then none else some (s.1.take n, s.1.drop n, s.2 ++ [n])

/-- The sizes of the buffers `Decode` passes to `Read`, in order, on the input `s`. -/
def reads (s : List Byte) : List Nat :=
  match decodeF tracer (s.length + 1) (s, []) with
  | .ok (_, _, ns) => ns
  | _ => []

/-- Each of the given reads is served in full by one piece: it ends within the piece it begins in. -/
def served : List Nat → List (List Byte) → Bool
  | [], _ => true
  | _ :: _, [] => false
  | n :: ns, c :: cs => if n < c.length then served ns (c.drop n :: cs) else n == c.length && served ns cs

/-- The pieces left when the reads are done. -/
def after : List Nat → List (List Byte) → List (List Byte)
  | [], cs => cs
  | _ :: _, [] => []
  | n :: ns, c :: cs => if n < c.length then after ns (c.drop n :: cs) else after ns cs

theorem served_append (ms ns : List Nat) (cs : List (List Byte)) (h : served (ms ++ ns) cs = true) :
    served ms cs = true ∧ served ns (after ms cs) = true := by
  induction ms generalizing cs with
  | nil => exact ⟨rfl, h⟩
  | cons m ms ih =>
    cases cs with
    | nil => simp [served] at h
    | cons c cs =>
      simp only [List.cons_append, served, after] at h ⊢
      split
      · rename_i hm; rw [if_pos hm] at h; exact ih _ h
      · rename_i hm
        rw [if_neg hm] at h
        simp only [Bool.and_eq_true] at h ⊢
        exact ⟨⟨h.1, (ih _ h.2).1⟩, (ih _ h.2).2⟩

theorem after_append (ms ns : List Nat) (cs : List (List Byte)) :
    after (ms ++ ns) cs = after ns (after ms cs) := by
  induction ms generalizing cs with
  | nil => rfl
  | cons m ms ih =>
    cases cs with
    | nil => cases ns <;> simp [after]
    | cons c cs =>
      simp only [List.cons_append, after]
      split <;> exact ih _

/-- The tracer behaves like `bytesReader`. -/
private def Proj {α : Type} (a : List Byte → Res (α × List Byte))
    (b : List Byte × List Nat → Res (α × List Byte × List Nat)) : Prop :=
  ∀ s tr, a s = (b (s, tr) >>= fun p => .ok (p.1, p.2.1))

private theorem proj_sim : ReaderSim bytesReader tracer (@Proj) where
  done v := fun s tr => rfl
  error e := fun s tr => rfl
  panic := fun s tr => rfl
  stop := fun s tr => rfl
  bind := by
    intro α β a a' k k' h1 h2 s tr
    simp only
    rw [h1 s tr]
    cases a' (s, tr) with
    | ok p => exact h2 p.1 p.2.1 p.2.2
    | _ => rfl
  read n _ := by
    intro s tr
    simp only [readBuf, bytesReader, tracer]
    by_cases hs : s = []
    · simp [hs]
    · simp [hs]

/-- What the decoder does on a whole input it also does on the pieces, as long as they serve its reads. -/
private def Follows {α : Type} (a : List Byte × List Nat → Res (α × List Byte × List Nat))
    (b : List (List Byte) → Res (α × List (List Byte))) : Prop :=
  ∀ s tr v t tr', a (s, tr) = .ok (v, t, tr') → ∃ ns, tr' = tr ++ ns ∧
    ∀ cs, cs.flatten = s → served ns cs = true → b cs = .ok (v, after ns cs) ∧ (after ns cs).flatten = t

private theorem follows_sim : ReaderSim tracer chunkReader (@Follows) where
  done v := by
    intro s tr v' t tr' h
    cases h
    exact ⟨[], by simp, fun cs hc _ => ⟨rfl, hc⟩⟩
  error e := by intro s tr v' t tr' h; cases h
  panic := by intro α s tr v' t tr' h; cases h
  stop := by intro α s tr v' t tr' h; cases h
  bind := by
    intro α β a a' k k' h1 h2 s tr v t tr' h
    simp only at h
    cases ha : a (s, tr) with
    | ok p =>
      obtain ⟨x, s1, tr1⟩ := p
      rw [ha] at h
      obtain ⟨ns1, rfl, g1⟩ := h1 _ _ _ _ _ ha
      obtain ⟨ns2, rfl, g2⟩ := h2 x _ _ _ _ _ h
      refine ⟨ns1 ++ ns2, by rw [List.append_assoc], fun cs hc hs => ?_⟩
      obtain ⟨hs1, hs2⟩ := served_append _ _ _ hs
      obtain ⟨e1, e2⟩ := g1 cs hc hs1
      obtain ⟨e3, e4⟩ := g2 _ e2 hs2
      rw [after_append]
      refine ⟨?_, e4⟩
      simp only [e1, Res.bind_ok]
      exact e3
    | _ => rw [ha] at h; cases h
  read n hn := by
    intro s tr v t tr' h
    simp only [readBuf, tracer] at h
    by_cases hs : s = []
    · rw [if_pos hs] at h; cases h
    rw [if_neg hs] at h
    cases h
    refine ⟨[n], rfl, fun cs hc hv => ?_⟩
    cases cs with
    | nil => simp [served] at hv
    | cons c cs =>
      simp only [served, after] at hv ⊢
      subst hc
      simp only [readBuf, chunkReader, List.flatten_cons]
      by_cases hl : n < c.length
      · rw [if_pos hl]
        rw [if_neg (show ¬ c.length ≤ n by omega), List.take_append_of_le_length (by omega),
          List.drop_append_of_le_length (by omega)]
        exact ⟨rfl, rfl⟩
      · rw [if_neg hl] at hv ⊢
        simp only [Bool.and_true, beq_iff_eq] at hv
        subst hv
        rw [if_pos (Nat.le_refl _)]
        simp

/-- C10 where it holds: if every read of the decoder is served by one piece, the result is that on the whole
input, and the pieces left hold what is left of it.  Full statement: without the hypothesis `served`. -/
theorem C10_served_partial (cs : List (List Byte)) (v : Val) (t : List Byte)
    (h : decode cs.flatten = .ok (v, t)) (hs : served (reads cs.flatten) cs = true) :
    decodeChunked cs = .ok (v, after (reads cs.flatten) cs) ∧ (after (reads cs.flatten) cs).flatten = t := by
  have hp := proj_sim.decodeF (cs.flatten.length + 1) cs.flatten []
  rw [show decodeF bytesReader (cs.flatten.length + 1) cs.flatten = decode cs.flatten from rfl, h] at hp
  cases ht : decodeF tracer (cs.flatten.length + 1) (cs.flatten, []) with
  | ok p =>
    obtain ⟨x, t', tr⟩ := p
    rw [ht] at hp
    simp only [Res.bind_ok] at hp
    cases hp
    have hr : reads cs.flatten = tr := by simp only [reads, ht]
    obtain ⟨ns, e, g⟩ := follows_sim.decodeF _ _ _ _ _ _ ht
    simp only [List.nil_append] at e
    subst e
    rw [hr] at hs ⊢
    exact g cs rfl hs
  | _ => rw [ht] at hp; cases hp

/-- The list [300, "AB"] in pieces that divide it behind tags, counts and values, in the middle of the next
value as it were, but not inside any of the parts. -/
example : let cs : List (List Byte) := [[0xdd], [0, 0, 0, 2, 0xcd], [1, 0x2c, 0xdb], [0, 0, 0, 2], [0x41, 0x42, 0xc0]]
    decode cs.flatten = .ok (.seq .ifaceSlice [.uint .u16 0 300, .str 0 [0x41, 0x42]], [0xc0]) ∧
    reads cs.flatten = [1, 4, 1, 2, 1, 4, 2] ∧ served (reads cs.flatten) cs = true ∧
    after (reads cs.flatten) cs = [[0xc0]] := by
  decide +kernel

/-! ## The pieces the encoder writes -/

mutual

/-- The non-empty `Write` calls of `encodeValue`, /repo/codec/encoder.go:16-170: scalars in one call, floats in
two (tag and bits), strings in two (header and contents), lists and maps one for the header and those of the
elements. -/
def writes : Val → List (List Byte)
  | .nil => [encodeNil]
  | .bool _ b => [encodeBool b]
  | .f32 _ bits => [[cFloat64], encodeUint64 (widen bits)]
  | .f64 _ bits => [[cFloat64], encodeUint64 bits]
  | .uint _ _ v => [encodeUint64 (v.setWidth 64)]
  | .int _ _ v => [encodeInt64 (v.signExtend 64)]
  | .str _ s => if s = [] then [header cStr32 s.length] else [header cStr32 s.length, s]
  | .seq _ xs => header cArr32 xs.length :: writesList xs
  | .map _ kvs => header cMap32 kvs.length :: writesEntries kvs
  | .bad _ => []

/-- The same for the elements of an array, /repo/codec/encoder.go:135-142. -/
def writesList : List Val → List (List Byte)
  | [] => []
  | x :: xs => writes x ++ writesList xs

/-- The same for the entries of a map, /repo/codec/encoder.go:147-170. -/
def writesEntries : List (Val × Val) → List (List Byte)
  | [] => []
  | (k, v) :: rest => writes k ++ (writes v ++ writesEntries rest)

end

/-- The same for `encode`, /repo/codec/encoder.go:204-243. -/
def writesTop : Val → List (List Byte)
  | .f32 0 bits => [[cFloat32], encodeUint32 bits]
  | .uint k 0 v => [(encode (.uint k 0 v)).bytes]
  | .int k 0 v => [(encode (.int k 0 v)).bytes]
  | v => writes v

/-- A whole value in one piece. -/
private def Starts {α : Type} (a : List Byte → Res (α × List Byte))
    (b : List (List Byte) → Res (α × List (List Byte))) : Prop :=
  ∀ rest s v t, a s = .ok (v, t) → b (pieces s rest) = .ok (v, pieces t rest)

private theorem starts_sim : ReaderSim bytesReader chunkReader (@Starts) where
  done v := by intro rest s v' t h; cases h; rfl
  error e := by intro rest s v' t h; cases h
  panic := by intro α rest s v' t h; cases h
  stop := by intro α rest s v' t h; cases h
  bind := by
    intro α β a a' k k' h1 h2 rest s v t h
    simp only at h
    cases ha : a s with
    | ok p =>
      rw [ha] at h
      simp only [h1 rest _ _ _ ha, Res.bind_ok]
      exact h2 p.1 rest _ _ _ h
    | _ => rw [ha] at h; cases h
  read n _ := by
    intro rest s v t h
    by_cases hs : s = []
    · subst hs; cases h
    · simp only at h
      rw [readBuf_ne hs] at h
      cases h
      simp only [readBuf, pieces, if_neg hs, chunkReader]
      by_cases hl : s.length ≤ n
      · rw [if_pos hl]
        simp only
        rw [List.take_of_length_le hl, List.drop_eq_nil_of_le hl]
        rfl
      · rw [if_neg hl]
        simp only
        rw [if_neg (by simp; omega)]

/-- `ws` decodes to `w`, whatever pieces follow. -/
private def GoodPieces (ws : List (List Byte)) (w : Val) : Prop :=
  1 ≤ ws.flatten.length ∧ ∀ rest fuel, ws.flatten.length ≤ fuel →
    decodeF chunkReader fuel (ws ++ rest) = .ok (w, rest)

private theorem good_one {bs : List Byte} {w : Val} (h : GoodEnc (.ok bs) w) : GoodPieces [bs] w := by
  obtain ⟨_, h1, h2⟩ := h
  simp only [Enc.ok_bytes] at h1 h2
  refine ⟨by simpa using h1, fun rest fuel hf => ?_⟩
  have := h2 [] fuel (by simpa using hf)
  rw [List.append_nil] at this
  have hne : bs ≠ [] := by intro h0; subst h0; simp at h1
  have := starts_sim.decodeF fuel rest bs w [] this
  simpa [pieces, hne] using this

private theorem chunk_byte (c : Byte) (rest : List (List Byte)) :
    readByte chunkReader ([c] :: rest) = .ok (c, rest) := by
  simp [readByte, readBuf, chunkReader, fill, at']

private theorem good_f64 {b : BitVec 64} (h : 2^32 ≤ b.toNat) :
    GoodPieces [[cFloat64], encodeUint64 b] (.f64 0 b) := by
  refine ⟨by simp, fun rest fuel hf => ?_⟩
  have hl := encodeUint64_length b
  simp at hf
  obtain ⟨f, rfl⟩ : ∃ f, fuel = f + 1 := ⟨fuel - 1, by omega⟩
  have hg := (good_one (goodEnc_u64 b)).2 rest f (by simpa using by omega)
  rw [List.singleton_append] at hg
  rw [List.cons_append, List.singleton_append, decodeF, chunk_byte]
  have hc : canonNat b.toNat = .uint .u64 0 b := by
    have := b.isLt
    simp [canonNat, show ¬ b.toNat < 2^8 by omega, show ¬ b.toNat < 2^16 by omega, show ¬ b.toNat < 2^32 by omega]
  rw [hc] at hg
  simp [decodeTag, hg, asFloat64, cNil, cFalse, cTrue, cFloat32, cFloat64]
  rfl

private theorem good_f32 {b : BitVec 32} (h : 2^16 ≤ b.toNat) :
    GoodPieces [[cFloat32], encodeUint32 b] (.f32 0 b) := by
  refine ⟨by simp, fun rest fuel hf => ?_⟩
  have hl := encodeUint32_length b
  simp at hf
  obtain ⟨f, rfl⟩ : ∃ f, fuel = f + 1 := ⟨fuel - 1, by omega⟩
  have hg := (good_one (goodEnc_u64 (b.setWidth 64))).2 rest f (by rw [encodeUint64_32]; simpa using by omega)
  rw [List.singleton_append, encodeUint64_32] at hg
  rw [List.cons_append, List.singleton_append, decodeF, chunk_byte]
  have hc : canonNat (b.setWidth 64).toNat = .uint .u32 0 b := by
    have := b.isLt
    have h1 : (b.setWidth 64).toNat = b.toNat := by
      simp only [BitVec.toNat_setWidth]; omega
    simp [canonNat, h1, show ¬ b.toNat < 2^8 by omega, show ¬ b.toNat < 2^16 by omega]
    omega
  rw [hc] at hg
  simp [decodeTag, hg, asFloat32, cNil, cFalse, cTrue, cFloat32]
  rfl

/-- What is left of a header piece when the tag is read. -/
private def counts (n : Nat) : List Byte :=
  [byte ((BitVec.ofNat 64 n) >>> 24), byte ((BitVec.ofNat 64 n) >>> 16), byte ((BitVec.ofNat 64 n) >>> 8),
    byte (BitVec.ofNat 64 n)]

private theorem chunk_tag (c : Byte) (n : Nat) (rest : List (List Byte)) :
    readByte chunkReader (header c n :: rest) = .ok (c, counts n :: rest) := by
  simp [readByte, readBuf, chunkReader, fill, at', header, counts]

private theorem chunk_count (n : Nat) (rest : List (List Byte)) :
    readUint32 chunkReader (counts n :: rest) = .ok (BitVec.ofNat 32 n, rest) := by
  have := starts_sim.read32 rest _ _ _ (readUint32_header n [])
  simpa [pieces, counts] using this

private theorem good_str (s : Str) (h : s.length < 2^32) :
    GoodPieces (if s = [] then [header cStr32 s.length] else [header cStr32 s.length, s]) (.str 0 s) := by
  refine ⟨by split <;> simp [header], fun rest fuel hf => ?_⟩
  obtain ⟨f, rfl⟩ : ∃ f, fuel = f + 1 := ⟨fuel - 1, by
    have : 1 ≤ fuel := by
      refine Nat.le_trans ?_ hf
      split <;> simp [header]
    omega⟩
  by_cases h0 : s = []
  · subst h0
    simp only [if_true, List.singleton_append]
    rw [decodeF, chunk_tag]
    simp [decodeTag, chunk_count, cStr32, cNil, cFalse, cTrue, cFloat32, cFloat64, cUint8, cUint16, cUint32,
      cUint64, cInt8, cInt16, cInt32, cInt64]
  · simp only [if_neg h0, List.cons_append, List.nil_append]
    rw [decodeF, chunk_tag]
    have hl : s.length ≠ 0 := by simpa using h0
    have hr : readBuf chunkReader (s :: rest) s.length = .ok (s, rest) := by
      simp [readBuf, chunkReader, fill]
    simp only [Res.bind_ok, decodeTag, chunk_count, toNat_ofNat_lt h, if_neg hl, hr]
    simp [cStr32, cNil, cFalse, cTrue, cFloat32, cFloat64, cUint8, cUint16, cUint32,
      cUint64, cInt8, cInt16, cInt32, cInt64]

private theorem chunk_arr (f n : Nat) (rest : List (List Byte)) (h : n < 2^32) :
    decodeF chunkReader (f + 1) (header cArr32 n :: rest) = (do
      let (vs, s) ← decodeArray (decodeF chunkReader f) n rest
      return (.seq .ifaceSlice vs, s)) := by
  rw [decodeF, chunk_tag]
  simp only [Res.bind_ok, decodeTag, chunk_count, toNat_ofNat_lt h]
  simp [cStr32, cNil, cFalse, cTrue, cFloat32, cFloat64, cUint8, cUint16, cUint32, cUint64, cInt8,
    cInt16, cInt32, cInt64, cArr32]

private theorem chunk_dict (f n : Nat) (rest : List (List Byte)) (h : n < 2^32) :
    decodeF chunkReader (f + 1) (header cMap32 n :: rest) = (do
      let (kvs, s) ← decodeMap (decodeF chunkReader f) n [] rest
      return (.map .ifaceMap kvs, s)) := by
  rw [decodeF, chunk_tag]
  simp only [Res.bind_ok, decodeTag, chunk_count, toNat_ofNat_lt h]
  simp [cStr32, cNil, cFalse, cTrue, cFloat32, cFloat64, cUint8, cUint16, cUint32, cUint64, cInt8,
    cInt16, cInt32, cInt64, cArr32, cMap32]

private theorem good_entries (todo : List (Val × Val))
    (hgood : ∀ kv ∈ todo, GoodPieces (writes kv.1) (canon kv.1) ∧ GoodPieces (writes kv.2) (canon kv.2))
    (hhash : ∀ kv ∈ todo, hashable (canon kv.1) = true)
    (hdist : (todo.map (fun kv => canon kv.1)).Pairwise (fun k k' => goEq k k' = false)) :
    ∀ (rest : List (List Byte)) (fuel : Nat) (dict : List (Val × Val)),
      (writesEntries todo).flatten.length ≤ fuel →
      (∀ kv ∈ todo, ∀ d ∈ dict, goEq d.1 (canon kv.1) = false) →
      decodeMap (decodeF chunkReader fuel) todo.length dict (writesEntries todo ++ rest) =
        .ok (dict ++ canonEntries todo, rest) := by
  induction todo with
  | nil =>
    intro rest fuel dict _ _
    simp [writesEntries, decodeMap, canonEntries]
  | cons kv todo ih =>
    obtain ⟨k, v⟩ := kv
    obtain ⟨⟨hk1, hk2⟩, ⟨hv1, hv2⟩⟩ := hgood (k, v) (by simp)
    simp only [List.map_cons, List.pairwise_cons] at hdist
    have ih2 := ih (fun x hx => hgood x (List.mem_cons_of_mem _ hx))
      (fun x hx => hhash x (List.mem_cons_of_mem _ hx)) hdist.2
    intro rest fuel dict hf hd
    simp only [writesEntries, List.flatten_append, List.length_append] at hf
    simp only [writesEntries, List.length_cons, decodeMap, List.append_assoc]
    simp only at hk2 hv2
    rw [hk2 _ fuel (by omega)]
    simp only [Res.bind_ok]
    rw [hv2 _ fuel (by omega)]
    simp only [Res.bind_ok]
    have hh := hhash (k, v) (by simp)
    simp only at hh
    rw [if_pos hh, assign_fresh (hd (k, v) (by simp)), ih2 rest fuel _ (by omega)]
    · simp [canonEntries]
    · intro x hx d hdm
      rcases List.mem_append.mp hdm with h | h
      · exact hd x (List.mem_cons_of_mem _ hx) d h
      · simp only [List.mem_singleton] at h
        subst h
        exact hdist.1 (canon x.1) (List.mem_map.mpr ⟨x, hx, rfl⟩)

mutual

private theorem good_value (v : Val) (h : wireOK v = true) : GoodPieces (writes v) (canon v) := by
  match v with
  | .nil => exact good_one (rt_value .nil h)
  | .bool t b => exact good_one (rt_value (.bool t b) h)
  | .uint k t x => exact good_one (rt_value (.uint k t x) h)
  | .int k t x => exact good_one (rt_value (.int k t x) h)
  | .f32 _ b =>
    simp [wireOK] at h
    exact good_f64 (widen_large b h)
  | .f64 _ b =>
    simp [wireOK] at h
    exact good_f64 h
  | .str _ s =>
    simp [wireOK] at h
    exact good_str s h
  | .seq ty xs =>
    simp only [wireOK, Bool.and_eq_true, decide_eq_true_eq] at h
    refine ⟨by simp [writes, header], fun rest fuel hf => ?_⟩
    simp only [writes, List.flatten_cons, List.length_append, header_length] at hf
    obtain ⟨f, rfl⟩ : ∃ f, fuel = f + 1 := ⟨fuel - 1, by omega⟩
    rw [writes, List.cons_append, chunk_arr _ _ _ h.1, good_list xs h.2 rest f (by omega), canon]
    rfl
  | .map ty kvs =>
    simp only [wireOK, Bool.and_eq_true, decide_eq_true_eq] at h
    have hd := (distinctKeys_iff _).mp h.2
    rw [canonEntries_eq, List.map_map] at hd
    have hok := (wireOKEntries_iff kvs).mp h.1.2
    refine ⟨by simp [writes, header], fun rest fuel hf => ?_⟩
    simp only [writes, List.flatten_cons, List.length_append, header_length] at hf
    obtain ⟨f, rfl⟩ : ∃ f, fuel = f + 1 := ⟨fuel - 1, by omega⟩
    rw [writes, List.cons_append, chunk_dict _ _ _ h.1.1,
      good_entries kvs (good_pairs kvs h.1.2) (fun kv hkv => hashable_canon (hok kv hkv).2.1 (hok kv hkv).1) hd
        rest f [] (by omega) (by simp), canon]
    rfl
  | .bad _ => simp [wireOK] at h

private theorem good_list (xs : List Val) (h : wireOKList xs = true) : ∀ rest fuel,
    (writesList xs).flatten.length ≤ fuel →
    decodeArray (decodeF chunkReader fuel) xs.length (writesList xs ++ rest) = .ok (canonList xs, rest) := by
  match xs with
  | [] => intro rest fuel _; simp [writesList, decodeArray, canonList]
  | x :: xs =>
    simp only [wireOKList, Bool.and_eq_true] at h
    obtain ⟨hx1, hx2⟩ := good_value x h.1
    have ih := good_list xs h.2
    intro rest fuel hf
    simp only [writesList, List.flatten_append, List.length_append] at hf
    simp only [writesList, List.length_cons, decodeArray, List.append_assoc]
    rw [hx2 _ fuel (by omega)]
    simp only [Res.bind_ok]
    rw [ih rest fuel (by omega)]
    simp [canonList]

private theorem good_pairs (kvs : List (Val × Val)) (h : wireOKEntries kvs = true) :
    ∀ kv ∈ kvs, GoodPieces (writes kv.1) (canon kv.1) ∧ GoodPieces (writes kv.2) (canon kv.2) := by
  match kvs with
  | [] => simp
  | (k, v) :: rest =>
    simp only [wireOKEntries, Bool.and_eq_true] at h
    intro kv hkv
    rcases List.mem_cons.mp hkv with hh | hh
    · subst hh
      exact ⟨good_value k h.1.1.1.1, good_value v h.1.2⟩
    · exact good_pairs rest h.2 kv hh

end

private theorem good_top (v : Val) (h : topOK v = true) : GoodPieces (writesTop v) (canonTop v) := by
  match v with
  | .nil => exact good_value _ h
  | .bool t b => exact good_value (.bool t b) h
  | .f32 0 b => exact good_f32 (by simpa [topOK] using h)
  | .f32 (n + 1) b => exact good_value (.f32 (n + 1) b) h
  | .f64 t b => exact good_value (.f64 t b) h
  | .uint k 0 x => cases k <;> exact good_one (rt_top _ h)
  | .uint k (n + 1) x => exact good_value (.uint k (n + 1) x) h
  | .int k 0 x => cases k <;> exact good_one (rt_top _ h)
  | .int k (n + 1) x => cases k <;> exact good_value (.int _ (n + 1) x) h
  | .str t s => exact good_value (.str t s) h
  | .seq ty xs => exact good_value (.seq ty xs) h
  | .map ty kvs => exact good_value (.map ty kvs) h
  | .bad _ => simp [topOK, wireOK] at h

private theorem writes_loop (table : List (Val × Enc × Enc)) (todo : List (Val × Val))
    (hgood : ∀ kv ∈ todo, GoodEnc (encodeValue kv.1) (canon kv.1) ∧ GoodEnc (encodeValue kv.2) (canon kv.2))
    (hw : ∀ kv ∈ todo, (writes kv.1).flatten = (encodeValue kv.1).bytes ∧
      (writes kv.2).flatten = (encodeValue kv.2).bytes)
    (hidx : ∀ kv ∈ todo, encodeMapIndex kv.1 table = encodeValue kv.2) :
    (writesEntries todo).flatten = (encodeMapLoop table (encodeTable todo)).bytes := by
  induction todo with
  | nil => rfl
  | cons kv todo ih =>
    obtain ⟨k, v⟩ := kv
    have hg := hgood (k, v) (by simp)
    have hww := hw (k, v) (by simp)
    have hi := hidx (k, v) (by simp)
    simp only at hg hww hi
    have hkv : ((encodeValue k).seq (encodeMapIndex k table)).err = none := by
      rw [hi]; exact Enc.seq_err hg.1.1 hg.2.1
    simp only [writesEntries, encodeTable, encodeMapLoop]
    rw [Enc.seq_bytes hkv, Enc.seq_bytes hg.1.1, hi, List.flatten_append, List.flatten_append, hww.1, hww.2,
      ih (fun x hx => hgood x (List.mem_cons_of_mem _ hx)) (fun x hx => hw x (List.mem_cons_of_mem _ hx))
        (fun x hx => hidx x (List.mem_cons_of_mem _ hx)), List.append_assoc]

mutual

private theorem writes_value (v : Val) (h : wireOK v = true) : (writes v).flatten = (encodeValue v).bytes := by
  match v with
  | .nil => rfl
  | .bool _ b => simp [writes, encodeValue]
  | .uint _ _ x => simp [writes, encodeValue]
  | .int _ _ x => simp [writes, encodeValue]
  | .f32 _ b => simp [writes, encodeValue, encodeFloat64]
  | .f64 _ b => simp [writes, encodeValue, encodeFloat64]
  | .str _ s =>
    by_cases hs : s = [] <;> simp [writes, encodeValue, encodeString, hs]
  | .seq _ xs =>
    simp only [wireOK, Bool.and_eq_true, decide_eq_true_eq] at h
    simp only [writes, encodeValue, Enc.seq_bytes (Enc.ok_err _), Enc.ok_bytes, List.flatten_cons,
      writes_list xs h.2]
  | .map _ kvs =>
    simp only [wireOK, Bool.and_eq_true, decide_eq_true_eq] at h
    have hd := (distinctKeys_iff _).mp h.2
    rw [canonEntries_eq, List.map_map] at hd
    have hok := (wireOKEntries_iff kvs).mp h.1.2
    simp only [writes, encodeValue, Enc.seq_bytes (Enc.ok_err _), Enc.ok_bytes, List.flatten_cons,
      writes_loop (encodeTable kvs) kvs (rt_entries kvs h.1.2) (writes_pairs kvs h.1.2) (index_all kvs hok hd)]
  | .bad _ => simp [wireOK] at h

private theorem writes_list (xs : List Val) (h : wireOKList xs = true) :
    (writesList xs).flatten = (encodeElems xs).bytes := by
  match xs with
  | [] => rfl
  | x :: xs =>
    simp only [wireOKList, Bool.and_eq_true] at h
    simp only [writesList, encodeElems, Enc.seq_bytes (rt_value x h.1).1, List.flatten_append,
      writes_value x h.1, writes_list xs h.2]

private theorem writes_pairs (kvs : List (Val × Val)) (h : wireOKEntries kvs = true) :
    ∀ kv ∈ kvs, (writes kv.1).flatten = (encodeValue kv.1).bytes ∧
      (writes kv.2).flatten = (encodeValue kv.2).bytes := by
  match kvs with
  | [] => simp
  | (k, v) :: rest =>
    simp only [wireOKEntries, Bool.and_eq_true] at h
    intro kv hkv
    rcases List.mem_cons.mp hkv with hh | hh
    · subst hh
      exact ⟨writes_value k h.1.1.1.1, writes_value v h.1.2⟩
    · exact writes_pairs rest h.2 kv hh

end

/-- The pieces are those of the encoding. -/
theorem writesTop_flatten (v : Val) (h : topOK v = true) : (writesTop v).flatten = (encode v).bytes := by
  match v with
  | .nil => rfl
  | .bool 0 b => simp [writesTop, writes, encode]
  | .bool (n + 1) b => exact writes_value (.bool (n + 1) b) h
  | .f32 0 b => simp [writesTop, encode, encodeFloat32]
  | .f32 (n + 1) b => exact writes_value (.f32 (n + 1) b) h
  | .f64 0 b => exact writes_value (.f64 0 b) h
  | .f64 (n + 1) b => exact writes_value (.f64 (n + 1) b) h
  | .uint k 0 x => simp [writesTop]
  | .uint k (n + 1) x => cases k <;> exact writes_value (.uint _ (n + 1) x) h
  | .int k 0 x => simp [writesTop]
  | .int k (n + 1) x => cases k <;> exact writes_value (.int _ (n + 1) x) h
  | .str 0 s => exact writes_value (.str 0 s) h
  | .str (n + 1) s => exact writes_value (.str (n + 1) s) h
  | .seq ty xs => exact writes_value (.seq ty xs) h
  | .map ty kvs => exact writes_value (.map ty kvs) h
  | .bad _ => simp [topOK, wireOK] at h

/-- C10 where it holds: a reader that delivers what the encoder wrote, one `Write` call per piece, yields the
value, and leaves the pieces behind it. -/
theorem C10_writes_partial (v : Val) (h : topOK v = true) (rest : List (List Byte)) :
    (writesTop v).flatten = (encode v).bytes ∧
    decodeChunked (writesTop v ++ rest) = .ok (canonTop v, rest) :=
  ⟨writesTop_flatten v h, (good_top v h).2 rest _ (by simp; omega)⟩

/-- A map from a string to a list of a float and the empty string, followed by something else. -/
example : let v := Val.map .ifaceMap [(.str 0 [0x61], .seq .ifaceSlice [.f64 0 0x3ff0000000000000, .str 0 []])]
    topOK v = true ∧ (writesTop v).flatten = (encode v).bytes ∧ (writesTop v).length = 7 := by
  decide +kernel

end Verif.Props
