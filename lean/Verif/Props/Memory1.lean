import Verif.Codec.MemoryFacts

/-!
# C100: memory requested while decoding

Full statement: decoding any input requests at most 16 bytes of memory, the size of one `interface{}`,
per byte of input.  This is false (`C100_refuted`): the announced length of an array is believed
before any element has been seen.
-/

namespace Verif.Props

open Verif Verif.Codec

/-- C100 for encodings.  Decoding what `Encode` wrote requests at most 16 bytes per byte, whatever
follows. -/
theorem C100_encoded_partial (v : Val) (h : topOK v = true) (rest : List Byte) :
    ((requests ((encode v).bytes ++ rest)).map Req.size).sum ≤ 16 * (encode v).bytes.length := by
  have key : ∀ x : List Byte, x ≠ [] → ∀ f, (encode v).bytes.length ≤ f →
      total (requestsF f ((encode v).bytes ++ x)) ≤ 16 * (encode v).bytes.length := by
    intro x hx f hf
    obtain ⟨_, _, h3⟩ := rt_top v h
    have b := (bound f _ _ _ (h3 x f hf)).2
    rw [slack_ne hx, List.length_append] at b
    omega
  by_cases hr : rest = []
  · subst hr
    rw [List.append_nil]
    obtain ⟨_, _, h3⟩ := rt_top v h
    have := same ((encode v).bytes.length + 1) (encode v).bytes [0] _ [] (by simp) (h3 [0] _ (by omega))
    unfold requests
    rw [← this]
    exact key [0] (by simp) _ (by omega)
  · exact key rest hr _ (by simp; omega)

example : ((requests (encode (.seq .ifaceSlice [.nil, .str 0 [1, 2]])).bytes).map Req.size).sum = 34 ∧
    (encode (.seq .ifaceSlice [.nil, .str 0 [1, 2]])).bytes.length = 13 := by decide +kernel

/-- C100 for accepted inputs.  If the decoder accepts and leaves something over, it requested at most 16
bytes per byte it consumed.  If it used up the input, one string may have been announced longer than it
was, which adds less than 4 GiB. -/
theorem C100_accepted_partial (s : List Byte) (v : Val) (t : List Byte) (h : decode s = .ok (v, t)) :
    (t ≠ [] → ((requests s).map Req.size).sum ≤ 16 * (s.length - t.length)) ∧
    ((requests s).map Req.size).sum ≤ 16 * (s.length - t.length) + 2^32 := by
  have b := (bound _ s v t h).2
  have hc := (decodeF_consumes _ s v t h).2
  change (_ → total (requests s) ≤ _) ∧ total (requests s) ≤ _
  unfold requests
  constructor
  · intro ht
    rw [slack_ne ht] at b
    omega
  · by_cases ht : t = []
    · subst ht; rw [slack_nil] at b; simp at b ⊢; omega
    · rw [slack_ne ht] at b; omega

/-- The second part is needed: six bytes are accepted as a string of `n` bytes, for every `n`. -/
example : decode [0xdb, 0, 0, 0, 3, 7] = .ok (.str 0 [7, 0, 0], []) ∧
    requests [0xdb, 0, 0, 0, 3, 7] = [.string 3] := by decide +kernel

private theorem nested (n : Nat) (h0 : 0 < n) (hn : n < 2^32) : ∀ k f, k < f →
    requestsF f ((List.replicate k (header cArr32 n)).flatten) = List.replicate k (.array n) ∧
    decodeF bytesReader f ((List.replicate k (header cArr32 n)).flatten) = .err .eof
  | 0, f, hf => by
    obtain ⟨g, rfl⟩ : ∃ g, f = g + 1 := ⟨f - 1, by omega⟩
    exact ⟨rfl, rfl⟩
  | k + 1, f, hf => by
    obtain ⟨g, rfl⟩ : ∃ g, f = g + 1 := ⟨f - 1, by omega⟩
    obtain ⟨m, rfl⟩ : ∃ m, n = m + 1 := ⟨n - 1, by omega⟩
    obtain ⟨h1, h2⟩ := nested (m + 1) h0 hn k g (by omega)
    rw [List.replicate_succ, List.flatten_cons]
    constructor
    · rw [header_append, requestsF]
      simp only [readByte_cons, readUint32_header, toNat_ofNat_lt hn]
      rw [if_neg (by decide), if_neg (by decide), if_neg (by decide)]
      simp only [if_true, requestsArray, h2, h1, List.append_nil, List.replicate_succ]
    · rw [decodeF_arr g _ _ hn]
      simp only [decodeArray, h2]
      rfl

/-- C100 is refuted: a few bytes that are not even a value make the decoder request any amount.  Headers
of arrays with `n` elements, nested `k` deep, take `5 * k` bytes and request `16 * n * k`, for every `n`
below `2^32` and every `k`.  All of it is held at the same time, since no array is finished. -/
theorem C100_refuted (n : Nat) (h0 : 0 < n) (hn : n < 2^32) (k : Nat) :
    let s := (List.replicate k (header cArr32 n)).flatten
    s.length = 5 * k ∧ decode s = .err .eof ∧ requests s = List.replicate k (.array n) ∧
    ((requests s).map Req.size).sum = 16 * n * k := by
  intro s
  have hl : s.length = 5 * k := by simp [s, header_length, Nat.mul_comm]
  obtain ⟨h1, h2⟩ := nested n h0 hn k (s.length + 1) (by omega)
  have h3 : requests s = List.replicate k (.array n) := h1
  refine ⟨hl, h2, h3, ?_⟩
  rw [h3]
  simp [Req.size, Nat.mul_comm]

/-- One packet of 9 bytes, header included: 64 GiB less 16 bytes. -/
example : ((requests (header cArr32 (2^32 - 1))).map Req.size).sum = 2^36 - 16 ∧
    decode (header cArr32 (2^32 - 1)) = .err .eof := by
  have := C100_refuted (2^32 - 1) (by omega) (by omega) 1
  simp only [List.replicate_one, List.flatten_singleton] at this
  exact ⟨by rw [this.2.2.2], this.2.1⟩

/-! ## The worst case -/

private theorem worst_array {dec : List Byte → Res (Val × List Byte)} {req : List Byte → List Req}
    (hb : Bound dec req) (hw : ∀ s, total (req s) ≤ 2^36 * s.length) :
    ∀ n s, total (requestsArray dec req n s) ≤ 2^36 * s.length
  | 0, s => by simp [requestsArray, total_nil]
  | n + 1, s => by
    rw [requestsArray, total_append]
    have := hw s
    split
    · rename_i v t e
      have b := (hb s v t e).2
      have ih := worst_array hb hw n t
      by_cases ht : t = []
      · subst ht
        simp only [List.length_nil] at ih
        omega
      · rw [slack_ne ht] at b; omega
    · simpa [total_nil] using this

private theorem worst_map {dec : List Byte → Res (Val × List Byte)} {req : List Byte → List Req}
    (hb : Bound dec req) (hw : ∀ s, total (req s) ≤ 2^36 * s.length) :
    ∀ n s, total (requestsMap dec req n s) ≤ 2^36 * s.length
  | 0, s => by simp [requestsMap, total_nil]
  | n + 1, s => by
    have main : ∀ (s t : List Byte) (v : Val) (m : Nat), dec s = .ok (v, t) → m ≤ 2^36 * t.length →
        total (req s) + m ≤ 2^36 * s.length := by
      intro s t v m e hm
      have b := (hb s v t e).2
      have := hw s
      by_cases ht : t = []
      · subst ht; simp at hm; omega
      · rw [slack_ne ht] at b; omega
    rw [requestsMap, total_append]
    have := hw s
    split
    · rename_i k t e
      refine main s t k _ e ?_
      rw [total_append]
      have := hw t
      split
      · rename_i v u e'
        refine main t u v _ e' ?_
        split
        · exact worst_map hb hw n u
        · simp [total_nil]
      · simpa [total_nil] using this
    · simpa [total_nil] using this

private theorem worst : ∀ f s, total (requestsF f s) ≤ 2^36 * s.length
  | 0, s => by simp [requestsF, total_nil]
  | f + 1, s => by
    rcases readByte_or s with ⟨rfl, h1⟩ | ⟨c, s, rfl, h1⟩
    · rw [requestsF, h1]; simp [total_nil]
    rw [requestsF, h1]
    simp only [List.length_cons]
    have ih := worst f s
    split
    · omega
    split
    · omega
    split
    · split
      · rename_i n u e
        have := n.isLt
        split
        · simp [total_nil]
        · simp only [total_cons, total_nil, Req.size]; omega
      · simp [total_nil]
    split
    · rcases readUint32_or s with ⟨rfl, h2⟩ | ⟨hs, n, h2⟩
      · rw [h2]; simp [total_nil]
      · rw [h2]
        have := n.isLt
        have b := worst_array (bound f) (worst f) n.toNat (s.drop 4)
        simp only [List.length_drop] at b
        simp only [total_cons, Req.size]
        omega
    split
    · rcases readUint32_or s with ⟨rfl, h2⟩ | ⟨hs, n, h2⟩
      · rw [h2]; simp [total_nil]
      · rw [h2]
        have b := worst_map (bound f) (worst f) n.toNat (s.drop 4)
        simp only [List.length_drop] at b
        simp only
        omega
    · simp [total_nil]

/-- What holds of every input, accepted or not: at most 64 GiB per byte.  `C100_refuted` comes within a
factor of five of it. -/
theorem C100_worst_partial (s : List Byte) : ((requests s).map Req.size).sum ≤ 2^36 * s.length :=
  worst _ s

example : ((requests [0xdd, 0xff]).map Req.size).sum = 16 * 0xff000000 := by decide +kernel

end Verif.Props
