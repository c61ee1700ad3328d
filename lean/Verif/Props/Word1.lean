import Verif.Proto.Word
import Verif.Proto.Facts
import Verif.Codec.WordFacts
import Verif.Props.Memory1

/-!
# C128: platforms of 32 and of 64 bits understand each other

Full statement: a process on a platform of 32 bits encodes every value and every packet as one of 64 bits does, and takes
every sequence of bytes for the same values and packets.  This is false for the encoding of the smallest `int`
(`C128_encode_refuted`), for announced lengths of arrays and strings (`C128_decode_refuted`) and for announced lengths of
packets: four bytes end the process (`C128_crash_refuted`) or make the connection useless (`C128_stuck_refuted`).
-/

namespace Verif.Props

open Verif Verif.Codec Verif.Proto Verif.Net

/-! ## Encoding -/

private theorem uint_same (v : BitVec 64) (h : (v.setWidth 32).setWidth 64 = v) :
    encodeUint32 (v.setWidth 32) = encodeUint64 v := by
  have hlt : v.toNat < 2^32 := by
    rw [← h, BitVec.toNat_setWidth]
    have := (v.setWidth 32).isLt
    omega
  unfold encodeUint64
  rw [if_pos (by simp only [cUint32Max]; omega)]

private theorem int_narrow (v : BitVec 64) (h : (v.setWidth 32).signExtend 64 = v) : v.toInt = (v.setWidth 32).toInt := by
  conv => lhs; rw [← h]
  exact BitVec.toInt_signExtend_of_le (by omega)

private theorem int_same (v : BitVec 64) (h : (v.setWidth 32).signExtend 64 = v) (hm : v ≠ -2147483648) :
    encodeInt32 (v.setWidth 32) = encodeInt64 v := by
  have hi : v.toInt = (v.setWidth 32).toInt := by
    conv => lhs; rw [← h]
    exact BitVec.toInt_signExtend_of_le (by omega)
  have h2 : v.toInt ≠ -2147483648 := fun e => hm (BitVec.eq_of_toInt_eq (by rw [e]; rfl))
  have h3 := BitVec.le_toInt (v.setWidth 32)
  have h4 := BitVec.toInt_lt (x := v.setWidth 32)
  unfold encodeInt64
  rw [if_pos (by simp only [cInt32Min, cInt32Max]; omega)]

/-- C128 (partial): a value that exists on 32 bits is encoded in the same way, unless it is the smallest `int`. -/
theorem C128_encode_partial (v : Val) (h : fits32 v) (hm : v ≠ .int .int 0 (-2147483648)) : encode32 v = encode v := by
  unfold encode32
  split
  · exact congrArg Enc.ok (uint_same _ h)
  · exact congrArg Enc.ok (int_same _ h fun e => hm (congrArg (Val.int .int 0) e))
  · rfl

example : fits32 (.int .int 0 (-2147483647)) ∧ (-2147483647 : BitVec 64) ≠ -2147483648 ∧
    (encode32 (.int .int 0 (-2147483647))).bytes = [0xd2, 0x80, 0, 0, 1] :=
  ⟨(by decide : ((-2147483647#64).setWidth 32).signExtend 64 = -2147483647#64), by decide, by decide +kernel⟩

/-- C128 (refuted): the smallest `int` of 32 bits takes five bytes there, and nine on 64 bits. -/
theorem C128_encode_refuted : fits32 (.int .int 0 (-2147483648)) ∧
    (encode32 (.int .int 0 (-2147483648))).bytes = [0xd2, 0x80, 0, 0, 0] ∧
    (encode (.int .int 0 (-2147483648))).bytes = [0xd3, 0xff, 0xff, 0xff, 0xff, 0x80, 0, 0, 0] :=
  ⟨(by decide : ((-2147483648#64).setWidth 32).signExtend 64 = -2147483648#64), by decide +kernel, by decide +kernel⟩

private theorem read_canon (v : BitVec 64) (h : (v.setWidth 32).signExtend 64 = v) (tp : AType) :
    (Any.normalize ⟨canonInt v.toInt, tp⟩).int = .ok v ∧
      (Any.normalize ⟨canonInt v.toInt, tp⟩).intOn32 = .ok (v.setWidth 32) := by
  have hb := int_toInt_bounds (k := .int) v
  refine ⟨(signed_canonInt v.toInt tp 64 hb.1 hb.2).trans (by rw [BitVec.ofInt_toInt]), ?_⟩
  refine (signed_canonInt v.toInt tp 32 hb.1 hb.2).trans ?_
  rw [int_narrow v h, BitVec.ofInt_toInt]

private theorem read_raw (w : BitVec 32) (tp : AType) :
    (Any.normalize ⟨.int .i32 0 w, tp⟩).int = .ok (w.signExtend 64) ∧
      (Any.normalize ⟨.int .i32 0 w, tp⟩).intOn32 = .ok w :=
  ⟨rfl, congrArg Res.ok (BitVec.signExtend_eq w)⟩

private theorem encode32_int (v : BitVec 64) : encode32 (.int .int 0 v) = encode (.int .i32 0 (v.setWidth 32)) :=
  have h1 : encode32 (.int .int 0 v) = .ok (encodeInt32 (v.setWidth 32)) := rfl
  have h2 : encode (.int .i32 0 (v.setWidth 32)) = .ok (encodeInt32 (v.setWidth 32)) := rfl
  h1.trans h2.symm

private theorem canonTop_int (w : BitVec 32) : canonTop (.int .i32 0 w) = .int .i32 0 w ∨
    canonTop (.int .i32 0 w) = canonInt w.toInt := by
  by_cases h : w.toInt = -2^31
  · exact .inl (if_pos h)
  · exact .inr (if_neg h)

/-- C128 (partial): still, whatever the platforms of writer and reader, `Int` returns the number that was written. -/
theorem C128_int_partial (v : BitVec 64) (h : (v.setWidth 32).signExtend 64 = v) (rest : List Byte) :
    (∃ a, (newAny .nil).decode ((encode32 (.int .int 0 v)).bytes ++ rest) = (a, .ok rest) ∧ a.int = .ok v ∧
      a.intOn32 = .ok (v.setWidth 32)) ∧
    ∃ a, (newAny .nil).decode ((encode (.int .int 0 v)).bytes ++ rest) = (a, .ok rest) ∧ a.int = .ok v ∧
      a.intOn32 = .ok (v.setWidth 32) := by
  constructor
  · rw [encode32_int]
    refine ⟨_, Any.decode_ok (decode_encode (.int .i32 0 (v.setWidth 32)) rfl rest), ?_⟩
    rcases canonTop_int (v.setWidth 32) with e | e
    · rw [e]
      have := read_raw (v.setWidth 32) (newAny .nil).tp
      rw [h] at this
      exact this
    · rw [e, ← int_narrow v h]
      exact read_canon v h _
  · exact ⟨_, Any.decode_ok (decode_encode (.int .int 0 v) rfl rest), read_canon v h _⟩

example : ((-2147483648 : BitVec 64).setWidth 32).signExtend 64 = -2147483648 := by decide

/-! ## Decoding -/

/-- C128 (partial): where `make` cannot meet every request, the decoder panics exactly if one of the requests it makes is
too large, and otherwise does exactly the same. -/
theorem C128_decode_partial (L : Limits) (s : List Byte) :
    (∀ r ∈ requests s, L.allow r = true) ∧ decodeL L s = decode s ∨
    (∃ r ∈ requests s, L.allow r = false) ∧ decodeL L s = .panic := by
  have e : decodeL L s = if (requests s).all L.allow then decode s else .panic := decodeLF_eq _ s
  by_cases h : (requests s).all L.allow = true
  · exact .inl ⟨List.all_eq_true.mp h, by rw [e, if_pos h]⟩
  · refine .inr ⟨?_, by rw [e, if_neg h]⟩
    simpa using h

/-- C128 (refuted): an array header that is an error on 64 bits, because the elements are missing, ends a process of 32
bits; and so does a string that is read on 64 bits. -/
theorem C128_decode_refuted :
    decode [0xdd, 0x20, 0, 0, 0] = .err .eof ∧ decodeL limits32 [0xdd, 0x20, 0, 0, 0] = .panic ∧
    (∃ x, decode [0xdb, 0x80, 0, 0, 0, 0x61] = .ok x) ∧ decodeL limits32 [0xdb, 0x80, 0, 0, 0, 0x61] = .panic := by
  have h1 := (C128_decode_partial limits32 [0xdd, 0x20, 0, 0, 0])
  have h2 := (C128_decode_partial limits32 [0xdb, 0x80, 0, 0, 0, 0x61])
  have q1 : requests [0xdd, 0x20, 0, 0, 0] = [.array 0x20000000] := by
    have := C100_refuted 0x20000000 (by decide) (by decide) 1
    exact this.2.2.1
  have q2 : requests [0xdb, 0x80, 0, 0, 0, 0x61] = [.string 0x80000000] := by decide +kernel
  rw [q1] at h1
  rw [q2] at h2
  refine ⟨(C100_refuted 0x20000000 (by decide) (by decide) 1).2.1, ?_, ⟨_, rfl⟩, ?_⟩
  · rcases h1 with ⟨h, _⟩ | ⟨_, h⟩
    · exact absurd (h _ List.mem_cons_self) (by decide)
    · exact h
  · rcases h2 with ⟨h, _⟩ | ⟨_, h⟩
    · exact absurd (h _ List.mem_cons_self) (by decide)
    · exact h

/-- A string within the limits, one of whose bytes is missing: read in the same way. -/
example : (∀ r ∈ requests [0xdb, 0, 0, 0, 3, 7], limits32.allow r = true) ∧
    decodeL limits32 [0xdb, 0, 0, 0, 3, 7] = .ok (.str 0 [7, 0, 0], []) := by decide +kernel

/-! ## Frames -/

private theorem announced32_toNat (data : List Byte) : (announced32 data).toNat = announced data := by
  unfold announced announced32
  have : ((at' data 0).setWidth 64 ||| (at' data 1).setWidth 64 <<< 8 ||| (at' data 2).setWidth 64 <<< 16 |||
    (at' data 3).setWidth 64 <<< 24 : BitVec 64) = ((at' data 0).setWidth 32 ||| (at' data 1).setWidth 32 <<< 8 |||
      (at' data 2).setWidth 32 <<< 16 ||| (at' data 3).setWidth 32 <<< 24 : BitVec 32).setWidth 64 := by
    ext i hi
    simp
    grind
  rw [this, BitVec.toNat_setWidth, Nat.mod_eq_of_lt]
  exact Nat.lt_of_lt_of_le (BitVec.isLt _) (by decide)

/-- Where the slice of the body ends. -/
private theorem end32 (data : List Byte) : (4 + announced32 data).toInt =
    if announced data < 2^31 - 4 then 4 + (announced data : Int) else 4 + (announced data : Int) - 2^32 := by
  have h := announced32_toNat data
  have hlt : announced data < 2^32 := by rw [← h]; exact (announced32 data).isLt
  have hn : (4 + announced32 data).toNat = (4 + announced data) % 2^32 := by
    rw [BitVec.toNat_add, h]; rfl
  rw [BitVec.toInt_eq_toNat_cond, hn]
  split <;> split <;> omega

/-- C128: what `Slice` returns on 32 bits, exactly.  As long as packets are shorter than 2 GiB, it is the same; headers
with one of the three largest lengths are taken for packets of one to three bytes, and those between for packets of a
negative length. -/
theorem C128_slice_partial (source : List Byte) (h4 : 4 ≤ source.length) :
    (announced source < 2^31 - 4 → slice32 source = slice source) ∧
    (2^31 - 4 ≤ announced source → slice32 source = 4 + (announced source : Int) - 2^32) := by
  unfold slice32 slice
  rw [if_neg (by omega), end32]
  constructor
  · intro h
    rw [if_pos h, if_neg (show ¬ source.length < 4 by omega)]
    dsimp only
    split <;> split <;> omega
  · intro h
    have hlt : announced source < 2^32 := by rw [← announced32_toNat]; exact (announced32 source).isLt
    dsimp only
    rw [if_neg (show ¬ announced source < 2^31 - 4 by omega), if_neg (by omega)]

example : announced [5, 0, 0, 0, 1] < 2^31 - 4 ∧ 2^31 - 4 ≤ announced [0xfd, 0xff, 0xff, 0xff] ∧
    slice32 [0xfd, 0xff, 0xff, 0xff] = 1 := by decide +kernel

/-! ## Packets -/

private theorem le_total {r : Req} {rs : List Req} (h : r ∈ rs) : r.size ≤ (rs.map Req.size).sum := by
  induction rs with
  | nil => cases h
  | cons x xs ih =>
    simp only [List.map_cons, List.sum_cons]
    rcases List.mem_cons.mp h with rfl | h
    · omega
    · have := ih h; omega

private theorem decodeL_encode {v : Val} (h : topOK v = true) (hl : (encode v).bytes.length < 2^27) (rest : List Byte) :
    decodeL limits32 ((encode v).bytes ++ rest) = decode ((encode v).bytes ++ rest) := by
  rcases C128_decode_partial limits32 ((encode v).bytes ++ rest) with ⟨_, e⟩ | ⟨⟨r, hr, hf⟩, _⟩
  · exact e
  · have hs := C100_encoded_partial v h rest
    have hm : r.size ≤ ((requests ((encode v).bytes ++ rest)).map Req.size).sum :=
      le_total hr
    cases r with
    | array n =>
      have hf : ¬ n ≤ 2^29 - 1 := of_decide_eq_false hf
      have hm : 16 * n ≤ _ := hm
      omega
    | string n =>
      have hf : ¬ n ≤ 2^31 - 1 := of_decide_eq_false hf
      have hm : n ≤ _ := hm
      omega

private theorem get32_put {α : Type} {v : Val} (h : topOK v = true) (hl : (put v).bytes.length < 2^27) (a : Any)
    (rest : List Byte) (acc : Any → Res α) :
    get32 a ((put v).bytes ++ rest) acc = Proto.get a ((put v).bytes ++ rest) acc := by
  rw [put_eq] at hl ⊢
  unfold get32 Proto.get Any.decodeL Any.decode
  rw [decodeL_encode h hl rest]
  cases decode ((encode v).bytes ++ rest) <;> rfl

private theorem str_ok {x : Str} (h : (put (.str 0 x)).bytes.length < 2^27) : topOK (.str 0 x) = true := by
  have := put_str_length x
  simp [topOK, wireOK]; omega

private theorem strs_ok {ss : List Str} (h : (put (strings ss)).bytes.length < 2^27) : topOK (strings ss) = true := by
  obtain ⟨_, h2, h3⟩ := put_strings ss
  have hw := wireOKList_strs ss fun s hs => by have := h3 s hs; omega
  simp only [strings, topOK, wireOK, List.length_map, hw, Bool.and_true, decide_eq_true_eq]
  omega

private theorem seq_ok {xs : List Val} (h : (put (.seq .ifaceSlice xs)).bytes.length < 2^27) (hx : wireOKList xs = true) :
    topOK (.seq .ifaceSlice xs) = true := by
  have := put_seq_length .ifaceSlice xs hx
  simp only [topOK, wireOK, hx, Bool.and_true, decide_eq_true_eq]
  omega

/-- The port of a response, if the packet is one, exists on 32 bits. -/
def portFits : Proto → Prop
  | .registerResponse port => (port.setWidth 32).signExtend 64 = port ∧ port ≠ -2147483648
  | _ => True

private theorem unmarshal32_marshal (p q : Proto) (hq : q.kind = p.kind) (h : p.sendable = true) (hp : portFits p)
    (hl : p.marshal.bytes.length < 2^27) :
    q.unmarshal32 p.marshal.bytes = q.unmarshal p.marshal.bytes := by
  have nil : p.marshal.bytes = p.marshal.bytes ++ [] := by simp
  cases p with
  | error e =>
    cases q <;> simp [Proto.Proto.kind] at hq
    rw [nil]
    simp only [Proto.Proto.unmarshal32, Proto.Proto.unmarshal, Proto.Proto.marshal] at hl ⊢
    rw [get32_put (str_ok hl) hl]
  | heartbeat => cases q <;> simp [Proto.Proto.kind] at hq; rfl
  | ready ss =>
    cases q <;> simp [Proto.Proto.kind] at hq
    rw [nil]
    simp only [Proto.Proto.unmarshal32, Proto.Proto.unmarshal, Proto.Proto.marshal] at hl ⊢
    rw [get32_put (strs_ok hl) hl]
  | registerRequest ss =>
    cases q <;> simp [Proto.Proto.kind] at hq
    rw [nil]
    simp only [Proto.Proto.unmarshal32, Proto.Proto.unmarshal, Proto.Proto.marshal] at hl ⊢
    rw [get32_put (strs_ok hl) hl]
  | registerResponse n =>
    cases q <;> simp [Proto.Proto.kind] at hq
    rw [nil]
    simp only [Proto.Proto.unmarshal32, Proto.Proto.unmarshal, Proto.Proto.marshal] at hl ⊢
    rw [get32_put rfl hl, get_int]
    obtain ⟨hf, _⟩ := (hp : (n.setWidth 32).signExtend 64 = n ∧ n ≠ -2147483648)
    have hi : n.toInt = (n.setWidth 32).toInt := by
      conv => lhs; rw [← hf]
      exact BitVec.toInt_signExtend_of_le (by omega)
    have hb := int_toInt_bounds (k := .int) n
    have : Proto.get (newAny .nil) ((put (.int .int 0 n)).bytes ++ []) Codec.Any.intOn32 =
        .ok (n.setWidth 32, Any.normalize ⟨canonInt n.toInt, (newAny .nil).tp⟩, []) := by
      rw [put_eq]
      refine get_ok (decode_encode (.int .int 0 n) rfl []) ?_
      refine (signed_canonInt n.toInt _ 32 hb.1 hb.2).trans ?_
      rw [hi, BitVec.ofInt_toInt]
    rw [this]
    simp [hf]
  | queryRequest e =>
    cases q <;> simp [Proto.Proto.kind] at hq
    rw [nil]
    simp only [Proto.Proto.unmarshal32, Proto.Proto.unmarshal, Proto.Proto.marshal] at hl ⊢
    rw [get32_put (str_ok hl) hl]
  | queryResponse e =>
    cases q <;> simp [Proto.Proto.kind] at hq
    rw [nil]
    simp only [Proto.Proto.unmarshal32, Proto.Proto.unmarshal, Proto.Proto.marshal] at hl ⊢
    rw [get32_put (str_ok hl) hl]
  | rpcRequest i s m args w =>
    cases q <;> simp [Proto.Proto.kind] at hq
    rw [nil]
    have hargs : wireOKList args = true := h
    have e4 := put_seq_err .ifaceSlice args hargs
    have l1 := put_str_length s
    have l2 := put_str_length m
    have l3 := put_seq_length .ifaceSlice args hargs
    simp only [Proto.Proto.marshal] at hl ⊢
    rw [Enc.seq_bytes (put_int64_err i), Enc.seq_bytes (put_str_err s), Enc.seq_bytes (put_str_err m),
      Enc.seq_bytes e4] at hl ⊢
    simp only [List.length_append] at hl
    simp only [List.append_assoc, Proto.Proto.unmarshal, Proto.Proto.unmarshal32]
    rw [get32_put rfl (by omega), get_int64]
    simp only [Res.bind_ok]
    rw [get32_put (str_ok (by omega)) (by omega), get_str _ s (by omega)]
    simp only [Res.bind_ok]
    rw [get32_put (str_ok (by omega)) (by omega), get_str _ m (by omega)]
    simp only [Res.bind_ok]
    rw [get32_put (seq_ok (by omega) hargs) (by omega), get_arr _ _ args (by omega) hargs]
    simp only [Res.bind_ok]
    rw [get32_put rfl (by omega)]
  | rpcResponse i s m res er =>
    cases q <;> simp [Proto.Proto.kind] at hq
    rw [nil]
    have hargs : wireOKList res = true := h
    have e4 := put_seq_err .ifaceSlice res hargs
    have l1 := put_str_length s
    have l2 := put_str_length m
    have l3 := put_seq_length .ifaceSlice res hargs
    simp only [Proto.Proto.marshal] at hl ⊢
    rw [Enc.seq_bytes (put_int64_err i), Enc.seq_bytes (put_str_err s), Enc.seq_bytes (put_str_err m),
      Enc.seq_bytes e4] at hl ⊢
    simp only [List.length_append] at hl
    simp only [List.append_assoc, Proto.Proto.unmarshal, Proto.Proto.unmarshal32]
    rw [get32_put rfl (by omega), get_int64]
    simp only [Res.bind_ok]
    rw [get32_put (str_ok (by omega)) (by omega), get_str _ s (by omega)]
    simp only [Res.bind_ok]
    rw [get32_put (str_ok (by omega)) (by omega), get_str _ m (by omega)]
    simp only [Res.bind_ok]
    rw [get32_put (seq_ok (by omega) hargs) (by omega), get_arr _ _ res (by omega) hargs]
    simp only [Res.bind_ok]
    rw [get32_put (str_ok (by omega)) (by omega)]

/-- C128 (partial): packets shorter than 128 MiB whose values survive the codec are written in the same way on both
platforms, found in the same way in what has been received, and read in the same way. -/
theorem C128_packet_partial (p : Packer) (hw : p.wellFormed) (hs : p.p.sendable = true) (hp : portFits p.p)
    (hl : p.body.bytes.length < 2^27) :
    ∃ bytes, marshal p = .ok bytes ∧ marshal32 p = .ok bytes ∧
      (∀ rest, slice32 (bytes ++ rest) = bytes.length ∧ slice (bytes ++ rest) = bytes.length) ∧
      unmarshal32 bytes = .ok ⟨p.id, p.p.received⟩ ∧ unmarshal bytes = .ok ⟨p.id, p.p.received⟩ := by
  have hb : p.body32 = p.body := by
    unfold Packer.body32
    split
    · rename_i port e
      rw [e] at hp
      have : put32 (.int .int 0 port) = put (.int .int 0 port) := by
        have := C128_encode_partial (.int .int 0 port) hp.1 (fun e => hp.2 (by injection e))
        rw [put_eq]; exact this
      rw [this, Packer.body, e]
      rfl
    · rfl
  have hm := marshal_ok p hs
  refine ⟨_, hm, ?_, ?_, ?_, ?_⟩
  · unfold marshal32
    rw [hb, body_err p hs]
    simp only [Res.ok.injEq]
    congr 1
    have hx : ∀ k, k ≤ 24 → byte ((BitVec.ofNat 32 p.body.bytes.length) >>> k) =
        byte ((BitVec.ofNat 64 p.body.bytes.length) >>> k) := by
      intro k hk
      apply BitVec.eq_of_toNat_eq
      simp only [byte, BitVec.toNat_setWidth, BitVec.toNat_ushiftRight, BitVec.toNat_ofNat]
      rw [Nat.mod_eq_of_lt (show p.body.bytes.length < 2^32 by omega),
        Nat.mod_eq_of_lt (show p.body.bytes.length < 2^64 by omega)]
    have h0 := hx 0 (by omega)
    simp only [BitVec.ushiftRight_zero] at h0
    unfold lengthHeader
    rw [h0, hx 8 (by omega), hx 16 (by omega), hx 24 (by omega)]
  · intro rest
    have e := slice_frame p.body.bytes rest (by omega)
    refine ⟨?_, e⟩
    rw [(C128_slice_partial _ (by simp)).1 (by rw [List.append_assoc, announced_header _ (by omega)]; omega), e]
  · unfold unmarshal32
    have ha := announced_header p.body.bytes.length (by omega) p.body.bytes
    rw [if_neg (by simp), end32, ha, if_pos (show p.body.bytes.length < 2^31 - 4 by omega)]
    dsimp only
    rw [if_neg (by simp; omega)]
    have hd : ((lengthHeader p.body.bytes.length ++ p.body.bytes).drop 4).take
        ((4 + (p.body.bytes.length : Int)).toNat - 4) = p.body.bytes := by
      change p.body.bytes.take _ = _
      rw [List.take_of_length_le (by omega)]
    rw [hd, ← unmarshalBody_body p hw hs (by omega)]
    obtain ⟨q, hq1, hq2⟩ := protoMaker_kind p.p p.id hw
    unfold Packer.body at hl ⊢
    rw [Enc.seq_bytes (put_id_err p.id)] at hl ⊢
    simp only [List.length_append] at hl
    unfold unmarshalBody32 unmarshalBody
    rw [get32_put rfl (by omega), get_id]
    simp only [fatalOnErr, Res.bind_ok, hq1, unmarshal32_marshal p.p q hq2 hs hp (by omega)]
  · rw [unmarshal_frame _ (by omega), unmarshalBody_body p hw hs (by omega)]

/-- A response with a port, and a request. -/
example : (⟨4, .registerResponse 80⟩ : Packer).wellFormed ∧ portFits (.registerResponse 80) ∧
    (⟨4, .registerResponse 80⟩ : Packer).body.bytes.length < 2^27 ∧
    (⟨7, .rpcRequest 9 [0x61] [] [.int .int 0 300] true⟩ : Packer).p.sendable = true :=
  ⟨rfl, ⟨by decide, by decide⟩, by decide +kernel, rfl⟩

/-! ## The receive routine -/

/-- C128 (refuted): four bytes end a process of 32 bits; one of 64 bits waits for the rest of the packet. -/
theorem C128_crash_refuted : recvAll serializer32 [] [[0xff, 0xff, 0xff, 0xff]] = ([], none) ∧
    recvAll ferrySerializer [] [[0xff, 0xff, 0xff, 0xff]] = ([], some [0xff, 0xff, 0xff, 0xff]) := ⟨rfl, rfl⟩

private theorem recv_stuck (buf : List Byte) (h4 : 4 ≤ buf.length) (h1 : 2^31 - 4 ≤ announced buf)
    (h2 : announced buf ≤ 2^32 - 4) : ∀ cs, recvAll serializer32 buf cs = ([], some (buf ++ cs.flatten)) := by
  intro cs
  induction cs generalizing buf with
  | nil => simp [recvAll]
  | cons c cs ih =>
    have ha : announced (buf ++ c) = announced buf := (announced_prefix ⟨c, rfl⟩ h4).symm
    have hs : serializer32.slice (buf ++ c) = 0 := by
      change (slice32 (buf ++ c)).toNat = 0
      rw [(C128_slice_partial (buf ++ c) (by simp; omega)).2 (by omega)]
      omega
    have hr : recvChunk serializer32 buf c = ([], some (buf ++ c)) := by
      unfold recvChunk
      generalize buf.length + c.length = n
      cases n with
      | zero => rfl
      | succ n => simp [recvLoop, hs]
    rw [recvAll, hr]
    simp only [ih (buf ++ c) (by simp; omega) (by omega) (by omega)]
    simp

/-- C128 (refuted): after four such bytes nothing a peer sends ever arrives, and everything is kept; 64 bits hand over
the packet as soon as it is complete. -/
theorem C128_stuck_refuted (header : List Byte) (h4 : header.length = 4) (h1 : 2^31 - 4 ≤ announced header)
    (h2 : announced header ≤ 2^32 - 4) (chunks : List (List Byte)) :
    recvAll serializer32 [] (header :: chunks) = ([], some (header ++ chunks.flatten)) ∧
    ∀ body, body.length = announced header → slice (header ++ body) = (header ++ body).length := by
  constructor
  · have hs : serializer32.slice header = 0 := by
      change (slice32 header).toNat = 0
      rw [(C128_slice_partial header (by omega)).2 (by omega)]
      omega
    have hr : recvChunk serializer32 [] header = ([], some header) := by
      unfold recvChunk
      rw [h4]
      simp [recvLoop, hs]
    rw [recvAll, hr]
    simp only [recv_stuck header (by omega) h1 h2 chunks]
    simp
  · intro body hb
    unfold slice
    rw [← announced_prefix ⟨body, rfl⟩ (by omega)]
    simp only [List.length_append]
    rw [if_neg (by omega), if_neg (by omega)]
    omega

example : announced [0, 0, 0, 0x80] = 2^31 := by decide

end Verif.Props
