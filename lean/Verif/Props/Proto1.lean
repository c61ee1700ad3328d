import Verif.Proto.Facts
import Verif.Net.Recv

/-! # C21 – C26: packets, frames and stream reassembly -/

namespace Verif.Props

open Verif Verif.Codec Verif.Proto Verif.Net

/-! ## C21 Packet round trip -/

/-- C21 fails for an RPC argument `float64(0)`: the packet is marshalled without complaint, and the
receiving process crashes. -/
theorem C21_packet_roundtrip_refuted : ∃ (p : Packer) (bytes : List Byte), p.wellFormed ∧
    marshal p = .ok bytes ∧ bytes.length < 100 ∧ unmarshal bytes = .panic :=
  ⟨⟨7, .rpcRequest 5 [0x61] [0x62] [.f64 0 0] true⟩, _, rfl, rfl, by decide, rfl⟩

/-- C21 for packets whose RPC payload consists of values that survive the codec (`wireOK`).  Full statement:
the same without `hs`, for payloads whose encoding reports no error. -/
theorem C21_packet_roundtrip_partial (p : Packer) (hw : p.wellFormed) (hs : p.p.sendable = true)
    (hl : p.body.bytes.length < 2^32) :
    ∃ bytes, marshal p = .ok bytes ∧ unmarshal bytes = .ok ⟨p.id, p.p.received⟩ :=
  ⟨_, marshal_ok p hs, by rw [unmarshal_frame _ hl, unmarshalBody_body p hw hs hl]⟩

/-- C21 for the seven packet types without RPC payload: they need no side condition but the size limit, and
the receiver sees the very same packet. -/
theorem C21_control_packets (p : Packer) (hw : p.wellFormed) (hk : p.p.kind < 7)
    (hl : p.body.bytes.length < 2^32) :
    ∃ bytes, marshal p = .ok bytes ∧ unmarshal bytes = .ok p := by
  have hs : p.p.sendable = true := by
    cases hp : p.p <;> simp [hp, Proto.kind] at hk <;> rfl
  have hr : p.p.received = p.p := by
    cases hp : p.p <;> simp [hp, Proto.kind] at hk <;> rfl
  have := C21_packet_roundtrip_partial p hw hs hl
  rw [hr] at this
  exact this

/-- A request whose arguments change their type on the way: `int(300)`, `float32(1.5)` and `[]string{"a"}`
arrive as `int16`, `float64` and `[]interface{}`. -/
example :
    let p : Packer := ⟨7, .rpcRequest 9 [0x61] [] [.int .int 0 300, .f32 0 0x3fc00000, .seq (.slice 1) [.str 0 [0x61]]] true⟩
    p.wellFormed ∧ p.p.sendable = true ∧ p.body.bytes.length < 2^32 ∧
    p.p.received = .rpcRequest 9 [0x61] [] [.int .i16 0 300, .f64 0 0x3ff8000000000000,
      .seq .ifaceSlice [.str 0 [0x61]]] true := ⟨rfl, by decide +kernel, by decide +kernel, rfl⟩

example : (⟨3, .registerRequest [[0x61], []]⟩ : Packer).wellFormed ∧
    (⟨3, .registerRequest [[0x61], []]⟩ : Packer).body.bytes.length < 2^32 := ⟨rfl, by decide +kernel⟩

/-! ## C22 Frame boundaries -/

/-- C22: `Slice` finds the end of a marshalled packet whatever follows, and finds nothing in a proper prefix. -/
theorem C22_frame_boundaries (p : Packer) (bytes : List Byte) (h : marshal p = .ok bytes)
    (hl : p.body.bytes.length < 2^32) :
    (∀ rest, slice (bytes ++ rest) = bytes.length) ∧ 0 < bytes.length ∧
    (∀ n, n < bytes.length → slice (bytes.take n) = 0) := by
  unfold marshal at h
  split at h
  · cases h
  · cases h
    refine ⟨fun rest => slice_frame _ rest hl, by simp; omega, ?_⟩
    intro n hn
    refine slice_frame_prefix _ _ hl (List.take_prefix _ _) ?_
    intro e
    have := congrArg List.length e
    rw [List.length_take] at this
    omega

/-- `Slice` never claims more than there is, and looks at nothing but the first four bytes and the length. -/
theorem C22_slice_bound (source : List Byte) :
    slice source = 0 ∨ (4 ≤ slice source ∧ slice source ≤ source.length) := by
  unfold slice
  split
  · exact .inl rfl
  split
  · exact .inl rfl
  · exact .inr (by omega)

/-- The size limit in C22 is needed: for a body of exactly 2^32 bytes the announced length is 0, so `Slice`
cuts after the header. -/
theorem C22_oversized_frame (body rest : List Byte) (h : body.length = 2^32) :
    slice (lengthHeader body.length ++ body ++ rest) = 4 := by
  have e : announced (lengthHeader body.length ++ (body ++ rest)) = 0 := by
    rw [h]
    change (announced (lengthHeader 4294967296)) = 0
    decide
  unfold slice
  rw [List.append_assoc, e]
  simp only [List.length_append, lengthHeader_length]
  rw [if_neg (by omega), if_neg (by omega)]

example : marshal ⟨1, .heartbeat⟩ = .ok [2, 0, 0, 0, 0xcc, 1] ∧
    (⟨1, .heartbeat⟩ : Packer).body.bytes.length < 2^32 := ⟨rfl, by decide⟩

/-! ## C23 Stream reassembly -/

/-- The packets of a stream: well formed, with a payload that survives the codec, below 2^32 bytes. -/
def Sendable (p : Packer) : Prop :=
  p.wellFormed ∧ p.p.sendable = true ∧ p.body.bytes.length < 2^32

/-- The bytes the sender writes for a list of packets. -/
def written : List Packer → Res (List Byte)
  | [] => .ok []
  | p :: ps => do
    let b ← marshal p
    let bs ← written ps
    return b ++ bs

/-- What the receiver should hand up for a packet. -/
def Packer.received (p : Packer) : Packer := ⟨p.id, p.p.received⟩

theorem frame_of_sendable (p : Packer) (h : Sendable p) :
    Frame ferrySerializer (lengthHeader p.body.bytes.length ++ p.body.bytes) (Packer.received p) := by
  obtain ⟨h1, h2, h3⟩ := h
  exact ⟨fun rest => slice_frame _ rest h3, fun q hq hne => slice_frame_prefix _ _ h3 hq hne, by simp [lengthHeader],
    (unmarshal_frame _ h3).trans (unmarshalBody_body p h1 h2 h3)⟩

theorem frames_of_sendable (ps : List Packer) (h : ∀ p ∈ ps, Sendable p) :
    Frames ferrySerializer (ps.map fun p => lengthHeader p.body.bytes.length ++ p.body.bytes)
      (ps.map Packer.received) ∧
    written ps = .ok (ps.map fun p => lengthHeader p.body.bytes.length ++ p.body.bytes).flatten := by
  induction ps with
  | nil => exact ⟨.nil, rfl⟩
  | cons p ps ih =>
    obtain ⟨i1, i2⟩ := ih (fun q hq => h q (List.mem_cons_of_mem _ hq))
    have hp := h p (List.mem_cons_self ..)
    refine ⟨.cons (frame_of_sendable p hp) i1, ?_⟩
    simp only [written, marshal_ok p hp.2.1, i2]
    rfl

/-- C23: let the sender write the packets `ps`, followed by the first bytes `tail` of a further packet `q`
(`tail` may be empty).  However the network cuts these bytes into reads, the receiver hands up exactly `ps`,
in order, each once, and keeps `tail`. -/
theorem C23_reassembly (ps : List Packer) (q : Packer) (hps : ∀ p ∈ ps, Sendable p) (hq : Sendable q)
    (bytes last tail : List Byte) (hb : written ps = .ok bytes) (hlast : marshal q = .ok last)
    (htail : ∃ n, n < last.length ∧ tail = last.take n)
    (chunks : List (List Byte)) (hc : chunks.flatten = bytes ++ tail) :
    recvAll ferrySerializer [] chunks = (ps.map Packer.received, some tail) := by
  obtain ⟨hf, hw⟩ := frames_of_sendable ps hps
  rw [hw] at hb
  cases hb
  refine recvAll_whole hf tail ?_ chunks hc
  obtain ⟨n, hn, rfl⟩ := htail
  intro p hp
  rw [marshal_ok q hq.2.1] at hlast
  cases hlast
  refine (frame_of_sendable q hq).slice_prefix p (hp.trans (List.take_prefix _ _)) ?_
  intro e
  have := hp.length_le
  rw [e, List.length_take] at this
  omega

/-- C23 at every moment: after any reads that together delivered some prefix of the stream, exactly the
packets that are complete in this prefix have been handed up, and the buffer holds what is left. -/
theorem C23_reassembly_prefix (ps : List Packer) (hps : ∀ p ∈ ps, Sendable p) (bytes : List Byte)
    (hb : written ps = .ok bytes) (chunks : List (List Byte)) (hc : chunks.flatten <+: bytes) :
    ∃ (k : Nat) (done left : List Byte), k ≤ ps.length ∧ written (ps.take k) = .ok done ∧
      chunks.flatten = done ++ left ∧
      recvAll ferrySerializer [] chunks = ((ps.take k).map Packer.received, some left) ∧
      (∀ p next, ps[k]? = some p → marshal p = .ok next → left.length < next.length) ∧
      (k = ps.length → left = []) := by
  obtain ⟨hf, hw⟩ := frames_of_sendable ps hps
  rw [hw] at hb
  cases hb
  have h0 : Tail ferrySerializer [] := by
    intro p hp; rw [List.prefix_nil.mp hp]; rfl
  obtain ⟨k, y, h1, h2, h3, h4⟩ := recvAll_prefix chunks hf [] h0 [] (by simpa using hc) rfl (by
    intro f hfh
    cases ps with
    | nil => simp at hfh
    | cons p ps => simp at hfh; subst hfh; simp [lengthHeader])
  obtain ⟨_, hwk⟩ := frames_of_sendable (ps.take k) (fun p hp => hps p (List.take_subset _ _ hp))
  refine ⟨k, _, y, by simpa using h1, hwk, by simpa [List.map_take] using h2, by simpa [List.map_take] using h3, ?_, ?_⟩
  · intro p next hp hnext
    have hmem : p ∈ ps := List.mem_of_getElem? hp
    rw [marshal_ok p (hps p hmem).2.1] at hnext
    cases hnext
    have hh : ((ps.map fun p => lengthHeader p.body.bytes.length ++ p.body.bytes).drop k).head? =
        some (lengthHeader p.body.bytes.length ++ p.body.bytes) := by
      rw [List.head?_drop, List.getElem?_map, hp]; rfl
    obtain ⟨p1, p2⟩ := h4 _ hh
    rcases Nat.lt_or_eq_of_le p1.length_le with h | h
    · exact h
    · exact absurd (p1.eq_of_length h) p2
  · intro hk
    subst hk
    have hp := hc
    rw [List.nil_append] at h2
    rw [h2, List.take_of_length_le (by simp)] at hp
    have := hp.length_le
    rw [List.length_append] at this
    exact List.eq_nil_of_length_eq_zero (by omega)

/-- Two packets and two bytes of a third, read in four pieces that cut through a header and a body. -/
example : (∀ p ∈ [(⟨1, .heartbeat⟩ : Packer), ⟨5, .queryRequest [0x61]⟩], Sendable p) ∧
    written [⟨1, .heartbeat⟩, ⟨5, .queryRequest [0x61]⟩] =
      .ok [2, 0, 0, 0, 0xcc, 1, 8, 0, 0, 0, 0xcc, 5, 0xdb, 0, 0, 0, 1, 0x61] ∧
    recvAll ferrySerializer [] [[2, 0], [0, 0, 0xcc, 1, 8], [0, 0, 0, 0xcc, 5, 0xdb, 0], [0, 0, 1, 0x61, 2, 0]] =
      ([⟨1, .heartbeat⟩, ⟨5, .queryRequest [0x61]⟩], some [2, 0]) := by
  refine ⟨?_, rfl, rfl⟩
  intro p hp
  simp at hp
  rcases hp with rfl | rfl <;> exact ⟨rfl, rfl, by decide⟩

/-! ## C25 Text framing -/

theorem txtSlice_none (t : Str) : 0 ∉ t → txtSlice t = 0 := by
  induction t with
  | nil => intro _; rfl
  | cons c t ih =>
    intro hc
    simp only [List.mem_cons, not_or] at hc
    simp only [txtSlice, if_neg (fun e => hc.1 (Eq.symm e)), ih hc.2, if_true]

theorem txtSlice_full (t rest : Str) : 0 ∉ t → txtSlice (t ++ [0] ++ rest) = t.length + 1 := by
  induction t with
  | nil => intro _; simp [txtSlice]
  | cons c t ih =>
    intro hc
    simp only [List.mem_cons, not_or] at hc
    have := ih hc.2
    simp only [List.cons_append, txtSlice, if_neg (fun e => hc.1 (Eq.symm e))]
    rw [this]
    simp

theorem txt_frame (s : Str) (h : ∃ t : Str, s = t ++ [0] ∧ 0 ∉ t) : Frame txtSerializer s s := by
  obtain ⟨t, rfl, ht⟩ := h
  refine ⟨fun rest => (txtSlice_full t rest ht).trans (by simp), ?_, by simp, rfl⟩
  intro p hp hne
  apply txtSlice_none
  intro hm
  rcases List.prefix_concat_iff.mp hp with hq | hq
  · exact hne hq
  · exact ht (hq.subset hm)

/-- C25: the strings of a txt connection, each with its only NUL at the end. -/
theorem C25_text_framing (ss : List Str) (h : ∀ s ∈ ss, ∃ t : Str, s = t ++ [0] ∧ 0 ∉ t)
    (tail : Str) (ht : 0 ∉ tail) (chunks : List (List Byte)) (hc : chunks.flatten = ss.flatten ++ tail) :
    (∀ s ∈ ss, txtSerializer.marshal s = .ok s) ∧
    recvAll txtSerializer [] chunks = (ss, some tail) := by
  have hf : Frames txtSerializer ss ss := by
    clear hc
    induction ss with
    | nil => exact .nil
    | cons s ss ih =>
      exact .cons (txt_frame s (h s (List.mem_cons_self ..))) (ih (fun x hx => h x (List.mem_cons_of_mem _ hx)))
  refine ⟨fun s _ => rfl, recvAll_whole hf tail ?_ chunks hc⟩
  intro p hp
  exact txtSlice_none p (fun hm => ht (hp.subset hm))

example : recvAll txtSerializer [] [[0x61], [0x62, 0, 0x63], [0, 0x64]] =
    ([[0x61, 0x62, 0], [0x63, 0]], some [0x64]) := rfl

/-- The proviso of C25 is needed: a string with an inner NUL arrives as two, one without a NUL never. -/
theorem C25_proviso_needed :
    recvAll txtSerializer [] [[0x61, 0, 0x62, 0]] = ([[0x61, 0], [0x62, 0]], some []) ∧
    recvAll txtSerializer [] [[0x61, 0x62]] = ([], some [0x61, 0x62]) := ⟨rfl, rfl⟩

/-! ## C26 Packet identifiers -/

/-- C26: what the receiver builds is of the type that the identifier names. -/
theorem C26_identifiers (data : List Byte) (q : Packer) (h : unmarshal data = .ok q) :
    q.id.toNat < 9 ∧ q.p.kind = q.id.toNat := by
  unfold unmarshal at h
  split at h
  · cases h
  split at h
  · cases h
  unfold unmarshalBody at h
  cases hg : fatalOnErr (get (newAny .nil) ((data.drop 4).take (announced data)) Codec.Any.uint8) with
  | ok x =>
    obtain ⟨value, a, rest⟩ := x
    rw [hg] at h
    simp only [Res.bind_ok] at h
    split at h
    · cases h
    rename_i p hp
    cases hu : fatalOnErr (p.unmarshal rest) with
    | ok p' =>
      rw [hu] at h
      cases h
      have hk : p.kind = value.toNat := by
        unfold protoMaker at hp
        split at hp
        · rename_i e; cases hp; rw [e]; rfl
        split at hp
        · rename_i e; cases hp; rw [e]; rfl
        split at hp
        · rename_i e; cases hp; rw [e]; rfl
        split at hp
        · rename_i e; cases hp; rw [e]; rfl
        split at hp
        · rename_i e; cases hp; rw [e]; rfl
        split at hp
        · rename_i e; cases hp; rw [e]; rfl
        split at hp
        · rename_i e; cases hp; rw [e]; rfl
        split at hp
        · rename_i e; cases hp; rw [e]; rfl
        split at hp
        · rename_i e; cases hp; rw [e]; rfl
        cases hp
      have hk' : p'.kind = p.kind := by
        have key : ∀ {α : Type} {r : Res α} {f : α → Res Proto} {n : Nat},
            (∀ x p', f x = .ok p' → p'.kind = n) → fatalOnErr (r >>= f) = .ok p' → p'.kind = n := by
          intro α r f n hf he
          cases r with
          | ok x =>
            rw [Res.bind_ok] at he
            cases hfx : f x with
            | ok y => rw [hfx] at he; cases he; exact hf x _ hfx
            | _ => rw [hfx] at he; cases he
          | _ => cases he
        have key' : ∀ {α : Type} {r : Res α} {f : α → Res Proto} {n : Nat},
            (∀ x p', f x = .ok p' → p'.kind = n) → ∀ p', (r >>= f) = .ok p' → p'.kind = n := by
          intro α r f n hf p' he
          cases r with
          | ok x => exact hf x _ he
          | _ => cases he
        cases p with
        | heartbeat => cases hu; rfl
        | error => exact key (fun x p' e => by cases e; rfl) hu
        | ready => exact key (fun x p' e => by cases e; rfl) hu
        | registerRequest => exact key (fun x p' e => by cases e; rfl) hu
        | registerResponse => exact key (fun x p' e => by cases e; rfl) hu
        | queryRequest => exact key (fun x p' e => by cases e; rfl) hu
        | queryResponse => exact key (fun x p' e => by cases e; rfl) hu
        | rpcRequest => exact key (fun x => key' (fun x => key' (fun x => key' (fun x => key' (fun x p' e => by cases e; rfl))))) hu
        | rpcResponse => exact key (fun x => key' (fun x => key' (fun x => key' (fun x => key' (fun x p' e => by cases e; rfl))))) hu
      refine ⟨?_, hk'.trans hk⟩
      rw [← hk]
      cases p <;> simp [Proto.kind]
    | _ => rw [hu] at h; cases h
  | _ => rw [hg] at h; cases h

/-- The sender's identifier survives: the body written under `id` is read back under `id` whatever the body
is (also if the identifier does not fit the body). -/
theorem C26_identifier_sent (p : Packer) (bytes : List Byte) (hm : marshal p = .ok bytes)
    (hl : p.body.bytes.length < 2^32) (q : Packer) (h : unmarshal bytes = .ok q) : q.id = p.id := by
  unfold marshal at hm
  split at hm
  · cases hm
  cases hm
  rw [unmarshal_frame _ hl] at h
  unfold Packer.body at h
  rw [Enc.seq_bytes (put_id_err p.id)] at h
  unfold unmarshalBody at h
  rw [get_id] at h
  simp only [fatalOnErr, Res.bind_ok] at h
  split at h
  · cases h
  rename_i pr _
  cases hu : fatalOnErr (pr.unmarshal p.p.marshal.bytes) with
  | ok x => unfold fatalOnErr at hu; rw [hu] at h; cases h; rfl
  | _ => unfold fatalOnErr at hu; rw [hu] at h; cases h

/-- Exactly the identifiers 0 to 8 have a type, and different identifiers have different types. -/
theorem C26_maker (id id' : BitVec 8) :
    ((protoMaker id).isSome ↔ id.toNat < 9) ∧
    (∀ p p', protoMaker id = some p → protoMaker id' = some p' → p.kind = p'.kind → id = id') ∧
    (∀ p, protoMaker id = some p → p.kind = id.toNat) := by
  have hk : ∀ id p, protoMaker id = some p → p.kind = id.toNat := by
    intro id p hp
    unfold protoMaker at hp
    repeat (split at hp; · rename_i e; cases hp; rw [e]; rfl)
    cases hp
  refine ⟨?_, ?_, hk id⟩
  · revert id; clear id' hk; decide
  · intro p p' h1 h2 h3
    exact BitVec.eq_of_toNat_eq (by rw [← hk id p h1, ← hk id' p' h2, h3])

example : unmarshal [2, 0, 0, 0, 0xcc, 1] = .ok ⟨1, .heartbeat⟩ := rfl

end Verif.Props
