import Verif.Props.Proto1
import Verif.Codec.Exact

/-! # C21: exactly the packets that arrive -/

namespace Verif.Props

open Verif Verif.Codec Verif.Proto Verif.Net

private theorem bind_inv {α β : Type} {x : Res α} {g : α → Res β} {b : β} (h : (x >>= g) = .ok b) : ∃ a, x = .ok a ∧ g a = .ok b := by
  cases x with
  | ok a => exact ⟨a, rfl, h⟩
  | _ => cases h

private theorem get_arr_inv {a a' : Codec.Any} {s t : List Byte} {ws : List Val} (h : Proto.get a s Codec.Any.arr = .ok (ws, a', t)) :
    decode s = .ok (.seq .ifaceSlice ws, t) := by
  unfold Proto.get at h
  cases hd : decode s with
  | ok p =>
    obtain ⟨v, r⟩ := p
    rw [Any.decode_ok hd] at h
    dsimp only at h
    obtain ⟨xs, hx, h⟩ := bind_inv h
    cases h
    unfold Codec.Any.arr at hx
    split at hx
    case isFalse => cases hx
    have e : (Any.normalize ⟨v, a.tp⟩).s = v := by unfold Any.normalize; split <;> rfl
    rw [e] at hx
    unfold assertArr at hx
    split at hx
    · cases hx; rfl
    · cases hx
  | _ => simp [Codec.Any.decode, hd] at h

private theorem seq_needs {xs ws : List Val} {a a' : Codec.Any} {rest t : List Byte}
    (h : Proto.get a ((put (.seq .ifaceSlice xs)).bytes ++ rest) Codec.Any.arr = .ok (ws, a', t))
    (hc : contentList ws = contentList xs) : wireOKList xs = true := by
  have h1 := get_arr_inv h
  rw [put_eq] at h1
  have := need_value (.seq .ifaceSlice xs) _ rest t _ h1 (by simp [content, hc])
  simp only [wireOK, Bool.and_eq_true] at this
  exact this.2

/-- C21, exactly: the arguments or results of a packet are read with their contents if and only if they are values that
survive the codec (`sendable`).  Then, by `C21_packet_roundtrip_partial`, the whole packet is read, with all its fields.
Otherwise the sender dies, or the receiver dies, or the receiver sees other contents. -/
theorem C21_exact (p : Packer) (hw : p.wellFormed) (hl : p.body.bytes.length < 2^32) :
    (∃ bytes q, marshal p = .ok bytes ∧ unmarshal bytes = .ok q ∧ contentList q.p.payload = contentList p.p.payload) ↔
      p.p.sendable = true := by
  constructor
  · rintro ⟨bytes, q, hm, hu, hc⟩
    unfold marshal at hm
    split at hm
    · cases hm
    cases hm
    rw [unmarshal_frame _ hl] at hu
    obtain ⟨z, hz1, hz2⟩ := protoMaker_kind p.p p.id hw
    unfold Packer.body at hu hl
    rw [Enc.seq_bytes (put_id_err p.id)] at hu hl
    simp only [unmarshalBody, get_id, fatalOnErr, Res.bind_ok, hz1] at hu
    obtain ⟨y, hy, hu⟩ := bind_inv hu
    cases hu
    have hy : z.unmarshal p.p.marshal.bytes = .ok y := by
      split at hy
      · cases hy
      · exact hy
    simp only [List.length_append] at hl
    cases hp : p.p with
    | rpcRequest i s m args w =>
      rw [hp] at hz2 hy hc hl
      cases z <;> simp [Proto.kind] at hz2
      simp only [Verif.Proto.Proto.marshal] at hl hy
      obtain ⟨t, e4, -⟩ := Enc.seq_some (put (.seq .ifaceSlice args)) (put (.bool 0 w))
      have l1 := put_str_length s
      have l2 := put_str_length m
      rw [Enc.seq_bytes (put_int64_err i), Enc.seq_bytes (put_str_err s), Enc.seq_bytes (put_str_err m), e4] at hl hy
      simp only [List.length_append] at hl
      simp only [Verif.Proto.Proto.unmarshal] at hy
      rw [get_int64] at hy
      simp only [Res.bind_ok] at hy
      rw [get_str _ s (by omega)] at hy
      simp only [Res.bind_ok] at hy
      rw [get_str _ m (by omega)] at hy
      simp only [Res.bind_ok] at hy
      obtain ⟨⟨ws, a', t'⟩, h1, hy⟩ := bind_inv hy
      dsimp only at hy
      obtain ⟨b, -, hy⟩ := bind_inv hy
      cases hy
      exact seq_needs h1 hc
    | rpcResponse i s m args w =>
      rw [hp] at hz2 hy hc hl
      cases z <;> simp [Proto.kind] at hz2
      simp only [Verif.Proto.Proto.marshal] at hl hy
      obtain ⟨t, e4, -⟩ := Enc.seq_some (put (.seq .ifaceSlice args)) (put (.str 0 w))
      have l1 := put_str_length s
      have l2 := put_str_length m
      rw [Enc.seq_bytes (put_int64_err i), Enc.seq_bytes (put_str_err s), Enc.seq_bytes (put_str_err m), e4] at hl hy
      simp only [List.length_append] at hl
      simp only [Verif.Proto.Proto.unmarshal] at hy
      rw [get_int64] at hy
      simp only [Res.bind_ok] at hy
      rw [get_str _ s (by omega)] at hy
      simp only [Res.bind_ok] at hy
      rw [get_str _ m (by omega)] at hy
      simp only [Res.bind_ok] at hy
      obtain ⟨⟨ws, a', t'⟩, h1, hy⟩ := bind_inv hy
      dsimp only at hy
      obtain ⟨b, -, hy⟩ := bind_inv hy
      cases hy
      exact seq_needs h1 hc
    | _ => rfl
  · intro hs
    obtain ⟨bytes, h1, h2⟩ := C21_packet_roundtrip_partial p hw hs hl
    refine ⟨bytes, _, h1, h2, ?_⟩
    have hc : ∀ xs, contentList (canonList xs) = contentList xs := by
      intro xs
      rw [contentList_eq, contentList_eq, canonList_eq, List.map_map]
      exact List.map_congr_left fun x _ => content_canon x
    cases hp : p.p <;> simp [Proto.received, Proto.payload, hc]

/-- A request with a map argument that has a NaN as key: it arrives if nil is below the NaN, and not otherwise. -/
example :
    let p (v : Val) : Packer := ⟨7, .rpcRequest 9 [0x61] [0x62] [.map .ifaceMap [(.f64 0 0x7ff8000000000000, v)]] true⟩
    (p .nil).wellFormed ∧ (p .nil).body.bytes.length < 2^32 ∧ (p .nil).p.sendable = true ∧
      (p (.bool 0 true)).p.sendable = false := by
  intro p
  exact ⟨rfl, by decide +kernel, by decide +kernel, by decide +kernel⟩

end Verif.Props
