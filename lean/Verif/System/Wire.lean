import Verif.System.System
import Verif.Proto.Facts

/-! # What the receiver of a packet sees -/

namespace Verif.System

open Verif Verif.Codec Verif.Proto

/-- What every receiver sees of a packet, whatever the arguments or results are: everything else. -/
def head : Proto → Proto
  | .rpcRequest i s m _ _ => .rpcRequest i s m [] false
  | .rpcResponse i s m _ _ => .rpcResponse i s m [] []
  | p => p

theorem idOf_kind (p : Proto) : (idOf p).toNat = p.kind := by cases p <;> rfl

theorem fate_frame {pkt q : Proto} (h : fate pkt = .arrives q) :
    ∃ id, (Packer.body ⟨idOf pkt, pkt⟩).err = none ∧ (Packer.body ⟨idOf pkt, pkt⟩).bytes.length < 2 ^ 32 ∧
      unmarshalBody (Packer.body ⟨idOf pkt, pkt⟩).bytes = .ok ⟨id, q⟩ := by
  unfold fate marshal at h
  split at h
  case h_2 => cases h
  rename_i bytes hb
  split at hb
  · cases hb
  rename_i he
  cases hb
  split at h
  case isFalse => cases h
  rename_i hl
  have hl : (Packer.body ⟨idOf pkt, pkt⟩).bytes.length < 2 ^ 32 := by
    simp [lengthHeader] at hl
    omega
  rw [unmarshal_frame _ hl] at h
  split at h
  case h_2 => cases h
  rename_i r hr
  cases h
  exact ⟨r.id, he, hl, hr⟩

/-- Packets with admissible arguments or results arrive as the specification says. -/
theorem fate_sendable {pkt q : Proto} (h : fate pkt = .arrives q) (hs : pkt.sendable = true) : q = pkt.received := by
  obtain ⟨id, _, hl, hu⟩ := fate_frame h
  rw [unmarshalBody_body ⟨idOf pkt, pkt⟩ (idOf_kind pkt) hs hl] at hu
  cases hu
  rfl

/-- A short packet with admissible arguments or results does arrive. -/
theorem fate_arrives {pkt : Proto} (hs : pkt.sendable = true)
    (hl : (Packer.body ⟨idOf pkt, pkt⟩).bytes.length < 2 ^ 32) : fate pkt = .arrives pkt.received := by
  unfold fate
  rw [marshal_ok ⟨idOf pkt, pkt⟩ hs]
  simp only [List.length_append]
  rw [if_pos (by simp [lengthHeader]; omega), unmarshal_frame _ hl,
    unmarshalBody_body ⟨idOf pkt, pkt⟩ (idOf_kind pkt) hs hl]

theorem bind_eq_ok {α β : Type} {x : Res α} {f : α → Res β} {b : β} (h : (x >>= f) = .ok b) : ∃ a, x = .ok a ∧ f a = .ok b := by
  cases x <;> first | exact ⟨_, rfl, h⟩ | cases h

theorem fatal_ok {α : Type} {x : Res α} {b : α} (h : fatalOnErr x = .ok b) : x = .ok b := by
  cases x <;> first | exact h | cases h

/-- Whatever the arguments and results are, the rest of a packet arrives as it was sent. -/
theorem fate_head {pkt q : Proto} (h : fate pkt = .arrives q) : head q = head pkt := by
  cases pkt with
  | rpcRequest i s m args w =>
    obtain ⟨id, he, hl, hu⟩ := fate_frame h
    unfold Packer.body at hl hu he
    rw [Enc.seq_bytes (put_id_err _)] at hl hu
    simp only [idOf] at hl hu
    simp only [Proto.Proto.marshal] at hl hu
    rw [Enc.seq_bytes (put_int64_err i), Enc.seq_bytes (put_str_err s), Enc.seq_bytes (put_str_err m)] at hl hu
    have l1 := put_str_length s
    have l2 := put_str_length m
    simp only [List.length_append] at hl
    simp only [unmarshalBody, get_id, fatalOnErr, Res.bind_ok] at hu
    obtain ⟨p, hp, hu⟩ := bind_eq_ok hu
    cases hu
    have hp := fatal_ok hp
    simp only [Proto.Proto.unmarshal] at hp
    rw [get_int64] at hp
    simp only [Res.bind_ok] at hp
    rw [get_str _ s (by omega)] at hp
    simp only [Res.bind_ok] at hp
    rw [get_str _ m (by omega)] at hp
    simp only [Res.bind_ok] at hp
    obtain ⟨⟨a, _, _⟩, _, hp⟩ := bind_eq_ok hp
    obtain ⟨⟨b, _, _⟩, _, hp⟩ := bind_eq_ok hp
    cases hp
    rfl
  | rpcResponse i s m res er =>
    obtain ⟨id, he, hl, hu⟩ := fate_frame h
    unfold Packer.body at hl hu he
    rw [Enc.seq_bytes (put_id_err _)] at hl hu
    simp only [idOf] at hl hu
    simp only [Proto.Proto.marshal] at hl hu
    rw [Enc.seq_bytes (put_int64_err i), Enc.seq_bytes (put_str_err s), Enc.seq_bytes (put_str_err m)] at hl hu
    have l1 := put_str_length s
    have l2 := put_str_length m
    simp only [List.length_append] at hl
    simp only [unmarshalBody, get_id, fatalOnErr, Res.bind_ok] at hu
    obtain ⟨p, hp, hu⟩ := bind_eq_ok hu
    cases hu
    have hp := fatal_ok hp
    simp only [Proto.Proto.unmarshal] at hp
    rw [get_int64] at hp
    simp only [Res.bind_ok] at hp
    rw [get_str _ s (by omega)] at hp
    simp only [Res.bind_ok] at hp
    rw [get_str _ m (by omega)] at hp
    simp only [Res.bind_ok] at hp
    obtain ⟨⟨a, _, _⟩, _, hp⟩ := bind_eq_ok hp
    obtain ⟨⟨b, _, _⟩, _, hp⟩ := bind_eq_ok hp
    cases hp
    rfl
  | _ => rw [fate_sendable h rfl]; rfl

end Verif.System
