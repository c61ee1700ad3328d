import Verif.Codec.Word
import Verif.Codec.MemoryFacts

/-! # Decoding with limited `make`: exactly the requests decide -/

namespace Verif.Codec

open Verif

variable {L : Limits}

private theorem lim_array {dec decL : List Byte → Res (Val × List Byte)} {req : List Byte → List Req}
    (h : ∀ s, decL s = if (req s).all L.allow then dec s else .panic) : ∀ n s,
    decodeArray decL n s = if (requestsArray dec req n s).all L.allow then decodeArray dec n s else .panic
  | 0, s => by simp [decodeArray, requestsArray]
  | n + 1, s => by
    simp only [decodeArray, requestsArray, List.all_append, h s]
    by_cases hr : (req s).all L.allow = true
    · rw [if_pos hr, hr, Bool.true_and]
      cases hd : dec s with
      | ok x =>
        simp only [Res.bind_ok, lim_array h n x.2]
        by_cases ha : (requestsArray dec req n x.2).all L.allow = true
        · rw [if_pos ha, if_pos ha]
        · rw [if_neg ha, if_neg ha]; rfl
      | _ => rfl
    · have hf : (req s).all L.allow = false := by simpa only [Bool.not_eq_true] using hr
      rw [if_neg hr, hf, Bool.false_and]; rfl

private theorem lim_map {dec decL : List Byte → Res (Val × List Byte)} {req : List Byte → List Req}
    (h : ∀ s, decL s = if (req s).all L.allow then dec s else .panic) : ∀ n d s,
    decodeMap decL n d s = if (requestsMap dec req n s).all L.allow then decodeMap dec n d s else .panic
  | 0, d, s => by simp [decodeMap, requestsMap]
  | n + 1, d, s => by
    simp only [decodeMap, requestsMap, List.all_append, h s]
    by_cases hr : (req s).all L.allow = true
    · rw [if_pos hr, hr, Bool.true_and]
      cases hd : dec s with
      | ok x =>
        simp only [Res.bind_ok, h x.2, List.all_append]
        by_cases hv : (req x.2).all L.allow = true
        · rw [if_pos hv, hv, Bool.true_and]
          cases hd : dec x.2 with
          | ok y =>
            simp only [Res.bind_ok]
            by_cases hk : hashable x.1 = true
            · simp only [hk, if_true]; exact lim_map h n _ _
            · simp only [hk, if_false]; rfl
          | _ => rfl
        · have hf : (req x.2).all L.allow = false := by simpa only [Bool.not_eq_true] using hv
          rw [if_neg hv, hf, Bool.false_and]; rfl
      | _ => rfl
    · have hf : (req s).all L.allow = false := by simpa only [Bool.not_eq_true] using hr
      rw [if_neg hr, hf, Bool.false_and]; rfl

section
variable (dec : List Byte → Res (Val × List Byte)) (s : List Byte)

private theorem tag_f32 : decodeTag bytesReader dec cFloat32 s = (dec s >>= asFloat32) := rfl
private theorem tag_f64 : decodeTag bytesReader dec cFloat64 s = (dec s >>= asFloat64) := rfl
private theorem tag_str : decodeTag bytesReader dec cStr32 s = (readUint32 bytesReader s >>= fun x =>
    if x.1.toNat = 0 then .ok (.str 0 [], x.2) else readBuf bytesReader x.2 x.1.toNat >>= fun d => .ok (.str 0 d.1, d.2)) := rfl
private theorem tag_arr : decodeTag bytesReader dec cArr32 s = (readUint32 bytesReader s >>= fun x =>
    decodeArray dec x.1.toNat x.2 >>= fun vs => .ok (.seq .ifaceSlice vs.1, vs.2)) := rfl
private theorem tag_map : decodeTag bytesReader dec cMap32 s = (readUint32 bytesReader s >>= fun x =>
    decodeMap dec x.1.toNat [] x.2 >>= fun vs => .ok (.map .ifaceMap vs.1, vs.2)) := rfl

/-- The requests after the tag. -/
private def after (f : Nat) (c : Byte) (s : List Byte) : List Req :=
  if c = cFloat32 then requestsF f s
  else if c = cFloat64 then requestsF f s
  else if c = cStr32 then
    match readUint32 bytesReader s with
    | .ok (n, _) => if n.toNat = 0 then [] else [.string n.toNat]
    | _ => []
  else if c = cArr32 then
    match readUint32 bytesReader s with
    | .ok (n, s) => .array n.toNat :: requestsArray (decodeF bytesReader f) (requestsF f) n.toNat s
    | _ => []
  else if c = cMap32 then
    match readUint32 bytesReader s with
    | .ok (n, s) => requestsMap (decodeF bytesReader f) (requestsF f) n.toNat s
    | _ => []
  else []

end

/-- With limited `make` the decoder panics at the first request that is too large, and otherwise does the same. -/
theorem decodeLF_eq : ∀ f s, decodeLF L f s = if (requestsF f s).all L.allow then decodeF bytesReader f s else .panic
  | 0, s => rfl
  | f + 1, s => by
    have ih := decodeLF_eq f
    rw [decodeLF, decodeF, requestsF]
    cases hb : readByte bytesReader s with
    | ok x =>
      obtain ⟨c, s⟩ := x
      change (if L.refuse c s then Res.panic else decodeTag bytesReader (decodeLF L f) c s) =
        if (after f c s).all L.allow then decodeTag bytesReader (decodeF bytesReader f) c s else .panic
      by_cases h1 : c = cFloat32
      · subst h1
        have hr : L.refuse cFloat32 s = false := by
          unfold Limits.refuse; split <;> rfl
        rw [hr, if_neg Bool.false_ne_true, tag_f32, tag_f32, ih, show after f cFloat32 s = requestsF f s from rfl]
        split <;> rfl
      by_cases h2 : c = cFloat64
      · subst h2
        have hr : L.refuse cFloat64 s = false := by
          unfold Limits.refuse; split <;> rfl
        rw [hr, if_neg Bool.false_ne_true, tag_f64, tag_f64, ih, show after f cFloat64 s = requestsF f s from rfl]
        split <;> rfl
      by_cases h3 : c = cStr32
      · subst h3
        rw [tag_str, tag_str, show after f cStr32 s = match readUint32 bytesReader s with
          | .ok (n, _) => if n.toNat = 0 then [] else [.string n.toNat]
          | _ => [] from rfl]
        cases hu : readUint32 bytesReader s with
        | ok x =>
          have hr : L.refuse cStr32 s = !L.allow (.string x.1.toNat) := by
            unfold Limits.refuse; rw [hu]; simp [show ¬ cStr32 = cArr32 by decide]
          rw [hr]
          by_cases h0 : x.1.toNat = 0
          · simp [Limits.allow, h0]
          · cases ha : L.allow (.string x.1.toNat) <;> simp [ha, h0]
        | _ =>
          have hr : L.refuse cStr32 s = false := by unfold Limits.refuse; rw [hu]
          rw [hr]; rfl
      by_cases h4 : c = cArr32
      · subst h4
        rw [tag_arr, tag_arr, show after f cArr32 s = match readUint32 bytesReader s with
          | .ok (n, s) => .array n.toNat :: requestsArray (decodeF bytesReader f) (requestsF f) n.toNat s
          | _ => [] from rfl]
        cases hu : readUint32 bytesReader s with
        | ok x =>
          have hr : L.refuse cArr32 s = !L.allow (.array x.1.toNat) := by
            unfold Limits.refuse; rw [hu]; simp [show ¬ cArr32 = cStr32 by decide]
          rw [hr]
          simp only [Res.bind_ok, lim_array ih x.1.toNat x.2, List.all_cons]
          rcases Bool.eq_false_or_eq_true (L.allow (.array x.1.toNat)) with ha | ha
          · rcases Bool.eq_false_or_eq_true
              ((requestsArray (decodeF bytesReader f) (requestsF f) x.1.toNat x.2).all L.allow) with hq | hq
            · simp only [ha, hq]; rfl
            · simp only [ha, hq]; rfl
          · simp only [ha]; rfl
        | _ =>
          have hr : L.refuse cArr32 s = false := by unfold Limits.refuse; rw [hu]
          rw [hr]; rfl
      by_cases h5 : c = cMap32
      · subst h5
        have hr : L.refuse cMap32 s = false := by
          unfold Limits.refuse; split <;> rfl
        rw [hr, tag_map, tag_map, show after f cMap32 s = match readUint32 bytesReader s with
          | .ok (n, s) => requestsMap (decodeF bytesReader f) (requestsF f) n.toNat s
          | _ => [] from rfl]
        cases hu : readUint32 bytesReader s with
        | ok x =>
          simp only [Res.bind_ok, lim_map ih x.1.toNat [] x.2]
          cases hq : (requestsMap (decodeF bytesReader f) (requestsF f) x.1.toNat x.2).all L.allow <;> rfl
        | _ => rfl
      have hr : L.refuse c s = false := by
        unfold Limits.refuse; split <;> simp [h3, h4]
      have ha : after f c s = [] := by simp [after, h1, h2, h3, h4, h5]
      rw [hr, ha]
      simp [decodeTag, h1, h2, h3, h4, h5]
    | _ => rfl

end Verif.Codec
