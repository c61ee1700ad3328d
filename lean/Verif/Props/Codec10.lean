import Verif.Codec.Exact
import Verif.Props.Codec1

/-! # C04, C05, C14: exactly the values that come back -/

namespace Verif.Props

open Verif Verif.Codec

private theorem need_top (v : Val) {f : Nat} {rest r : List Byte} {w : Val}
    (h : decodeF bytesReader f ((encode v).bytes ++ rest) = .ok (w, r)) (hc : content w = content v) : topOK v = true := by
  match v with
  | .f32 0 b =>
    rw [← decodeF_mono (Nat.le_add_right f 2) _ (by rw [h]; simp)] at h
    rw [show (encode (.f32 0 b)).bytes = encodeFloat32 b from rfl, decodeF_encodeFloat32] at h
    simp only [topOK, decide_eq_true_eq]
    split at h
    · assumption
    · cases h
  | .f32 (t+1) b => exact need_value _ f rest r w h hc
  | .nil => rfl
  | .bool _ b => rfl
  | .f64 0 b => exact need_value (.f64 0 b) f rest r w h hc
  | .f64 (t+1) b => exact need_value _ f rest r w h hc
  | .str 0 b => exact need_value (.str 0 b) f rest r w h hc
  | .str (t+1) b => exact need_value _ f rest r w h hc
  | .uint k _ x => rfl
  | .int k _ x => rfl
  | .seq ty xs => exact need_value _ f rest r w h hc
  | .map ty xs => exact need_value _ f rest r w h hc
  | .bad k => exact absurd hc (decodeF_not_bad h)

private theorem any_of_normalize (v : Val) (tp : AType) : (Any.normalize ⟨v, tp⟩).any = v := by
  unfold Any.normalize Any.any
  split <;> rfl

/-- C04, exactly: a value is written without error and read back with the same content, nothing more and nothing less
being consumed, if and only if `topOK` holds of it.  Whatever precedes in the reader's object and whatever follows
on the wire makes no difference. -/
theorem C04_exact (v : Val) (a : Any) (rest : List Byte) :
    ((newAny v).encode.err = none ∧ (a.decode ((newAny v).encode.bytes ++ rest)).2 = .ok rest ∧
      content (a.decode ((newAny v).encode.bytes ++ rest)).1.any = content v) ↔ topOK v = true := by
  have hs : (newAny v).encode = encode v := by
    unfold newAny Any.normalize Any.encode
    split <;> rfl
  rw [hs]
  constructor
  · rintro ⟨-, h1, h2⟩
    cases hd : decode ((encode v).bytes ++ rest) with
    | ok p =>
      obtain ⟨w, r⟩ := p
      rw [Any.decode_ok hd, any_of_normalize] at h2
      exact need_top v hd h2
    | _ => simp [Any.decode, hd] at h1
  · intro h
    have hd := decode_encode v h rest
    refine ⟨(rt_top v h).1, by rw [Any.decode_ok hd], ?_⟩
    rw [Any.decode_ok hd, any_of_normalize, content_canonTop]

/-- A reader that gets the content right, wherever it stops and whether or not the writer reported an error, is reading
such a value; and then there was no error, it stops at the end of the value, and the types are those of `canonTop`. -/
theorem C04_never_by_chance (v w : Val) (rest r : List Byte) (h : decode ((encode v).bytes ++ rest) = .ok (w, r))
    (hc : content w = content v) : (encode v).err = none ∧ r = rest ∧ w = canonTop v := by
  have hk := need_top v h hc
  rw [decode_encode v hk rest] at h
  cases h
  exact ⟨(rt_top v hk).1, rfl, rfl⟩

/-- A NaN as key, with nil below it, beside another NaN and an ordinary key: read back as it was. -/
example :
    let v := Val.map .ifaceMap [(.f64 0 0x7ff8000000000000, .nil), (.f64 0 0x7ff8000000000000, .nil), (.int .int 0 4, .str 0 [65])]
    topOK v = true ∧ decode (encode v).bytes = .ok (.map .ifaceMap
      [(.f64 0 0x7ff8000000000000, .nil), (.f64 0 0x7ff8000000000000, .nil), (.int .i8 0 4, .str 0 [65])], []) := by
  intro v
  exact ⟨by decide +kernel, by decide +kernel⟩

/-- With another value below the NaN, with two keys that become one, with a zero among the values, the content is lost. -/
example : topOK (.map .ifaceMap [(.f64 0 0x7ff8000000000000, .bool 0 true)]) = false ∧
    topOK (.map .ifaceMap [(.int .i8 0 1, .nil), (.int .i64 0 1, .nil)]) = false ∧
    topOK (.map .ifaceMap [(.int .i8 0 1, .f64 0 0)]) = false := by
  refine ⟨by decide +kernel, by decide +kernel, by decide +kernel⟩

/-- C14, exactly: a map comes back with all its entries, none merged, lost or changed, if and only if it is one of
these. -/
theorem C14_map_entries_exact (ty : MapTy) (kvs : List (Val × Val)) :
    (∃ d t, decode (encode (.map ty kvs)).bytes = .ok (.map .ifaceMap d, t) ∧
      d.map (fun kv => (content kv.1, content kv.2)) = kvs.map (fun kv => (content kv.1, content kv.2))) ↔
    wireOK (.map ty kvs) = true := by
  constructor
  · rintro ⟨d, t, h, hc⟩
    rw [← List.append_nil (encode (.map ty kvs)).bytes] at h
    exact need_top (.map ty kvs) h (by simp only [content, contentEntries_eq, hc])
  · intro h
    have h1 := decode_encode (.map ty kvs) h []
    rw [List.append_nil] at h1
    refine ⟨_, _, h1, ?_⟩
    have := content_canon (.map ty kvs)
    simp only [canon, content, contentEntries_eq, Content.map.injEq] at this
    exact this

/-- C05, exactly: values written back to back are read with their contents, in order, if and only if each of them is one
that survives alone; the reader then stops at the end of the last. -/
theorem C05_sequence_exact (vs : List Val) (rest : List Byte) :
    (∃ ws, decodeMany vs.length (encodeMany vs ++ rest) = .ok (ws, rest) ∧ ws.map content = vs.map content) ↔
      ∀ v ∈ vs, topOK v = true := by
  induction vs with
  | nil => exact ⟨fun _ v hv => (by cases hv), fun _ => ⟨[], rfl, rfl⟩⟩
  | cons v vs ih =>
    have e : encodeMany (v :: vs) ++ rest = (encode v).bytes ++ (encodeMany vs ++ rest) := by simp [encodeMany]
    rw [e, List.length_cons, decodeMany]
    constructor
    · rintro ⟨ws, h, hc⟩
      cases hd : decode ((encode v).bytes ++ (encodeMany vs ++ rest)) with
      | ok p =>
        obtain ⟨w, r⟩ := p
        rw [hd] at h
        simp only [Res.bind_ok] at h
        cases hm : decodeMany vs.length r with
        | ok q =>
          obtain ⟨us, t⟩ := q
          rw [hm] at h
          simp only [Res.bind_ok] at h
          cases h
          simp only [List.map_cons, List.cons.injEq] at hc
          have hv := need_top v hd hc.1
          rw [decode_encode v hv] at hd
          cases hd
          intro u hu
          rcases List.mem_cons.mp hu with rfl | hu
          · exact hv
          · exact ih.mp ⟨us, hm, hc.2⟩ u hu
        | _ => rw [hm] at h; cases h
      | _ => rw [hd] at h; cases h
    · intro h
      obtain ⟨us, hm, hc⟩ := ih.mpr fun u hu => h u (List.mem_cons_of_mem _ hu)
      refine ⟨canonTop v :: us, ?_, by simp [hc, content_canonTop]⟩
      rw [decode_encode v (h v (by simp))]
      simp only [Res.bind_ok]
      rw [hm]
      rfl

/-- A map with a NaN as key between two other values. -/
example : ∀ v ∈ [Val.int .int 0 7, .map .ifaceMap [(.f64 0 0x7ff8000000000000, .nil)], .str 0 [1, 2]], topOK v = true := by
  decide +kernel

end Verif.Props
