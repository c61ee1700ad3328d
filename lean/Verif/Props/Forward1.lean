import Verif.Codec.Forward
import Verif.Props.Codec10

/-!
# C153: what was received can be sent on

A process often passes on what it received: a feature calls another feature with its own arguments, or returns what it got from
another.  Not every value survives a transmission (C02, C04).  What was received does, with its type and everything: if `Decode`
(/repo/codec/any.go:251-261) of the bytes that `Encode` (/repo/codec/any.go:246-249) wrote for any value at all succeeds, its result
can be sent to a third process, which reads the same, and so on.
-/

namespace Verif.Props

open Verif Verif.Codec

private theorem encode_normalized (v : Val) (tp : AType) : (Any.normalize ⟨v, tp⟩).encode = encode v := by
  unfold Any.normalize Any.encode
  split <;> rfl

private theorem any_normalized (v : Val) (tp : AType) : (Any.normalize ⟨v, tp⟩).any = v := by
  unfold Any.normalize Any.any
  split <;> rfl

private theorem decoded {v : Val} {a : Any} {rest r : List Byte} (h : (a.decode ((newAny v).encode.bytes ++ rest)).2 = .ok r) :
    ∃ w, decode ((encode v).bytes ++ rest) = .ok (w, r) ∧ (a.decode ((newAny v).encode.bytes ++ rest)).1 = Any.normalize ⟨w, a.tp⟩ := by
  rw [show (newAny v).encode = encode v from encode_normalized _ _] at h ⊢
  cases hd : decode ((encode v).bytes ++ rest) with
  | ok p =>
    obtain ⟨w, r'⟩ := p
    simp only [Any.decode, hd] at h ⊢
    cases h
    exact ⟨w, rfl, rfl⟩
  | _ => simp [Any.decode, hd] at h

/-- **C153**: a process writes a value of any kind, with any nesting, and a second one reads it, into an object `a`, whatever stood
in it.  If it succeeds, it has read the bytes of the value and no others; and if it writes what it got, as it is in `a` or as the
value of a new object, there is no error, and a third process that reads it, into `b`, gets the very same value: the same content
and the same types. -/
theorem C153_forward {v : Val} (hf : fits v = true) (a b : Any) (rest r more : List Byte)
    (h : (a.decode ((newAny v).encode.bytes ++ rest)).2 = .ok r) :
    r = rest ∧ ∀ x, x = (a.decode ((newAny v).encode.bytes ++ rest)).1 ∨
        x = newAny (a.decode ((newAny v).encode.bytes ++ rest)).1.any →
      x.encode.err = none ∧ (b.decode (x.encode.bytes ++ more)).2 = .ok more ∧
        (b.decode (x.encode.bytes ++ more)).1.any = (a.decode ((newAny v).encode.bytes ++ rest)).1.any := by
  obtain ⟨w, hd, he⟩ := decoded h
  obtain ⟨h1, h2, h3⟩ := pass_top hf hd
  refine ⟨h3, fun x hx => ?_⟩
  rw [he, any_normalized] at hx
  have hxe : x.encode = encode w := by
    rcases hx with rfl | rfl
    · exact encode_normalized _ _
    · exact encode_normalized _ _
  have hb := decode_encode w h1 more
  rw [h2] at hb
  rw [hxe, he, any_normalized]
  refine ⟨(rt_top w h1).1, ?_, ?_⟩
  · simp only [Any.decode, hb]
  · simp only [Any.decode, hb, any_normalized]

/-- Sent on by one process after the other: what each of the objects holds after reading what the one before wrote; nothing more if
one of them fails.  `Encode` and `Decode` of /repo/codec/any.go:246-261. -/
def passOn (v : Val) : List Any → List Val
  | [] => []
  | a :: rest => match a.decode (newAny v).encode.bytes with
    | (a', .ok _) => a'.any :: passOn a'.any rest
    | _ => []

theorem passOn_fixed {w : Val} (h1 : topOK w = true) (h2 : canonTop w = w) (l : List Any) : passOn w l = l.map fun _ => w := by
  induction l with
  | nil => rfl
  | cons a l ih =>
    have hb := decode_encode w h1 []
    rw [h2, List.append_nil] at hb
    have : a.decode (newAny w).encode.bytes = (Any.normalize ⟨w, a.tp⟩, .ok []) := by
      rw [show (newAny w).encode = encode w from encode_normalized _ _]
      simp only [Any.decode, hb]
    simp only [passOn, this, any_normalized, List.map_cons, ih]

/-- **C153**, for a chain of processes: if the first one can read the value, all of them can, and all get the same. -/
theorem C153_chain {v : Val} (hf : fits v = true) (a : Any) (l : List Any) (r : List Byte)
    (h : (a.decode (newAny v).encode.bytes).2 = .ok r) :
    passOn v (a :: l) = (a :: l).map fun _ => (a.decode (newAny v).encode.bytes).1.any := by
  have h' : (a.decode ((newAny v).encode.bytes ++ [])).2 = .ok r := by rw [List.append_nil]; exact h
  obtain ⟨w, hd, he⟩ := decoded h'
  obtain ⟨h1, h2, h3⟩ := pass_top hf hd
  rw [List.append_nil] at he
  have e : a.decode (newAny v).encode.bytes = (Any.normalize ⟨w, a.tp⟩, .ok r) := Prod.ext he h
  simp only [passOn, e, any_normalized, List.map_cons, passOn_fixed h1 h2]

/-- **C153**, for what is passed on inside something else: every element of a list of arguments or results that was received may
become an element of another list, together with any values that survive. -/
theorem C153_elements {ty : SeqTy} {vs ws ys zs : List Val} {rest r : List Byte} (hf : fits (.seq ty vs) = true)
    (h : decode ((encode (.seq ty vs)).bytes ++ rest) = .ok (.seq .ifaceSlice ws, r)) (hsub : ∀ y ∈ ys, y ∈ ws)
    (hz : wireOKList zs = true) (hl : (ys ++ zs).length < 2^32) (ty' : SeqTy) (more : List Byte) :
    (encode (.seq ty' (ys ++ zs))).err = none ∧
      ∃ us, decode ((encode (.seq ty' (ys ++ zs))).bytes ++ more) = .ok (.seq .ifaceSlice (ys ++ us), more) ∧
        contentList us = contentList zs := by
  obtain ⟨h1, h2⟩ := pass_value _ hf _ _ _ _ h
  have hall : ∀ l : List Val, wireOKList l = true ↔ ∀ y ∈ l, wireOK y = true := by
    intro l
    induction l with
    | nil => simp [wireOKList]
    | cons x l ih => simp [wireOKList, ih]
  have hcl : ∀ l : List Val, canonList l = l.map canon := by
    intro l
    induction l with
    | nil => rfl
    | cons x l ih => simp [canonList, ih]
  simp only [wireOK, Bool.and_eq_true] at h1
  simp only [canon, Val.seq.injEq, true_and] at h2
  have hcw : ∀ y ∈ ws, canon y = y := by
    rw [hcl] at h2
    intro y hy
    have : ws.map canon = ws.map id := by rw [h2, List.map_id]
    exact List.map_inj_left.mp this y hy
  have hok : topOK (.seq ty' (ys ++ zs)) = true := by
    simp only [topOK, wireOK, Bool.and_eq_true, decide_eq_true_eq]
    refine ⟨hl, (hall _).mpr fun y hy => ?_⟩
    rcases List.mem_append.mp hy with hy | hy
    · exact (hall ws).mp h1.2 y (hsub y hy)
    · exact (hall zs).mp hz y hy
  refine ⟨(rt_top _ hok).1, canonList zs, ?_, ?_⟩
  · rw [decode_encode _ hok]
    simp only [canonTop, canon]
    rw [hcl, List.map_append, hcl]
    congr 4
    exact (List.map_congr_left (g := id) fun y hy => hcw y (hsub y hy)).trans (List.map_id ys)
  · have := content_canonTop (.seq ty' zs)
    simpa [canonTop, canon, content] using this

/-- A value that does not survive the first transmission unchanged: two keys that become one, and a value below a NaN.  It is
written and read; what is read goes through two more processes. -/
example : ∃ v, fits v = true ∧ topOK v = false ∧
    passOn v [newAny .nil, newAny (.str 0 [65]), newAny .nil] =
      List.replicate 3 (.map .ifaceMap [(.int .i8 0 5, .str 0 [66]), (.f64 0 0x7ff8000000000001, .nil), (.uint .u8 0 5, .seq .ifaceSlice [])]) :=
  ⟨.map (.other 1) [(.int .i64 0 5, .str 0 [65]), (.f64 0 0x7ff8000000000001, .bool 0 true), (.uint .u32 0 5, .seq (.array 2) []),
    (.int .int 0 5, .str 3 [66])], by decide +kernel⟩

/-- Arguments from which a method passes on one, behind it one of its own. -/
example : fits (.seq (.slice 4) [.int .int 0 7, .f32 0 0x3f800000]) = true ∧
    decode (encode (.seq (.slice 4) [.int .int 0 7, .f32 0 0x3f800000])).bytes =
      .ok (.seq .ifaceSlice [.int .i8 0 7, .f64 0 0x3ff0000000000000], []) ∧ wireOKList [.str 0 [65]] = true := by
  decide +kernel

/-- It matters that the bytes were written by `Encode`: from other bytes a float can be read that cannot be sent on. -/
example : decode [cFloat64, cUint64, 0, 0, 0, 0, 0, 0, 0, 1] = .ok (.f64 0 1, []) ∧ topOK (.f64 0 1) = false := by
  decide +kernel

end Verif.Props
