import Verif.Codec.Encode
import Verif.Trans

/-!
# Encoding values that share memory, /repo/codec/encoder.go:128-202

Slices and maps are references.  The encoder follows them while it runs, one element after the other, so the value that it
writes may refer to itself, and may change on the way.  Simplified: arrays, strings and the keys of maps have no references to
slices or maps inside; strings do not change.
-/

namespace Verif.Codec.Heap

open Verif Verif.Codec

/-- A value with references, `reflect.Value` of /repo/codec/encoder.go:172. -/
inductive RVal where
  /-- a value without references to slices or maps -/
  | flat (v : Val)
  /-- `n` elements of the array `c` from element `off` on -/
  | slice (ty : SeqTy) (c off n : Nat)
  /-- the map `c` -/
  | map (ty : MapTy) (c : Nat)

/-- The memory behind the slices and maps of /repo/codec/encoder.go:128-170. -/
structure Mem where
  /-- the arrays that slices refer to -/
  arrays : Nat → List RVal
  /-- the maps, with their entries in the order of `MapKeys` -/
  maps : Nat → List (Val × RVal)

/-- `value.Index(i)`, /repo/codec/encoder.go:136. -/
def Mem.elem (h : Mem) (c i : Nat) : RVal := (h.arrays c)[i]?.getD (.flat .nil)

/-- `value.MapIndex(k)`, /repo/codec/encoder.go:162; the zero `reflect.Value`, which is written as nil, if there is no such
key. -/
def lookup (k : Val) : List (Val × RVal) → RVal
  | [] => .flat .nil
  | (k', r) :: rest => if goEq k' k then r else lookup k rest

/-- What the encoder has still to do: the frames of the recursion of `encodeValue`, /repo/codec/encoder.go:128-202. -/
inductive Work where
  /-- `encodeValue` -/
  | val (r : RVal)
  /-- the loop of lines 135-142 with `n` elements to go -/
  | elems (c i n : Nat)
  /-- the loop of lines 155-167 with these keys to go -/
  | entries (c : Nat) (keys : List Val)
  /-- line 162 -/
  | index (c : Nat) (k : Val)

/-- The encoder at work: the frames, what has been written, and the error that it has stopped with.
/repo/codec/encoder.go:128-202. -/
structure Machine where
  todo : List Work
  out : List Byte
  err : Option GoErr

/-- The start of `encodeValue`, /repo/codec/encoder.go:172. -/
def Machine.start (r : RVal) : Machine := ⟨[.val r], [], none⟩

/-- One step of the encoder; `none` when it has returned.  /repo/codec/encoder.go:128-202. -/
def Machine.next (h : Mem) (s : Machine) : Option Machine :=
  match s.err, s.todo with
  | some _, _ => none
  | none, [] => none
  | none, .val (.flat v) :: k => some ⟨k, s.out ++ (encodeValue v).bytes, (encodeValue v).err⟩
  | none, .val (.slice _ c off n) :: k => some ⟨.elems c off n :: k, s.out ++ header cArr32 n, none⟩
  | none, .val (.map _ c) :: k =>
    some ⟨.entries c ((h.maps c).map Prod.fst) :: k, s.out ++ header cMap32 (h.maps c).length, none⟩
  | none, .elems _ _ 0 :: k => some ⟨k, s.out, none⟩
  | none, .elems c i (n + 1) :: k => some ⟨.val (h.elem c i) :: .elems c (i + 1) n :: k, s.out, none⟩
  | none, .entries _ [] :: k => some ⟨k, s.out, none⟩
  | none, .entries c (x :: xs) :: k => some ⟨.val (.flat x) :: .index c x :: .entries c xs :: k, s.out, none⟩
  | none, .index c x :: k => some ⟨.val (lookup x (h.maps c)) :: k, s.out, none⟩

/-- Some steps of the encoder while the memory does not change.  /repo/codec/encoder.go:128-202. -/
inductive Steps (h : Mem) : Machine → Machine → Prop
  | refl (s : Machine) : Steps h s s
  | next {s t u : Machine} (h1 : s.next h = some t) (h2 : Steps h t u) : Steps h s u

theorem Steps.trans {h : Mem} {s t u : Machine} (h1 : Steps h s t) (h2 : Steps h t u) : Steps h s u := by
  induction h1 with
  | refl => exact h2
  | next e _ ih => exact .next e (ih h2)

/-- The encoder comes to one end only. -/
theorem Steps.unique {h : Mem} {s t u : Machine} (h1 : Steps h s t) (h2 : Steps h s u) (ht : t.next h = none)
    (hu : u.next h = none) : t = u := by
  induction h1 with
  | refl =>
    cases h2 with
    | refl => rfl
    | next e _ => rw [ht] at e; cases e
  | next e h1 ih =>
    cases h2 with
    | refl => rw [hu] at e; cases e
    | next e' h2 =>
      rw [e] at e'
      cases e'
      exact ih h2 ht

/-! ## Values without references -/

/-- The tree that a value with references stands for.  What is found under each key of a map matters, values that no key finds,
as below a NaN, do not. -/
inductive Unfolds (h : Mem) : RVal → Val → Prop
  | flat (v : Val) : Unfolds h (.flat v) v
  | slice (ty : SeqTy) (c off n : Nat) (vs : List Val) (hl : vs.length = n)
      (he : ∀ i, i < n → Unfolds h (h.elem c (off + i)) (vs[i]?.getD .nil)) : Unfolds h (.slice ty c off n) (.seq ty vs)
  | map (ty : MapTy) (c : Nat) (kvs : List (Val × Val)) (hk : kvs.map Prod.fst = (h.maps c).map Prod.fst)
      (hv : ∀ k, k ∈ (h.maps c).map Prod.fst → Unfolds h (lookup k (h.maps c)) ((Codec.lookup k kvs).getD .nil)) :
      Unfolds h (.map ty c) (.map ty kvs)

/-- The encoder has done its first frame and written what `e` says, or it has stopped with the error of `e`. -/
def Does (h : Mem) (w : Work) (e : Enc) : Prop :=
  ∀ k o, match e.err with
    | none => Steps h ⟨w :: k, o, none⟩ ⟨k, o ++ e.bytes, none⟩
    | some x => ∃ k', Steps h ⟨w :: k, o, none⟩ ⟨k', o ++ e.bytes, some x⟩

theorem Does.seq {h : Mem} {w w' w'' : Work} {o' : List Byte} {e e' : Enc}
    (h0 : ∀ k o, Machine.next h ⟨w :: k, o, none⟩ = some ⟨w' :: w'' :: k, o ++ o', none⟩)
    (h1 : Does h w' e) (h2 : Does h w'' e') : Does h w ((Enc.ok o').seq (e.seq e')) := by
  intro k o
  have s1 := h1 (w'' :: k) (o ++ o')
  cases he : e.err with
  | some x =>
    rw [he] at s1
    obtain ⟨k', s1⟩ := s1
    simp only [Enc.seq, Enc.ok, he]
    exact ⟨k', .next (h0 k o) (by rw [← List.append_assoc]; exact s1)⟩
  | none =>
    rw [he] at s1
    have s2 := h2 k (o ++ o' ++ e.bytes)
    simp only [Enc.seq, Enc.ok, he]
    cases he' : e'.err with
    | none =>
      rw [he'] at s2
      exact .next (h0 k o) (s1.trans (by simpa [List.append_assoc] using s2))
    | some x =>
      rw [he'] at s2
      obtain ⟨k', s2⟩ := s2
      exact ⟨k', .next (h0 k o) (s1.trans (by simpa [List.append_assoc] using s2))⟩

theorem Does.one {h : Mem} {w w' : Work} {o' : List Byte} {e : Enc}
    (h0 : ∀ k o, Machine.next h ⟨w :: k, o, none⟩ = some ⟨w' :: k, o ++ o', none⟩) (h1 : Does h w' e) :
    Does h w ((Enc.ok o').seq e) := by
  intro k o
  have s1 := h1 k (o ++ o')
  simp only [Enc.seq, Enc.ok]
  cases he : e.err with
  | some x =>
    rw [he] at s1
    obtain ⟨k', s1⟩ := s1
    exact ⟨k', .next (h0 k o) (by rw [← List.append_assoc]; exact s1)⟩
  | none =>
    rw [he] at s1
    exact .next (h0 k o) (by rw [← List.append_assoc]; exact s1)

theorem Enc.ok_nil_seq (e : Enc) : (Enc.ok []).seq e = e := by
  cases e; rfl

theorem Enc.seq_assoc (a b c : Enc) : (a.seq b).seq c = a.seq (b.seq c) := by
  obtain ⟨ab, ae⟩ := a
  obtain ⟨bb, be⟩ := b
  cases ae <;> cases be <;> simp [Enc.seq]

theorem does_elems {h : Mem} {c : Nat} : ∀ (vs : List Val) (off : Nat),
    (∀ i, i < vs.length → Does h (.val (h.elem c (off + i))) (encodeValue (vs[i]?.getD .nil))) →
    Does h (.elems c off vs.length) (encodeElems vs) := by
  intro vs
  induction vs with
  | nil => intro off _ k o; exact .next rfl (by simpa [encodeElems, Enc.ok] using Steps.refl _)
  | cons v vs ih =>
    intro off hv
    have h2 := ih (off + 1) fun i hi => by
      have := hv (i + 1) (by simpa using hi)
      rw [show off + (i + 1) = off + 1 + i by omega] at this
      simpa using this
    have h1 := hv 0 (by simp)
    have := Does.seq (h := h) (w := .elems c off (v :: vs).length) (w' := .val (h.elem c off)) (w'' := .elems c (off + 1) vs.length)
      (o' := []) (fun k o => by simp [Machine.next]) (by simpa using h1) h2
    rw [Enc.ok_nil_seq] at this
    exact this

theorem encodeMapIndex_lookup (x : Val) (kvs : List (Val × Val)) :
    encodeMapIndex x (encodeTable kvs) = encodeValue ((Codec.lookup x kvs).getD .nil) := by
  induction kvs with
  | nil => rfl
  | cons p kvs ih =>
    obtain ⟨k, v⟩ := p
    simp only [encodeTable, encodeMapIndex, Codec.lookup]
    split
    · rfl
    · exact ih

theorem does_key {h : Mem} (x : Val) : Does h (.val (.flat x)) (encodeValue x) := by
  intro k o
  cases he : (encodeValue x).err with
  | none => exact .next rfl (by rw [he]; exact .refl _)
  | some e => exact ⟨k, .next rfl (by rw [he]; exact .refl _)⟩

theorem does_entries {h : Mem} {c : Nat} {kvs : List (Val × Val)} : ∀ rest : List (Val × Val),
    (∀ x, x ∈ rest.map Prod.fst → Does h (.val (lookup x (h.maps c))) (encodeMapIndex x (encodeTable kvs))) →
    Does h (.entries c (rest.map Prod.fst)) (encodeMapLoop (encodeTable kvs) (encodeTable rest)) := by
  intro rest
  induction rest with
  | nil => intro _ k o; exact .next rfl (by simpa [encodeTable, encodeMapLoop, Enc.ok] using Steps.refl _)
  | cons p rest ih =>
    intro hi
    obtain ⟨x, v⟩ := p
    have hx : Does h (.index c x) (encodeMapIndex x (encodeTable kvs)) := by
      have := Does.one (h := h) (w := .index c x) (o' := []) (fun k o => by simp [Machine.next])
        (hi x List.mem_cons_self)
      rwa [Enc.ok_nil_seq] at this
    simp only [encodeTable, encodeMapLoop, List.map_cons, Enc.seq_assoc]
    intro k o
    -- three frames
    have s1 := does_key (h := h) x (.index c x :: .entries c (rest.map Prod.fst) :: k) o
    have first : Machine.next h ⟨.entries c (x :: rest.map Prod.fst) :: k, o, none⟩ =
      some ⟨.val (.flat x) :: .index c x :: .entries c (rest.map Prod.fst) :: k, o, none⟩ := rfl
    cases he : (encodeValue x).err with
    | some e =>
      rw [he] at s1
      obtain ⟨k', s1⟩ := s1
      simp only [Enc.seq, he]
      exact ⟨k', .next first s1⟩
    | none =>
      rw [he] at s1
      have s2 := hx (.entries c (rest.map Prod.fst) :: k) (o ++ (encodeValue x).bytes)
      cases he2 : (encodeMapIndex x (encodeTable kvs)).err with
      | some e =>
        rw [he2] at s2
        obtain ⟨k', s2⟩ := s2
        simp only [Enc.seq, he, he2]
        exact ⟨k', .next first (s1.trans (by simpa [List.append_assoc] using s2))⟩
      | none =>
        rw [he2] at s2
        have s3 := ih (fun y hy => hi y (List.mem_cons_of_mem _ hy)) k (o ++ (encodeValue x).bytes ++ (encodeMapIndex x (encodeTable kvs)).bytes)
        simp only [Enc.seq, he, he2]
        cases he3 : (encodeMapLoop (encodeTable kvs) (encodeTable rest)).err with
        | some e =>
          rw [he3] at s3
          obtain ⟨k', s3⟩ := s3
          exact ⟨k', .next first (s1.trans (s2.trans (by simpa [List.append_assoc] using s3)))⟩
        | none =>
          rw [he3] at s3
          exact .next first (s1.trans (s2.trans (by simpa [List.append_assoc] using s3)))

/-- On memory that does not change the encoder writes the encoding of the tree. -/
theorem does_val {h : Mem} {r : RVal} {v : Val} (hu : Unfolds h r v) : Does h (.val r) (encodeValue v) := by
  induction hu with
  | flat v => exact does_key v
  | slice ty c off n vs hl _ ih =>
    subst hl
    simp only [encodeValue]
    exact Does.one (fun k o => rfl) (does_elems vs off ih)
  | map ty c kvs hk _ ih =>
    simp only [encodeValue]
    have hlen : kvs.length = (h.maps c).length := by simpa using congrArg List.length hk
    refine Does.one (w' := .entries c (kvs.map Prod.fst)) (fun k o => ?_) (does_entries kvs fun x hx => ?_)
    · rw [hk, hlen]; rfl
    · rw [encodeMapIndex_lookup]
      exact ih x (hk ▸ hx)

/-! ## Values that refer to themselves -/

/-- The second value is an element of the first, or what the encoder finds in it under one of its keys.
/repo/codec/encoder.go:136,162 -/
inductive Refers (h : Mem) : RVal → RVal → Prop
  | elem (ty : SeqTy) (c off n i : Nat) (hi : i < n) : Refers h (.slice ty c off n) (h.elem c (off + i))
  | entry (ty : MapTy) (c : Nat) (k : Val) (hk : k ∈ (h.maps c).map Prod.fst) : Refers h (.map ty c) (lookup k (h.maps c))

/-- There is no infinite chain of references from the value. -/
def Grounded (h : Mem) (r : RVal) : Prop := Acc (fun y x => Refers h x y) r

/-- The encoder returns from the first frame, with or without an error. -/
def Ends (h : Mem) (w : Work) : Prop :=
  ∀ k o, ∃ t, Steps h ⟨w :: k, o, none⟩ t ∧ (t.err ≠ none ∨ t.todo = k ∧ t.err = none)

theorem Ends.then {h : Mem} {w w' : Work} (h0 : ∀ k o, ∃ o', Machine.next h ⟨w :: k, o, none⟩ = some ⟨w' :: k, o', none⟩)
    (h1 : Ends h w') : Ends h w := by
  intro k o
  obtain ⟨o', e⟩ := h0 k o
  obtain ⟨t, h2, h3⟩ := h1 k o'
  exact ⟨t, .next e h2, h3⟩

theorem Ends.both {h : Mem} {w w' w'' : Work}
    (h0 : ∀ k o, ∃ o', Machine.next h ⟨w :: k, o, none⟩ = some ⟨w' :: w'' :: k, o', none⟩)
    (h1 : Ends h w') (h2 : Ends h w'') : Ends h w := by
  intro k o
  obtain ⟨o', e⟩ := h0 k o
  obtain ⟨t, h3, h4⟩ := h1 (w'' :: k) o'
  obtain ⟨todo, out, err⟩ := t
  rcases h4 with h4 | ⟨h4, h5⟩
  · exact ⟨_, .next e h3, .inl h4⟩
  · simp only at h4 h5
    subst h4
    subst h5
    obtain ⟨u, h6, h7⟩ := h2 k out
    exact ⟨u, .next e (h3.trans h6), h7⟩

theorem ends_flat {h : Mem} (v : Val) : Ends h (.val (.flat v)) := fun k o =>
  ⟨_, .next rfl (.refl _), by
    cases he : (encodeValue v).err with
    | none => exact .inr ⟨rfl, rfl⟩
    | some e => exact .inl (by simp)⟩

theorem ends_elems {h : Mem} {c : Nat} (n off : Nat) (ih : ∀ i, i < n → Ends h (.val (h.elem c (off + i)))) :
    Ends h (.elems c off n) := by
  induction n generalizing off with
  | zero => intro k o; exact ⟨_, .next rfl (.refl _), .inr ⟨rfl, rfl⟩⟩
  | succ n ih2 =>
    refine Ends.both (w' := .val (h.elem c off)) (w'' := .elems c (off + 1) n) (fun k o => ⟨_, rfl⟩) (ih 0 (by omega)) ?_
    exact ih2 (off + 1) fun i hi => by
      have := ih (i + 1) (by omega)
      rwa [show off + (i + 1) = off + 1 + i by omega] at this

theorem ends_val {h : Mem} {r : RVal} (hr : Grounded h r) : Ends h (.val r) := by
  induction hr with
  | intro r _ ih =>
    cases r with
    | flat v => exact ends_flat v
    | slice ty c off n =>
      refine Ends.then (w' := .elems c off n) (fun k o => ⟨_, rfl⟩) ?_
      exact ends_elems n off fun i hi => ih _ (.elem ty c off n i hi)
    | map ty c =>
      refine Ends.then (w' := .entries c ((h.maps c).map Prod.fst)) (fun k o => ⟨_, rfl⟩) ?_
      have ih : ∀ x, x ∈ (h.maps c).map Prod.fst → Ends h (.val (lookup x (h.maps c))) := fun x hx => ih _ (.entry ty c x hx)
      revert ih
      generalize (h.maps c).map Prod.fst = keys
      intro ih
      induction keys with
      | nil => intro k o; exact ⟨_, .next rfl (.refl _), .inr ⟨rfl, rfl⟩⟩
      | cons x keys ih2 =>
        have e1 : Ends h (.index c x) := Ends.then (fun k o => ⟨_, rfl⟩) (ih x List.mem_cons_self)
        have e2 := ih2 fun y hy => ih y (List.mem_cons_of_mem _ hy)
        intro k o
        obtain ⟨t, h1, h2⟩ := ends_flat (h := h) x (.index c x :: .entries c keys :: k) o
        obtain ⟨todo, out, err⟩ := t
        rcases h2 with h2 | ⟨h2, h3⟩
        · exact ⟨_, .next rfl h1, .inl h2⟩
        · simp only at h2 h3
          subst h2
          subst h3
          obtain ⟨t, h4, h5⟩ := e1 (.entries c keys :: k) out
          obtain ⟨todo, out', err⟩ := t
          rcases h5 with h5 | ⟨h5, h6⟩
          · exact ⟨_, .next rfl (h1.trans h4), .inl h5⟩
          · simp only at h5 h6
            subst h5
            subst h6
            obtain ⟨u, h7, h8⟩ := e2 k out'
            exact ⟨u, .next rfl (h1.trans (h4.trans h7)), h8⟩

/-- What the encoder has done when it returns without an error. -/
def Fine (h : Mem) : Work → Prop
  | .val r => Grounded h r
  | .elems c off n => ∀ i, i < n → Grounded h (h.elem c (off + i))
  | .entries c keys => ∀ x, x ∈ keys → Grounded h (lookup x (h.maps c))
  | .index c x => Grounded h (lookup x (h.maps c))

theorem flat_fine (h : Mem) (v : Val) : Grounded h (.flat v) := ⟨_, fun _ hy => nomatch hy⟩

/-- If the encoder returns without an error, there is no infinite chain of references from anything that it had to do. -/
theorem fine_of_steps {h : Mem} {s t : Machine} (hs : Steps h s t) (ht : t.todo = [] ∧ t.err = none) :
    s.err = none ∧ ∀ w ∈ s.todo, Fine h w := by
  induction hs with
  | refl s => rw [ht.1]; exact ⟨ht.2, fun w hw => by cases hw⟩
  | @next s t u e hs ih =>
    obtain ⟨he, hw⟩ := ih ht
    obtain ⟨todo, out, err⟩ := s
    cases err with
    | some x => simp [Machine.next] at e
    | none =>
      refine ⟨rfl, ?_⟩
      cases todo with
      | nil => simp [Machine.next] at e
      | cons w k =>
        have rest : ∀ {w'} {o'}, t = ⟨w' :: k, o', none⟩ → Fine h w' ∧ ∀ w ∈ k, Fine h w := by
          intro w' o' e'
          subst e'
          exact ⟨hw _ List.mem_cons_self, fun w h => hw w (List.mem_cons_of_mem _ h)⟩
        have done : Fine h w → (∀ w ∈ k, Fine h w) → ∀ w' ∈ w :: k, Fine h w' := by
          intro h1 h2 w' h3
          rcases List.mem_cons.mp h3 with rfl | h3
          · exact h1
          · exact h2 w' h3
        cases w with
        | val r =>
          cases r with
          | flat v =>
            simp only [Machine.next, Option.some.injEq] at e
            subst e
            exact done (flat_fine h v) hw
          | slice ty c off n =>
            simp only [Machine.next, Option.some.injEq] at e
            subst e
            obtain ⟨h1, h2⟩ := rest rfl
            refine done ⟨_, fun y hy => ?_⟩ h2
            cases hy with
            | elem _ _ _ _ i hi => exact h1 i hi
          | map ty c =>
            simp only [Machine.next, Option.some.injEq] at e
            subst e
            obtain ⟨h1, h2⟩ := rest rfl
            refine done ⟨_, fun y hy => ?_⟩ h2
            cases hy with
            | entry _ _ x hx => exact h1 x hx
        | elems c i n =>
          cases n with
          | zero =>
            simp only [Machine.next, Option.some.injEq] at e
            subst e
            exact done (fun i hi => absurd hi (Nat.not_lt_zero _)) hw
          | succ n =>
            simp only [Machine.next, Option.some.injEq] at e
            subst e
            have h1 := hw _ List.mem_cons_self
            have h2 := hw (.elems c (i + 1) n) (List.mem_cons_of_mem _ List.mem_cons_self)
            refine done (fun j hj => ?_) fun w h => hw w (List.mem_cons_of_mem _ (List.mem_cons_of_mem _ h))
            cases j with
            | zero => exact h1
            | succ j =>
              have := h2 j (by omega)
              rwa [show i + 1 + j = i + (j + 1) by omega] at this
        | entries c keys =>
          cases keys with
          | nil =>
            simp only [Machine.next, Option.some.injEq] at e
            subst e
            exact done (fun x hx => by cases hx) hw
          | cons x keys =>
            simp only [Machine.next, Option.some.injEq] at e
            subst e
            have h1 := hw (.index c x) (List.mem_cons_of_mem _ List.mem_cons_self)
            have h2 := hw (.entries c keys) (List.mem_cons_of_mem _ (List.mem_cons_of_mem _ List.mem_cons_self))
            refine done (fun y hy => ?_) fun w h =>
              hw w (List.mem_cons_of_mem _ (List.mem_cons_of_mem _ (List.mem_cons_of_mem _ h)))
            rcases List.mem_cons.mp hy with rfl | hy
            · exact h1
            · exact h2 y hy
        | index c x =>
          simp only [Machine.next, Option.some.injEq] at e
          subst e
          obtain ⟨h1, h2⟩ := rest rfl
          exact done h1 h2


private theorem lookup_map (f : RVal → Val) (x : Val) : ∀ es : List (Val × RVal),
    (lookup x es = .flat .nil ∧ Codec.lookup x (es.map fun e => (e.1, f e.2)) = none) ∨
    Codec.lookup x (es.map fun e => (e.1, f e.2)) = some (f (lookup x es)) := by
  intro es
  induction es with
  | nil => exact .inl ⟨rfl, rfl⟩
  | cons e es ih =>
    obtain ⟨k, r⟩ := e
    simp only [lookup, List.map_cons, Codec.lookup]
    split
    · exact .inr rfl
    · exact ih

/-- A value from which no infinite chain of references starts is a tree. -/
theorem unfolds_of_grounded {h : Mem} {r : RVal} (hr : Grounded h r) : ∃ v, Unfolds h r v := by
  induction hr with
  | intro r _ ih =>
    cases r with
    | flat v => exact ⟨v, .flat v⟩
    | slice ty c off n =>
      have : ∃ f : Nat → Val, ∀ i, i < n → Unfolds h (h.elem c (off + i)) (f i) := by
        refine ⟨fun i => if hi : i < n then (ih _ (.elem ty c off n i hi)).choose else .nil, fun i hi => ?_⟩
        simp only [hi, dif_pos]
        exact (ih _ (.elem ty c off n i hi)).choose_spec
      obtain ⟨f, hf⟩ := this
      refine ⟨_, .slice ty c off n ((List.range n).map f) (by simp) fun i hi => ?_⟩
      rw [List.getElem?_map, List.getElem?_range hi]
      exact hf i hi
    | map ty c =>
      open Classical in
      refine ⟨_, .map ty c ((h.maps c).map fun e => (e.1, if hv : ∃ v, Unfolds h e.2 v then hv.choose else .nil)) ?_ fun k hk => ?_⟩
      · rw [List.map_map]; rfl
      · have hu := ih _ (.entry ty c k hk)
        rcases lookup_map (fun r => if hv : ∃ v, Unfolds h r v then hv.choose else .nil) k (h.maps c) with ⟨e1, e2⟩ | e
        · rw [e1, e2]; exact .flat _
        · rw [e]
          simp only [Option.getD_some, dif_pos hu]
          exact hu.choose_spec

/-- There is an infinite chain of references from the value. -/
def Endless (h : Mem) (r : RVal) : Prop := ∃ f : Nat → RVal, f 0 = r ∧ ∀ n, Refers h (f n) (f (n + 1))

theorem grounded_iff (h : Mem) (r : RVal) : Grounded h r ↔ ¬ Endless h r := by
  constructor
  · intro hr
    induction hr with
    | intro r _ ih =>
      rintro ⟨f, rfl, hf⟩
      exact ih (f 1) (hf 0) ⟨fun n => f (n + 1), rfl, fun n => hf (n + 1)⟩
  · intro hn
    refine Classical.byContradiction fun hr => hn ?_
    have next : ∀ x : { x // ¬ Grounded h x }, ∃ y : { x // ¬ Grounded h x }, Refers h x.1 y.1 := by
      intro ⟨x, hx⟩
      refine Classical.byContradiction fun hy => hx ⟨_, fun y hxy => ?_⟩
      exact Classical.byContradiction fun hg => hy ⟨⟨y, hg⟩, hxy⟩
    let g : Nat → { x // ¬ Grounded h x } := fun n => n.rec ⟨r, hr⟩ fun _ x => (next x).choose
    exact ⟨fun n => (g n).1, rfl, fun n => (next (g n)).choose_spec⟩

/-! ## Values without unsupported parts -/

/-- The second value is found from the first by following references. -/
inductive Below (h : Mem) : RVal → RVal → Prop
  | refl (r : RVal) : Below h r r
  | step {r x y : RVal} (h1 : Refers h r x) (h2 : Below h x y) : Below h r y

/-- All values without references that are found, and all keys, can be encoded. -/
def Plain (h : Mem) (r : RVal) : Prop :=
  (∀ v, Below h r (.flat v) → (encodeValue v).err = none) ∧
  ∀ ty c, Below h r (.map ty c) → ∀ k, k ∈ (h.maps c).map Prod.fst → (encodeValue k).err = none

theorem Plain.refers {h : Mem} {r x : RVal} (hp : Plain h r) (hx : Refers h r x) : Plain h x :=
  ⟨fun v hv => hp.1 v (.step hx hv), fun ty c hc => hp.2 ty c (.step hx hc)⟩

/-- What is to be done can be encoded. -/
def WorkPlain (h : Mem) : Work → Prop
  | .val r => Plain h r
  | .elems c i n => ∀ j, j < n → Plain h (h.elem c (i + j))
  | .entries c keys => ∀ k, k ∈ keys → (encodeValue k).err = none ∧ Plain h (lookup k (h.maps c))
  | .index c k => Plain h (lookup k (h.maps c))

theorem plain_flat {h : Mem} {v : Val} (hv : (encodeValue v).err = none) : Plain h (.flat v) := by
  constructor
  · intro w hw
    cases hw with
    | refl => exact hv
    | step h1 _ => cases h1
  · intro ty c hc
    cases hc with
    | step h1 _ => cases h1

theorem plain_next {h : Mem} {s t : Machine} (he : s.err = none) (hp : ∀ w ∈ s.todo, WorkPlain h w) (hs : s.next h = some t) :
    t.err = none ∧ ∀ w ∈ t.todo, WorkPlain h w := by
  obtain ⟨todo, out, err⟩ := s
  cases he
  cases todo with
  | nil => simp [Machine.next] at hs
  | cons w k =>
    have h1 := hp w List.mem_cons_self
    have h2 : ∀ w ∈ k, WorkPlain h w := fun w hw => hp w (List.mem_cons_of_mem _ hw)
    have more : ∀ {w' : Work} {l : List Work}, WorkPlain h w' → (∀ w ∈ l, WorkPlain h w) → ∀ w ∈ w' :: l, WorkPlain h w := by
      intro w' l a b w hw
      rcases List.mem_cons.mp hw with rfl | hw
      · exact a
      · exact b w hw
    cases w with
    | val r =>
      cases r with
      | flat v =>
        simp only [Machine.next, Option.some.injEq] at hs
        subst hs
        exact ⟨h1.1 v (.refl _), h2⟩
      | slice ty c off n =>
        simp only [Machine.next, Option.some.injEq] at hs
        subst hs
        exact ⟨rfl, more (fun j hj => Plain.refers h1 (.elem ty c off n j hj)) h2⟩
      | map ty c =>
        simp only [Machine.next, Option.some.injEq] at hs
        subst hs
        exact ⟨rfl, more (fun x hx => ⟨h1.2 ty c (.refl _) x hx, Plain.refers h1 (.entry ty c x hx)⟩) h2⟩
    | elems c i n =>
      cases n with
      | zero =>
        simp only [Machine.next, Option.some.injEq] at hs
        subst hs
        exact ⟨rfl, h2⟩
      | succ n =>
        simp only [Machine.next, Option.some.injEq] at hs
        subst hs
        refine ⟨rfl, more (h1 0 (by omega)) (more (fun j hj => ?_) h2)⟩
        have := h1 (j + 1) (by omega)
        rwa [show i + (j + 1) = i + 1 + j by omega] at this
    | entries c keys =>
      cases keys with
      | nil =>
        simp only [Machine.next, Option.some.injEq] at hs
        subst hs
        exact ⟨rfl, h2⟩
      | cons x keys =>
        simp only [Machine.next, Option.some.injEq] at hs
        subst hs
        obtain ⟨a, b⟩ := h1 x List.mem_cons_self
        exact ⟨rfl, more (plain_flat a) (more b (more (fun y hy => h1 y (List.mem_cons_of_mem _ hy)) h2))⟩
    | index c x =>
      simp only [Machine.next, Option.some.injEq] at hs
      subst hs
      exact ⟨rfl, more h1 h2⟩

theorem plain_steps {h : Mem} {s t : Machine} (hs : Steps h s t) (he : s.err = none) (hp : ∀ w ∈ s.todo, WorkPlain h w) :
    t.err = none := by
  induction hs with
  | refl => exact he
  | next e _ ih =>
    obtain ⟨a, b⟩ := plain_next he hp e
    exact ih a b

theorem next_none {h : Mem} {s : Machine} (hn : s.next h = none) (he : s.err = none) : s.todo = [] := by
  obtain ⟨todo, out, err⟩ := s
  cases he
  cases todo with
  | nil => rfl
  | cons w k =>
    exfalso
    cases w with
    | val r => cases r <;> cases hn
    | elems c i n => cases n <;> cases hn
    | entries c keys => cases keys <;> cases hn
    | index c x => cases hn

/-! ## Memory that changes -/

/-- A place of the memory that the encoder reads: an element of an array, or a map. /repo/codec/encoder.go:136,155,162 -/
inductive Cell where
  | elem (c i : Nat)
  | map (c : Nat)

/-- The place is part of the value: the encoder will read it. -/
inductive Has (h : Mem) : RVal → Cell → Prop
  | elem (ty : SeqTy) (c off n i : Nat) (hi : i < n) : Has h (.slice ty c off n) (.elem c (off + i))
  | map (ty : MapTy) (c : Nat) : Has h (.map ty c) (.map c)
  | inner {r r' : RVal} {x : Cell} (h1 : Refers h r r') (h2 : Has h r' x) : Has h r x

/-- Two memories have the same at a place. -/
def Same (h h' : Mem) : Cell → Prop
  | .elem c i => h.elem c i = h'.elem c i
  | .map c => h.maps c = h'.maps c

/-- The value is the same in two memories. -/
def Agree (h h' : Mem) (r : RVal) : Prop := ∀ x, Has h r x → Same h h' x

theorem Agree.refers {h h' : Mem} {r r' : RVal} (ha : Agree h h' r) (hr : Refers h r r') : Refers h' r r' ∧ Agree h h' r' := by
  refine ⟨?_, fun x hx => ha x (.inner hr hx)⟩
  cases hr with
  | elem ty c off n i hi =>
    have : h.elem c (off + i) = h'.elem c (off + i) := ha _ (.elem ty c off n i hi)
    rw [this]
    exact .elem ty c off n i hi
  | entry ty c k hk =>
    have : h.maps c = h'.maps c := ha _ (.map ty c)
    rw [this] at hk ⊢
    exact .entry ty c k hk

/-- A value that is the same in two memories has the same places in them. -/
theorem Agree.has {h h' : Mem} {r : RVal} {x : Cell} (hx : Has h r x) : Agree h h' r → Has h' r x := by
  induction hx with
  | elem ty c off n i hi => intro _; exact .elem ty c off n i hi
  | map ty c => intro _; exact .map ty c
  | inner h1 _ ih =>
    intro ha
    obtain ⟨a, b⟩ := ha.refers h1
    exact .inner a (ih b)

/-- A value that is the same in two memories stands for the same tree. -/
theorem Agree.unfolds {h h' : Mem} {r : RVal} {v : Val} (hu : Unfolds h r v) : Agree h h' r → Unfolds h' r v := by
  induction hu with
  | flat v => intro _; exact .flat v
  | slice ty c off n vs hl _ ih =>
    intro ha
    refine .slice ty c off n vs hl fun i hi => ?_
    have : h.elem c (off + i) = h'.elem c (off + i) := ha _ (.elem ty c off n i hi)
    have h2 := ih i hi (ha.refers (.elem ty c off n i hi)).2
    rwa [this] at h2
  | map ty c kvs hk _ ih =>
    intro ha
    have e : h.maps c = h'.maps c := ha _ (.map ty c)
    refine .map ty c kvs (by rw [hk, e]) fun k hm => ?_
    rw [← e] at hm
    have h2 := ih k hm (ha.refers (.entry ty c k hm)).2
    rwa [e] at h2

/-- What is to be done reads the same in two memories. -/
def WorkAgree (h h' : Mem) : Work → Prop
  | .val r => Agree h h' r
  | .elems c i n => ∀ j, j < n → Same h h' (.elem c (i + j)) ∧ Agree h h' (h.elem c (i + j))
  | .entries c keys => Same h h' (.map c) ∧ ∀ k, k ∈ keys → Agree h h' (lookup k (h.maps c))
  | .index c k => Same h h' (.map c) ∧ Agree h h' (lookup k (h.maps c))

theorem agree_flat (h h' : Mem) (v : Val) : Agree h h' (.flat v) := by
  intro x hx
  cases hx with
  | inner h1 _ => cases h1

/-- The next step is the same in two memories, and leaves work that reads the same. -/
theorem next_agree {h h' : Mem} {s : Machine} (hw : ∀ w ∈ s.todo, WorkAgree h h' w) :
    s.next h' = s.next h ∧ ∀ t, s.next h = some t → ∀ w ∈ t.todo, WorkAgree h h' w := by
  obtain ⟨todo, out, err⟩ := s
  cases err with
  | some x => exact ⟨rfl, fun t ht => by cases ht⟩
  | none =>
    cases todo with
    | nil => exact ⟨rfl, fun t ht => by cases ht⟩
    | cons w k =>
      have h1 := hw w List.mem_cons_self
      have h2 : ∀ w ∈ k, WorkAgree h h' w := fun w h => hw w (List.mem_cons_of_mem _ h)
      have more : ∀ {w' : Work} {l : List Work}, WorkAgree h h' w' → (∀ w ∈ l, WorkAgree h h' w) →
          ∀ w ∈ w' :: l, WorkAgree h h' w := by
        intro w' l a b w hw
        rcases List.mem_cons.mp hw with rfl | hw
        · exact a
        · exact b w hw
      cases w with
      | val r =>
        cases r with
        | flat v => exact ⟨rfl, fun t ht => by cases ht; exact h2⟩
        | slice ty c off n =>
          refine ⟨rfl, fun t ht => ?_⟩
          cases ht
          exact more (fun j hj => ⟨h1 _ (.elem ty c off n j hj), (Agree.refers h1 (.elem ty c off n j hj)).2⟩) h2
        | map ty c =>
          have e : h.maps c = h'.maps c := h1 _ (.map ty c)
          refine ⟨by simp only [Machine.next, e], fun t ht => ?_⟩
          cases ht
          exact more ⟨e, fun x hx => (Agree.refers h1 (.entry ty c x hx)).2⟩ h2
      | elems c i n =>
        cases n with
        | zero => exact ⟨rfl, fun t ht => by cases ht; exact h2⟩
        | succ n =>
          obtain ⟨e, a⟩ := h1 0 (by omega)
          have e : h.elem c i = h'.elem c i := e
          refine ⟨by simp only [Machine.next, e], fun t ht => ?_⟩
          cases ht
          refine more a (more (fun j hj => ?_) h2)
          have := h1 (j + 1) (by omega)
          rwa [show i + (j + 1) = i + 1 + j by omega] at this
      | entries c keys =>
        cases keys with
        | nil => exact ⟨rfl, fun t ht => by cases ht; exact h2⟩
        | cons x keys =>
          refine ⟨rfl, fun t ht => ?_⟩
          cases ht
          obtain ⟨e, a⟩ := h1
          exact more (agree_flat h h' x) (more ⟨e, a x List.mem_cons_self⟩
            (more ⟨e, fun y hy => a y (List.mem_cons_of_mem _ hy)⟩ h2))
      | index c x =>
        obtain ⟨e, a⟩ := h1
        have e' : h.maps c = h'.maps c := e
        refine ⟨by simp only [Machine.next, e'], fun t ht => ?_⟩
        cases ht
        exact more a h2

theorem steps_agree {h h' : Mem} {s t : Machine} (hs : Steps h s t) (hw : ∀ w ∈ s.todo, WorkAgree h h' w) :
    ∀ w ∈ t.todo, WorkAgree h h' w := by
  induction hs with
  | refl => exact hw
  | next e _ ih => exact ih ((next_agree hw).2 _ e)

/-- The encoder goes on as in the first memory if the value that it writes is the same in both. -/
theorem next_same {h h' : Mem} {r : RVal} {m : Machine} (hs : Steps h (Machine.start r) m) (ha : Agree h h' r) :
    m.next h' = m.next h := by
  refine (next_agree (steps_agree hs fun w hw => ?_)).1
  rcases List.mem_cons.mp hw with rfl | hw
  · exact ha
  · cases hw

theorem Steps.snoc {h : Mem} {s t u : Machine} (hs : Steps h s t) (e : t.next h = some u) : Steps h s u :=
  hs.trans (.next e (.refl u))

end Verif.Codec.Heap
