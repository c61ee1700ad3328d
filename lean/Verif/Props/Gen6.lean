import Verif.Gen.Text
import Verif.Props.Gen5

/-!
# C154: the generated text is the program that is meant
-/

namespace Verif.Props

open Verif Verif.Gen

/-- Scanning `s`, from between two tokens to between two tokens. -/
def Lexes (nl : Bool) (s : List Char) (ts : List T) (nl' : Bool) : Prop :=
  scanAllChars (.idle, nl) s = (ts, .idle, nl')

/-- A text that begins with a character at which a word ends. -/
def Delim (s : List Char) : Prop := ∃ c cs, s = c :: cs ∧ wordChar c = false

/-- Scanning `s`, which may end with a word, in front of anything that ends the word. -/
def LexesW (nl : Bool) (s : List Char) (ts : List T) (nl' : Bool) : Prop :=
  ∀ rest, Delim rest → scanAllChars (.idle, nl) (s ++ rest) =
    (ts ++ (scanAllChars (.idle, nl') rest).1, (scanAllChars (.idle, nl') rest).2)

/-- The name of something in Go, as opposed to a keyword. -/
def IsName (s : List Char) : Prop := s ≠ [] ∧ (∀ c ∈ s, wordChar c = true) ∧ s ∉ keywords

instance (s : List Char) : Decidable (IsName s) := by unfold IsName; infer_instance

theorem scanAllChars_append (st : Mode × Bool) (a b : List Char) :
    scanAllChars st (a ++ b) = ((scanAllChars st a).1 ++ (scanAllChars (scanAllChars st a).2 b).1, (scanAllChars (scanAllChars st a).2 b).2) := by
  induction a generalizing st with
  | nil => simp [scanAllChars]
  | cons c a ih => simp only [List.cons_append, scanAllChars, ih, List.append_assoc]

theorem Lexes.append {a b : List Char} {ta tb : List T} {n n' n'' : Bool} (ha : Lexes n a ta n') (hb : Lexes n' b tb n'') :
    Lexes n (a ++ b) (ta ++ tb) n'' := by
  unfold Lexes at *
  rw [scanAllChars_append, ha, hb]

theorem Lexes.toW {a : List Char} {ta : List T} {n n' : Bool} (ha : Lexes n a ta n') : LexesW n a ta n' := by
  intro rest _
  unfold Lexes at ha
  rw [scanAllChars_append, ha]

theorem Lexes.appendW {a b : List Char} {ta tb : List T} {n n' n'' : Bool} (ha : Lexes n a ta n') (hb : LexesW n' b tb n'') :
    LexesW n (a ++ b) (ta ++ tb) n'' := by
  intro rest hr
  unfold Lexes at ha
  rw [List.append_assoc, scanAllChars_append, ha, hb rest hr, List.append_assoc]

theorem LexesW.append {a b : List Char} {ta tb : List T} {n n' n'' : Bool} (ha : LexesW n a ta n') (hd : Delim b) (hb : Lexes n' b tb n'') :
    Lexes n (a ++ b) (ta ++ tb) n'' := by
  unfold Lexes at *
  rw [ha b hd, hb]

theorem Lexes.nil (n : Bool) : Lexes n [] [] n := rfl

theorem word_more : ∀ (s acc : List Char) (nl : Bool), (∀ c ∈ s, wordChar c = true) →
    scanAllChars (.word acc, nl) s = ([], .word (acc ++ s), nl) := by
  intro s
  induction s with
  | nil => intro acc nl _; simp [scanAllChars]
  | cons c s ih =>
    intro acc nl h
    simp only [scanAllChars, scan, h c List.mem_cons_self, if_true]
    rw [ih _ _ (fun x hx => h x (List.mem_cons_of_mem _ hx))]
    simp

theorem fresh_word {c : Char} (h : wordChar c = true) (nl : Bool) : fresh nl c = ([], .word [c], nl) := by
  have e : ∀ d, wordChar d = false → c ≠ d := by rintro d hd rfl; rw [h] at hd; cases hd
  unfold fresh
  rw [if_neg (e _ (by decide)), if_neg (by
    rintro (h | h | h)
    · exact e _ (by decide) h
    · exact e _ (by decide) h
    · exact e _ (by decide) h),
    if_neg (e _ (by decide)), if_neg (e _ (by decide)), if_neg (e _ (by decide)), if_neg (e _ (by decide)), if_pos h]

/-- A word. -/
theorem lexes_word {s : List Char} (h0 : s ≠ []) (h : ∀ c ∈ s, wordChar c = true) (he : endsLine s = true) (nl : Bool) :
    LexesW nl s [.word s] true := by
  rintro rest ⟨d, ds, rfl, hd⟩
  cases s with
  | nil => exact absurd rfl h0
  | cons c s =>
    have h1 : scanAllChars (.idle, nl) (c :: s) = ([], .word (c :: s), nl) := by
      simp only [scanAllChars, scan, fresh_word (h c List.mem_cons_self)]
      rw [word_more _ _ _ (fun x hx => h x (List.mem_cons_of_mem _ hx))]
      simp
    rw [scanAllChars_append, h1]
    simp only [scanAllChars, scan, hd, he]
    simp

theorem escapeChar_word {c : Char} (h : wordChar c = true) : escapeChar c = [c] := by
  have e : ∀ d, wordChar d = false → c ≠ d := by rintro d hd rfl; rw [h] at hd; cases hd
  unfold escapeChar
  rw [if_neg (e _ (by decide)), if_neg (e _ (by decide)), if_neg (e _ (by decide)), if_neg (e _ (by decide)), if_neg (e _ (by decide)),
    if_neg (e _ (by decide)), if_neg (e _ (by decide))]

theorem escape_word {s : List Char} (h : ∀ c ∈ s, wordChar c = true) : escape s = s := by
  induction s with
  | nil => rfl
  | cons c s ih =>
    have := ih fun x hx => h x (List.mem_cons_of_mem _ hx)
    unfold escape at *
    rw [List.flatMap_cons, escapeChar_word (h c List.mem_cons_self), this]
    rfl

theorem endsLine_name {s : List Char} (h : IsName s) : endsLine s = true := by
  unfold endsLine
  simp [List.contains_eq_mem, h.2.2]

theorem lexes_name {s : List Char} (h : IsName s) (nl : Bool) : LexesW nl (escape s) [.word s] true := by
  rw [escape_word h.2.1]
  exact lexes_word h.1 h.2.1 (endsLine_name h) nl

theorem str_more : ∀ (s acc : List Char) (nl : Bool), (∀ c ∈ s, wordChar c = true) →
    scanAllChars (.str acc, nl) (s ++ ['"']) = ([.str (acc ++ s)], .idle, true) := by
  intro s
  induction s with
  | nil => intro acc nl _; simp [scanAllChars, scan]
  | cons c s ih =>
    intro acc nl h
    have e : ∀ d, wordChar d = false → c ≠ d := by
      rintro d hd rfl; rw [h c List.mem_cons_self] at hd; cases hd
    simp only [List.cons_append, scanAllChars, scan]
    rw [if_neg (e _ (by decide)), if_neg (e _ (by decide)), if_neg (e _ (by decide))]
    dsimp only
    rw [ih _ _ (fun x hx => h x (List.mem_cons_of_mem _ hx))]
    simp

theorem lexes_quoted {s : List Char} (h : IsName s) (nl : Bool) :
    Lexes nl ("\"".toList ++ escape s ++ "\"".toList) [.str s] true := by
  rw [escape_word h.2.1, List.append_assoc]
  unfold Lexes
  rw [show "\"".toList = ['"'] from by decide +kernel, List.singleton_append, scanAllChars]
  have : scan (.idle, nl) '"' = ([], .str [], nl) := rfl
  rw [this]
  dsimp only
  rw [str_more _ _ _ h.2.1]
  rfl

theorem escape_line {s : List Char} (h : '\n' ∉ s) : '\n' ∉ escape s := by
  unfold escape
  rw [List.mem_flatMap]
  rintro ⟨c, hc, hm⟩
  unfold escapeChar at hm
  repeat' split at hm
  all_goals first | (exact absurd hm (by decide +kernel)) | skip
  simp only [List.mem_singleton] at hm
  subst hm
  exact h hc

theorem line_more : ∀ (s : List Char) (nl : Bool), '\n' ∉ s → scanAllChars (.line, nl) s = ([], .line, nl) := by
  intro s
  induction s with
  | nil => intro nl _; rfl
  | cons c s ih =>
    intro nl h
    have hc : c ≠ '\n' := fun e => h (by rw [e]; exact List.mem_cons_self)
    simp only [scanAllChars, scan, if_neg hc, ih nl (fun e => h (List.mem_cons_of_mem _ e))]
    rfl

/-- A comment to the end of the line. -/
theorem lexes_comment {s : List Char} (h : '\n' ∉ s) : Lexes false ("// ".toList ++ s ++ "\n".toList) [] false := by
  unfold Lexes
  rw [List.append_assoc, scanAllChars_append, show scanAllChars (.idle, false) "// ".toList = ([], .line, false) from by decide +kernel,
    scanAllChars_append, line_more s false h]
  decide +kernel

theorem number_word (k : Nat) : numberText k ≠ [] ∧ (∀ c ∈ numberText k, wordChar c = true) ∧ endsLine (numberText k) = true := by
  have hd : ∀ c ∈ numberText k, c.isDigit = true := fun c hc => Nat.isDigit_of_mem_toDigits (by decide) (by decide) hc
  refine ⟨Nat.toDigits_ne_nil, fun c hc => ?_, ?_⟩
  · simp [wordChar, Char.isAlphanum, hd c hc]
  · unfold endsLine
    have : numberText k ∉ keywords := by
      intro hm
      cases hn : numberText k with
      | nil => exact Nat.toDigits_ne_nil hn
      | cons c cs =>
        have h1 := hd c (by rw [hn]; exact List.mem_cons_self)
        have h2 : ∀ x ∈ keywords, ∀ c ∈ x.head?, c.isDigit = false := by decide +kernel
        have := h2 _ hm c (by rw [hn]; rfl)
        rw [h1] at this
        cases this
    simp [List.contains_eq_mem, this]

theorem default_word (t : String) : (defaultOf t).toList ≠ [] ∧ (∀ c ∈ (defaultOf t).toList, wordChar c = true) ∧ endsLine (defaultOf t).toList = true := by
  have h : ∀ x ∈ ["false", "0", "nil"], x.toList ≠ [] ∧ (∀ c ∈ x.toList, wordChar c = true) ∧ endsLine x.toList = true := by decide +kernel
  refine h _ ?_
  rcases defaultOf_cases t with h | h | h <;> simp [h.2]

theorem lit {nl nl' : Bool} {s : List Char} {ts : List T} (h : scanAllChars (.idle, nl) s = (ts, .idle, nl')) : Lexes nl s ts nl' := h

theorem delim {s : List Char} (h : (s.head?.map wordChar) = some false) : Delim s := by
  cases s with
  | nil => cases h
  | cons c cs => exact ⟨c, cs, rfl, by simpa using h⟩

theorem word_w (s : String) : T.word s.toList = w s := rfl

/-- A list of elements with commas between them. -/
theorem lexes_list {α : Type} (e : Nat → α → List Char) (te : Nat → α → List Tok)
    (n : Nat) : ∀ (xs : List α) (i : Nat) (nl : Bool), i + xs.length = n →
    (∀ k, ∀ x ∈ xs, ∀ nl, LexesW nl (e k x) ((te k x).flatMap Tok.go) true) →
    LexesW nl (rangeText (fun k x => e k x ++ commaText k n) i xs)
      ((rangeFrom (fun k x => te k x ++ comma k n) i xs).flatMap Tok.go) (if xs.isEmpty then nl else true) := by
  intro xs
  induction xs with
  | nil => intro i nl _ _; exact (Lexes.nil nl).toW
  | cons x xs ih =>
    intro i nl hi he
    simp only [List.length_cons] at hi
    simp only [rangeText, rangeFrom, List.flatMap_append, List.isEmpty_cons, Bool.false_eq_true, if_false]
    cases xs with
    | nil =>
      have hn : ¬ i + 1 < n := by simp at hi; omega
      simp only [rangeText, rangeFrom, commaText, comma, if_neg hn, List.append_nil, List.flatMap_nil]
      exact he i x List.mem_cons_self nl
    | cons y ys =>
      have hn : i + 1 < n := by simp at hi; omega
      have h1 := (he i x List.mem_cons_self nl).append (delim (by decide +kernel))
        (lit (nl := true) (s := escape ",".toList) (ts := [.op ',']) (nl' := false) (by decide +kernel))
      have h2 := ih (i + 1) false (by omega) fun k z hz => he k z (List.mem_cons_of_mem _ hz)
      rw [show commaText i n = escape ",".toList from if_pos hn, show comma i n = [.comma] from if_pos hn]
      simpa [Tok.go] using h1.appendW h2

/-- The parameters of a method. -/
theorem lexes_params (n : Nat) : ∀ (ps : List (String × String)) (i : Nat), i + ps.length ≤ n + 1 →
    (∀ p ∈ ps, IsName p.1.toList ∧ IsName p.2.toList) →
    Lexes false (rangeText (fun j p => escape p.1.toList ++ " ".toList ++ escape p.2.toList ++ if j ≤ n then ", ".toList else []) i ps)
      ((rangeFrom (fun j (p : String × String) => [.ident p.1, .ident p.2] ++ if j ≤ n then [.comma] else []) i ps).flatMap Tok.go) false := by
  intro ps
  induction ps with
  | nil => intro i _ _; exact Lexes.nil false
  | cons p ps ih =>
    intro i hi hp
    simp only [List.length_cons] at hi
    have hn : i ≤ n := by omega
    obtain ⟨h1, h2⟩ := hp p List.mem_cons_self
    have a := (lexes_name h1 false).append (delim (by decide +kernel))
      (lit (nl := true) (s := " ".toList) (ts := []) (nl' := true) (by decide +kernel))
    have b := (a.appendW (lexes_name h2 true)).append (delim (by decide +kernel))
      (lit (nl := true) (s := ", ".toList) (ts := [.op ',']) (nl' := false) (by decide +kernel))
    have c := b.append (ih (i + 1) (by omega) fun q hq => hp q (List.mem_cons_of_mem _ hq))
    simp only [rangeText, rangeFrom, if_pos hn]
    simpa [Tok.go, w] using c

/-- A method whose names are names. -/
structure NamedMethod (m : AstMethod) : Prop where
  name : IsName m.name.toList
  params : ∀ p ∈ m.params, IsName p.1.toList ∧ IsName p.2.toList
  results : ∀ r ∈ m.results, IsName r.2.toList

theorem lexes_result (k : Nat) {t : String} (ht : IsName t.toList) (nl : Bool) :
    LexesW nl ("results[".toList ++ numberText k ++ "].(".toList ++ escape t.toList ++ ")".toList) (([Tok.result k t]).flatMap Tok.go) true := by
  have h0 : Lexes nl "results[".toList [w "results", .op '['] false := by cases nl <;> exact lit (by decide +kernel)
  obtain ⟨n1, n2, n3⟩ := number_word k
  have h1 := (h0.appendW (lexes_word n1 n2 n3 false)).append (delim (by decide +kernel))
    (lit (nl := true) (s := "].(".toList) (ts := [.op ']', .op '.', .op '(']) (nl' := false) (by decide +kernel))
  have h2 := (h1.appendW (lexes_name ht false)).append (delim (by decide +kernel))
    (lit (nl := true) (s := ")".toList) (ts := [.op ')']) (nl' := true) (by decide +kernel))
  simpa [Tok.go, w] using h2.toW

theorem lexes_args (target : String) (ht : IsName target.toList) (m : AstMethod) (hm : NamedMethod m) {s : List Char} {ts : List T}
    (hs : Lexes false s ts false) :
    Lexes false (s ++ ("\"".toList ++ escape target.toList ++ "\"".toList) ++ ", ".toList ++
      ("\"".toList ++ escape m.name.toList ++ "\"".toList) ++ ", ".toList ++
      rangeText (fun j p => escape p.1.toList ++ commaText j m.params.length) 0 m.params ++ ")\n\t".toList)
      (ts ++ (genMethod target m).args.flatMap Tok.go ++ [.op ')', .semi]) false := by
  have hc : Lexes true ", ".toList [.op ','] false := lit (by decide +kernel)
  have h1 := (((hs.append (lexes_quoted ht false)).append hc).append (lexes_quoted hm.name false)).append hc
  have h2 := lexes_list (fun _ (p : String × String) => escape p.1.toList) (fun _ p => [.ident p.1]) m.params.length m.params 0 false (by omega)
    (fun k p hp nl => by simpa [Tok.go, w] using lexes_name (hm.params p hp).1 nl)
  have h3 : ∀ nl, Lexes nl ")\n\t".toList [.op ')', .semi] false := fun nl => by cases nl <;> exact lit (by decide +kernel)
  have h4 := (h1.appendW h2).append (delim (by decide +kernel)) (h3 _)
  simpa [genMethod, Tok.go, range] using h4

/-- The text of a method. -/
theorem lexes_method (target : String) (proxy : List Char) (ht : IsName target.toList) (hp : IsName proxy) (m : AstMethod)
    (hm : NamedMethod m) : Lexes false (methodText target.toList proxy m) ((genMethod target m).go proxy) false := by
  have a1 := ((lit (nl := false) (s := "\nfunc (p *".toList) (ts := [w "func", .op '(', w "p", .op '*']) (nl' := false) (by decide +kernel)).appendW
    (lexes_name hp false)).append (delim (by decide +kernel)) (lit (nl := true) (s := ") ".toList) (ts := [.op ')']) (nl' := true) (by decide +kernel))
  have a2 := (a1.appendW (lexes_name hm.name true)).append (delim (by decide +kernel))
    (lit (nl := true) (s := "(".toList) (ts := [.op '(']) (nl' := false) (by decide +kernel))
  have a3 := (a2.append (lexes_params m.params.length m.params 0 (by omega) hm.params)).append
    (lit (nl := false) (s := ")".toList) (ts := [.op ')']) (nl' := true) (by decide +kernel))
  have b1 : Lexes true "{\n\t".toList [.op '{'] false := lit (by decide +kernel)
  have c1 : Lexes false "\n\tif nil != err {\n\t\treturn ".toList
    [w "if", w "nil", .op '!', .op '=', w "err", .op '{', w "return"] true := lit (by decide +kernel)
  have c2 : Lexes true "\n\t}".toList [.semi, .op '}'] true := lit (by decide +kernel)
  have c3 : Lexes true "\n}\n".toList [.semi, .op '}', .semi] false := lit (by decide +kernel)
  have d := lexes_list (fun _ (r : String × String) => escape (defaultOf r.2).toList) (fun _ r => [.lit (defaultOf r.2)])
    m.results.length m.results 0 true (by omega) (fun k r hr nl => by
      obtain ⟨n1, n2, n3⟩ := default_word r.2
      rw [escape_word n2]
      simpa [Tok.go, w] using lexes_word n1 n2 n3 nl)
  have dn : (if m.results.isEmpty then true else true) = true := by split <;> rfl
  rw [dn] at d
  by_cases hr : 0 < m.results.length
  · have hne : m.results.isEmpty = false := by cases h : m.results <;> simp_all
    have e1 := lexes_list (fun _ (r : String × String) => escape r.2.toList) (fun _ r => [.ident r.2]) m.results.length m.results 0 false
      (by omega) (fun k r hr nl => by simpa [Tok.go, w] using lexes_name (hm.results r hr) nl)
    rw [hne] at e1
    have e2 := ((lit (nl := true) (s := "(".toList) (ts := [.op '(']) (nl' := false) (by decide +kernel)).appendW e1).append
      (delim (by decide +kernel)) (lit (nl := true) (s := ")".toList) (ts := [.op ')']) (nl' := true) (by decide +kernel))
    have f1 := lexes_args target ht m hm (lit (nl := false) (s := "results, err := p.slot.CallWithResult(".toList)
      (ts := [w "results", .op ',', w "err", .op ':', .op '=', w "p", .op '.', w "slot", .op '.', w "CallWithResult", .op '(']) (nl' := false)
      (by decide +kernel))
    have g1 := lexes_list (fun k (r : String × String) => "results[".toList ++ numberText k ++ "].(".toList ++ escape r.2.toList ++ ")".toList)
      (fun k r => [.result k r.2]) m.results.length m.results 0 true (by omega) (fun k r hr nl => lexes_result k (hm.results r hr) nl)
    rw [hne] at g1
    have g2 := (lit (nl := true) (s := "\n\t\n\treturn ".toList) (ts := [.semi, w "return"]) (nl' := true) (by decide +kernel)).appendW g1
    have k1 := (((a3.append e2).append b1).append f1).append c1
    have k2 := (((k1.appendW d).append (delim (by decide +kernel)) c2).appendW g2).append (delim (by decide +kernel)) c3
    unfold methodText
    simp only [if_pos hr]
    simpa [GenMethod.go, genMethod, hr, Gen.range, word_w] using k2
  · have he : m.results = [] := by cases h : m.results <;> simp_all
    have f1 := lexes_args target ht m hm (lit (nl := false) (s := "err := p.slot.Call(".toList)
      (ts := [w "err", .op ':', .op '=', w "p", .op '.', w "slot", .op '.', w "Call", .op '(']) (nl' := false) (by decide +kernel))
    have k1 := ((a3.append b1).append f1).append c1
    have k2 := ((k1.appendW d).append (delim (by decide +kernel)) c2).append c3
    unfold methodText
    simp only [if_neg hr]
    simpa [GenMethod.go, genMethod, he, Gen.range, rangeFrom, rangeText, word_w] using k2

/-- A target whose names are names. -/
structure NamedTarget (t : AstTarget) : Prop where
  name : IsName t.name.toList
  methods : ∀ m ∈ t.methods, NamedMethod m

theorem lower_wordChar {c : Char} (h : wordChar c = true) : wordChar c.toLower = true := by
  unfold Char.toLower
  split
  · rename_i hu
    have h1 : 65 ≤ c.toNat := UInt32.le_iff_toNat_le.mp hu.1
    have h2 : c.toNat ≤ 90 := UInt32.le_iff_toNat_le.mp hu.2
    have h3 : ∀ n, n < 91 → 65 ≤ n → wordChar (Char.ofNat n).toLower = true := by decide +kernel
    have h4 := h3 c.toNat (by omega) h1
    rw [Char.ofNat_toNat] at h4
    unfold Char.toLower at h4
    rw [dif_pos hu] at h4
    exact h4
  · exact h

/-- The name of a proxy is a name. -/
theorem proxy_name {t : AstTarget} (h : IsName t.name.toList) : IsName (proxyName t) := by
  have hp : proxyName t = lower t.name.toList ++ "proxy".toList := by
    unfold proxyName lower
    rw [List.map_append]
    congr 1
  rw [hp]
  refine ⟨by simp, fun c hc => ?_, fun hm => ?_⟩
  · rcases List.mem_append.mp hc with hc | hc
    · obtain ⟨d, hd, rfl⟩ := List.mem_map.mp hc
      exact lower_wordChar (h.2.1 d hd)
    · exact (show ∀ c ∈ "proxy".toList, wordChar c = true by decide +kernel) c hc
  · have : ∀ k ∈ keywords, ("proxy".toList.isSuffixOf k) = false := by decide +kernel
    have h1 := this _ hm
    rw [← Bool.not_eq_true, List.isSuffixOf_iff_suffix] at h1
    exact h1 (List.suffix_append _ _)

theorem putMethod_mem {m x : AstMethod} : ∀ {l : List AstMethod}, x ∈ putMethod m l → x = m ∨ x ∈ l := by
  intro l
  induction l with
  | nil => intro h; simpa [putMethod] using h
  | cons y l ih =>
    intro h
    simp only [putMethod] at h
    split at h
    · rcases List.mem_cons.mp h with h | h
      · exact Or.inl h
      · exact Or.inr (List.mem_cons_of_mem _ h)
    · split at h
      · exact List.mem_cons.mp h
      · rcases List.mem_cons.mp h with h | h
        · exact Or.inr (by rw [h]; exact List.mem_cons_self)
        · rcases ih h with h | h
          · exact Or.inl h
          · exact Or.inr (List.mem_cons_of_mem _ h)

theorem methodMap_mem {x : AstMethod} (ms : List AstMethod) (h : x ∈ methodMap ms) : x ∈ ms := by
  have : ∀ (ms l : List AstMethod), x ∈ ms.foldl (fun l m => putMethod m l) l → x ∈ ms ∨ x ∈ l := by
    intro ms
    induction ms with
    | nil => intro l h; exact Or.inr h
    | cons m ms ih =>
      intro l h
      rcases ih _ h with h | h
      · exact Or.inl (List.mem_cons_of_mem _ h)
      · rcases putMethod_mem h with rfl | h
        · exact Or.inl List.mem_cons_self
        · exact Or.inr h
  simpa using this ms [] h

theorem lexes_flatMap {α : Type} (f : α → List Char) (g : α → List T) (l : List α) (h : ∀ x ∈ l, Lexes false (f x) (g x) false) :
    Lexes false (l.flatMap f) (l.flatMap g) false := by
  induction l with
  | nil => exact Lexes.nil false
  | cons x l ih =>
    rw [List.flatMap_cons, List.flatMap_cons]
    exact (h x List.mem_cons_self).append (ih fun y hy => h y (List.mem_cons_of_mem _ hy))

theorem name_line {s : List Char} (h : IsName s) : '\n' ∉ s := by
  intro hm
  have := h.2.1 _ hm
  revert this
  decide +kernel

/-- The text of a target. -/
theorem lexes_target (t : List Char × AstTarget) (h : NamedTarget t.2) (hs : '\n' ∉ t.1) :
    Lexes false (targetText t) (Proxy.go ⟨t.1, t.2.name, proxyName t.2, (methodMap t.2.methods).map (genMethod t.2.name)⟩) false := by
  have hp := proxy_name h.name
  have a0 : Lexes false "\n".toList [] false := lit (by decide +kernel)
  have a1 : Lexes false ("// ".toList ++ (escape t.2.name.toList ++ " from: ".toList ++ escape t.1) ++ "\n".toList) [] false := by
    refine lexes_comment ?_
    rw [List.mem_append, List.mem_append]
    rintro ((h1 | h1) | h1)
    · exact escape_line (name_line h.name) h1
    · revert h1; decide +kernel
    · exact escape_line hs h1
  have a2 := (((a0.append a1).append (lit (nl := false) (s := "type ".toList) (ts := [w "type"]) (nl' := false) (by decide +kernel))).appendW
    (lexes_name hp false)).append (delim (by decide +kernel)) (lit (nl := true) (s := " struct {\n\tslot ferry.ISlot\n}\n\n".toList)
      (ts := [w "struct", .op '{', w "slot", w "ferry", .op '.', w "ISlot", .semi, .op '}', .semi]) (nl' := false) (by decide +kernel))
  have a3 := lexes_flatMap (methodText t.2.name.toList (proxyName t.2)) (fun m => (genMethod t.2.name m).go (proxyName t.2))
    (methodMap t.2.methods) (fun m hm => lexes_method _ _ h.name hp m (h.methods m (methodMap_mem _ hm)))
  have a4 : Lexes false ("// ".toList ++ ("end ".toList ++ escape t.2.name.toList) ++ "\n".toList) [] false := by
    refine lexes_comment ?_
    rw [List.mem_append]
    rintro (h1 | h1)
    · revert h1; decide +kernel
    · exact escape_line (name_line h.name) h1
  have a5 := ((a2.append a3).append a0).append a4
  unfold targetText
  simpa [Proxy.go, List.flatMap_map] using a5

theorem lexes_register (t : List Char × AstTarget) (h : NamedTarget t.2) :
    Lexes false (registerText t) (registerGo (t.2.name, proxyName t.2)) false := by
  have a := ((((lit (nl := false) (s := "ferry.Register(".toList) (ts := [w "ferry", .op '.', w "Register", .op '(']) (nl' := false)
    (by decide +kernel)).append (lexes_quoted h.name false)).append
    (lit (nl := true) (s := ", func(slot ferry.ISlot) interface{} { return &".toList)
      (ts := [.op ',', w "func", .op '(', w "slot", w "ferry", .op '.', w "ISlot", .op ')', w "interface", .op '{', .op '}', .op '{', w "return",
        .op '&']) (nl' := false) (by decide +kernel))).appendW (lexes_name (proxy_name h.name) false)).append (delim (by decide +kernel))
    (lit (nl := true) (s := "{slot: slot} })\n".toList)
      (ts := [.op '{', w "slot", .op ':', w "slot", .op '}', .op '}', .op ')', .semi]) (nl' := false) (by decide +kernel))
  unfold registerText
  simpa [registerGo] using a

/-- C154, for file names without line breaks: the characters that the template produces, with all names inserted and escaped as
`html/template` does, are read by the scanner of Go as the tokens of the model on which C71, C78, C95, C96, C136, C137 and C138 are
proved, no more and no fewer, with semicolons where lines end; whatever the date and the names of the source files are.
Full statement: the same for all names of source files. -/
theorem C154_text_partial (date : List Char) (targets : List (List Char × AstTarget)) (hd : '\n' ∉ date)
    (hn : ∀ t ∈ targets, NamedTarget t.2) (hs : ∀ t ∈ targets, '\n' ∉ t.1) :
    tokens (fileText date targets) = (genProxyCode targets).go := by
  have a0 : Lexes false ("\n//\n// This code was generated by ferry tool.\n// \n// Changes to this file may cause incorrect behavior and will be lost" ++
    " if the code is regenerated.\n// \n").toList [] false := lit (by decide +kernel)
  have a1 := lexes_comment (escape_line hd)
  have a2 : Lexes false "//\n\npackage main\n\nimport (\n\t\"github.com/muguangyi/ferry\"\n)\n\n".toList
    [w "package", w "main", .semi, w "import", .op '(', .str "github.com/muguangyi/ferry".toList, .semi, .op ')', .semi] false :=
    lit (by decide +kernel)
  have a3 := lexes_flatMap targetText (fun t => Proxy.go ⟨t.1, t.2.name, proxyName t.2, (methodMap t.2.methods).map (genMethod t.2.name)⟩)
    targets (fun t ht => lexes_target t (hn t ht) (hs t ht))
  have a4 : Lexes false "\n\n// Register to ferry\nfunc init() {\n".toList [w "func", w "init", .op '(', .op ')', .op '{'] false :=
    lit (by decide +kernel)
  have a5 := lexes_flatMap registerText (fun t => registerGo (t.2.name, proxyName t.2)) targets (fun t ht => lexes_register t (hn t ht))
  have a6 : Lexes false "\n}\n".toList [.op '}', .semi] false := lit (by decide +kernel)
  have b := (((((a0.append a1).append a2).append a3).append a4).append a5).append a6
  have c : Lexes false (fileText date targets) (genProxyCode targets).go false := by
    unfold fileText
    rw [show ("\n//\n// This code was generated by ferry tool.\n// \n// Changes to this file may cause incorrect behavior and will be lost" ++
      " if the code is regenerated.\n// \n// ").toList = ("\n//\n// This code was generated by ferry tool.\n// \n// Changes to this file may cause incorrect behavior and will be lost" ++
      " if the code is regenerated.\n// \n").toList ++ "// ".toList from by decide +kernel,
      show "\n//\n\npackage main\n\nimport (\n\t\"github.com/muguangyi/ferry\"\n)\n\n".toList =
        "\n".toList ++ "//\n\npackage main\n\nimport (\n\t\"github.com/muguangyi/ferry\"\n)\n\n".toList from by decide +kernel]
    simpa only [Output.go, genProxyCode, List.flatMap_map, List.append_assoc, List.nil_append] using b
  unfold Lexes at c
  simp only [tokens, c, finish, newline]
  simp

/-- C154 fails for other file names: the name of the file is written into a comment of one line.  A file whose name contains a line break
adds a declaration to the program. -/
theorem C154_filename_refuted : ∃ file targets, ignore file = false ∧ scanFile ⟨file, some [.types [.iface "IMath" []]]⟩ = .ok targets ∧
    (∀ t ∈ targets, NamedTarget t.2) ∧
    tokens (fileText "2019-01-02 15:04:05".toList targets) ≠ (genProxyCode targets).go ∧
    [w "var", w "x", w "int", .semi] <:+: tokens (fileText "2019-01-02 15:04:05".toList targets) := by
  refine ⟨"math\nvar x int //.go".toList, [("math\nvar x int //.go".toList, ⟨"IMath", []⟩)], by decide +kernel, by decide +kernel, ?_, by decide +kernel, ?_⟩
  · intro t ht
    simp only [List.mem_singleton] at ht
    subst ht
    exact ⟨⟨by decide +kernel, by decide +kernel, by decide +kernel⟩, by simp⟩
  · exact ⟨(tokens (fileText "2019-01-02 15:04:05".toList [("math\nvar x int //.go".toList, ⟨"IMath", []⟩)])).take 9,
      (tokens (fileText "2019-01-02 15:04:05".toList [("math\nvar x int //.go".toList, ⟨"IMath", []⟩)])).drop 13, by decide +kernel⟩

/-- An interface with two methods, in a file whose name contains characters that are escaped. -/
example : ∃ targets, scanFile ⟨"a&b/math'.go".toList, some [.types [.iface "IMath" [.method "Add" [⟨["x"], .ident "int"⟩, ⟨["y"], .ident "int"⟩]
      [⟨[], .ident "int"⟩, ⟨[], .ident "bool"⟩], .method "Zap" [] []]]]⟩ = .ok targets ∧
    (∀ t ∈ targets, NamedTarget t.2) ∧ (∀ t ∈ targets, '\n' ∉ t.1) ∧ 90 < (genProxyCode targets).go.length := by
  refine ⟨[("a&b/math'.go".toList, ⟨"IMath", [⟨"Add", [("x", "int"), ("y", "int")], [("", "int"), ("", "bool")]⟩, ⟨"Zap", [], []⟩]⟩)],
    by decide +kernel, ?_, by decide +kernel, by decide +kernel⟩
  intro t ht
  simp only [List.mem_singleton] at ht
  subst ht
  refine ⟨⟨by decide +kernel, by decide +kernel, by decide +kernel⟩, ?_⟩
  intro m hm
  simp only [List.mem_cons, List.not_mem_nil, or_false] at hm
  rcases hm with rfl | rfl <;> exact ⟨⟨by decide +kernel, by decide +kernel, by decide +kernel⟩, by decide +kernel, by decide +kernel⟩

end Verif.Props
