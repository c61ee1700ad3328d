import Verif.Gen.Files
import Verif.Props.Gen1

/-! # C95 to C97: the files of the proxy generator -/

namespace Verif.Props

open Verif Verif.Gen

/-! ## Which files are read -/

theorem contains_iff (s sub : List Char) : contains s sub = true ↔ sub <:+: s := by
  induction s with
  | nil =>
    simp only [contains, List.isPrefixOf_iff_prefix, List.prefix_nil]
    exact List.infix_nil.symm
  | cons c s ih =>
    simp only [contains, Bool.or_eq_true, ih, List.isPrefixOf_iff_prefix]
    exact List.infix_cons_iff.symm

theorem extRev_go (l acc : List Char) : extRev l acc = '.' :: 'g' :: 'o' :: [] →
    (acc = ['g', 'o'] ∧ l.head? = some '.') ∨ (acc = ['o'] ∧ l.take 2 = ['g', '.']) ∨
    (acc = [] ∧ l.take 3 = ['o', 'g', '.']) := by
  induction l generalizing acc with
  | nil => intro h; simp [extRev] at h
  | cons c l ih =>
    intro h
    simp only [extRev] at h
    split at h
    · cases h
    · split at h
      · rename_i hc; subst hc
        simp only [List.cons.injEq, true_and] at h
        left; exact ⟨h, rfl⟩
      · rcases ih _ h with ⟨h1, h2⟩ | ⟨h1, h2⟩ | ⟨h1, _⟩
        · simp only [List.cons.injEq] at h1
          obtain ⟨rfl, rfl⟩ := h1
          cases l with
          | nil => cases h2
          | cons d l => simp at h2; subst h2; right; left; simp
        · simp only [List.cons.injEq] at h1
          obtain ⟨rfl, rfl⟩ := h1
          right; right
          simp [h2]
        · cases h1

theorem ext_go (path : List Char) : ext path = cFileExt ↔ cFileExt <:+ path := by
  have e : cFileExt = ['.', 'g', 'o'] := by decide
  rw [e]
  constructor
  · intro h
    rcases extRev_go _ _ h with ⟨h, _⟩ | ⟨h, _⟩ | ⟨_, h⟩
    · cases h
    · cases h
    · refine List.reverse_prefix.mp ?_
      rw [show ['.', 'g', 'o'].reverse = path.reverse.take 3 from h.symm]
      exact List.take_prefix _ _
  · rintro ⟨pre, rfl⟩
    simp [ext, extRev]

/-- C97, first part: the files that are read are those whose names end in `.go` and whose paths do not contain
`proxy.gen.go`. -/
theorem C97_scanned_partial (path : List Char) :
    ignore path = false ↔ (∃ pre, path = pre ++ ".go".toList) ∧ ¬ ∃ a b, path = a ++ "proxy.gen.go".toList ++ b := by
  unfold ignore
  have h1 : (∃ pre, path = pre ++ ".go".toList) ↔ ext path = cFileExt := by
    rw [ext_go]
    exact ⟨fun ⟨pre, h⟩ => ⟨pre, h.symm⟩, fun ⟨pre, h⟩ => ⟨pre, h.symm⟩⟩
  have h2 : (∃ a b, path = a ++ "proxy.gen.go".toList ++ b) ↔ contains path cGenFile = true := by
    rw [contains_iff]
    exact ⟨fun ⟨a, b, h⟩ => ⟨a, b, h.symm⟩, fun ⟨a, b, h⟩ => ⟨a, b, h.symm⟩⟩
  rw [h1, h2]
  by_cases h : ext path = cFileExt
  · rw [if_neg (by simp [h]), eq_true h]; simp
  · rw [if_pos (Ne.symm h)]; simp [h]

example : ignore "sub/math.go".toList = false ∧ ignore "math.golang".toList = true ∧ ignore "a.go/README".toList = true ∧
    ignore "sub/proxy.gen.go".toList = true := by decide

/-! ## C95: Every interface gets a proxy -/

/-- The interfaces declared in a declaration. -/
def ifaces : Decl → List String
  | .types specs => specs.filterMap fun
    | .iface n _ => some n
    | .other _ => none
  | .other => []

/-- The same for declarations that are not groups. -/
def singleIfaces : Decl → List String
  | .types [s] => ifaces (.types [s])
  | _ => []

/-- A Go file whose path does not contain the name of the output. -/
def isGoFile (path : List Char) : Prop :=
  ['.', 'g', 'o'] <:+ path ∧ ¬ ['p', 'r', 'o', 'x', 'y', '.', 'g', 'e', 'n', '.', 'g', 'o'] <:+: path

instance (path : List Char) : Decidable (isGoFile path) := inferInstanceAs (Decidable (_ ∧ _))

theorem isGoFile_iff (path : List Char) : isGoFile path ↔ ignore path = false := by
  rw [C97_scanned_partial]
  exact and_congr ⟨fun ⟨pre, h⟩ => ⟨pre, h.symm⟩, fun ⟨pre, h⟩ => ⟨pre, h.symm⟩⟩
    (not_congr ⟨fun ⟨a, b, h⟩ => ⟨a, b, h.symm⟩, fun ⟨a, b, h⟩ => ⟨a, b, h.symm⟩⟩)

/-- The files of a walk that the generator is to read. -/
def goFiles (walk : List Entry) : List File :=
  walk.filterMap fun
    | .file f => if isGoFile f.path then some f else none
    | _ => none

theorem goFiles_skip {f : File} (es : List Entry) (h : ignore f.path = true) :
    goFiles (.file f :: es) = goFiles es := by
  have : ¬ isGoFile f.path := by rw [isGoFile_iff]; simp [h]
  simp [goFiles, this]

theorem goFiles_read {f : File} (es : List Entry) (h : ¬ ignore f.path = true) :
    goFiles (.file f :: es) = f :: goFiles es := by
  have : isGoFile f.path := by rw [isGoFile_iff]; simpa using h
  simp [goFiles, this]

/-- The interfaces in these files, in their order. -/
def allIfaces (g : Decl → List String) (walk : List Entry) : List String :=
  (goFiles walk).flatMap fun f => (f.decls.getD []).flatMap g

/-- The part of the walk before the first error. -/
def untilError (walk : List Entry) : List Entry := walk.takeWhile (· ≠ .failed)

theorem scanDecls_names : ∀ (ds : List Decl) (ts : List AstTarget), scanDecls ds = .ok ts →
    ts.map (·.name) = ds.flatMap singleIfaces := by
  intro ds
  induction ds with
  | nil => intro ts h; cases h; rfl
  | cons d ds ih =>
    intro ts h
    simp only [scanDecls] at h
    cases hd : parseDecl d with
    | ok t =>
      rw [hd] at h
      simp only [Res.bind_ok] at h
      cases hs : scanDecls ds with
      | ok us =>
        rw [hs] at h
        have hi := ih us hs
        match d, hd with
        | .other, hd => cases hd; cases h; simpa [singleIfaces] using hi
        | .types [], hd => cases hd
        | .types (_ :: _ :: _), hd => cases hd; cases h; simpa [singleIfaces] using hi
        | .types [.other _], hd => cases hd; cases h; simpa [singleIfaces, ifaces] using hi
        | .types [.iface n ms], hd =>
          cases t with
          | none =>
            simp only [parseDecl] at hd
            cases hp : parseAll parseMember ms <;> rw [hp] at hd <;> cases hd
          | some t =>
            cases h
            have := (parseDecl_ok hd).1
            simpa [singleIfaces, ifaces, this] using hi
      | _ => rw [hs] at h; cases h
    | _ => rw [hd] at h; cases h

theorem scanAll_names : ∀ (walk : List Entry) (ts : List (List Char × AstTarget)), scanAll walk = .ok ts →
    ts.map (·.2.name) = allIfaces singleIfaces (untilError walk) := by
  intro walk
  induction walk with
  | nil => intro ts h; cases h; rfl
  | cons e es ih =>
    intro ts h
    cases e with
    | failed => cases h; rfl
    | dir p => exact ih ts h
    | file f =>
      have hu : untilError (.file f :: es) = .file f :: untilError es := by simp [untilError]
      rw [hu]
      simp only [scanAll] at h
      split at h
      · rename_i hi
        simpa only [allIfaces, goFiles_skip _ hi] using ih ts h
      · rename_i hi
        simp only [scanFile] at h
        cases hd : f.decls with
        | none => rw [hd] at h; cases h
        | some ds =>
          rw [hd] at h
          simp only at h
          cases hs : scanDecls ds with
          | ok us =>
            rw [hs] at h
            simp only [Res.bind_ok] at h
            cases ha : scanAll es with
            | ok vs =>
              rw [ha] at h
              cases h
              have h1 := scanDecls_names ds us hs
              have h2 := ih vs ha
              simp only [allIfaces, goFiles_read _ hi] at h2 ⊢
              simp [hd, ← h1, ← h2, Function.comp_def]
            | _ => rw [ha] at h; cases h
          | _ => rw [hs] at h; cases h

theorem generate_ok {walk : List Entry} {old : Option Output} {o : Option Output} (h : generate walk old = .ok o) :
    ∃ ts, scanAll walk = .ok ts ∧ o = if 0 < ts.length then some (genProxyCode ts) else old := by
  unfold generate at h
  cases ha : scanAll walk with
  | ok ts =>
    rw [ha] at h
    refine ⟨ts, rfl, ?_⟩
    simp only [Res.bind_ok] at h
    split at h
    · rename_i hl; cases h; rw [if_pos hl]
    · rename_i hl; cases h; rw [if_neg hl]
  | _ => rw [ha] at h; cases h

/-- C95 (partial): when the generator gets through and finds an interface at all, the interfaces for which it writes a
proxy and those it registers are, each once and in order, the interfaces of the files read whose declaration is not in a
group.  Missing: groups and walks with errors, see `C95_grouped_refuted` and `C95_unreadable_refuted`. -/
theorem C95_exact_partial (walk : List Entry) (old o : Option Output) (h : generate walk old = .ok o)
    (hn : allIfaces singleIfaces (untilError walk) ≠ []) :
    ∃ out, o = some out ∧ out.proxies.map (·.interface) = allIfaces singleIfaces (untilError walk) ∧
      out.registered.map (·.1) = allIfaces singleIfaces (untilError walk) ∧
      out.registered.map (·.2) = out.proxies.map (·.type) := by
  obtain ⟨ts, h1, h2⟩ := generate_ok h
  have h3 := scanAll_names walk ts h1
  have hl : 0 < ts.length := by
    cases ts with
    | nil => exact absurd h3.symm hn
    | cons => simp
  rw [if_pos hl] at h2
  refine ⟨_, h2, ?_, ?_, ?_⟩
  · rw [← h3]; simp [genProxyCode, Function.comp_def]
  · rw [← h3]; simp [genProxyCode, Function.comp_def]
  · simp [genProxyCode, Function.comp_def]

theorem flatMap_congr_mem {α β : Type} {f g : α → List β} : ∀ {l : List α}, (∀ x ∈ l, f x = g x) →
    l.flatMap f = l.flatMap g := by
  intro l
  induction l with
  | nil => intro _; rfl
  | cons a l ih =>
    intro h
    rw [List.flatMap_cons, List.flatMap_cons, h a (List.mem_cons_self ..), ih fun x hx => h x (List.mem_cons_of_mem _ hx)]

theorem allIfaces_single (walk : List Entry) (hg : ∀ f, .file f ∈ walk → ∀ ds, f.decls = some ds →
    ∀ specs, .types specs ∈ ds → specs.length ≤ 1) : allIfaces singleIfaces walk = allIfaces ifaces walk := by
  unfold allIfaces
  have key : ∀ f ∈ goFiles walk, (f.decls.getD []).flatMap singleIfaces = (f.decls.getD []).flatMap ifaces := by
    intro f hf
    have hm : Entry.file f ∈ walk := by
      obtain ⟨e, he, hx⟩ := List.mem_filterMap.mp hf
      cases e with
      | file f' =>
        simp only at hx
        split at hx
        · cases hx; exact he
        · cases hx
      | _ => cases hx
    cases hd : f.decls with
    | none => rfl
    | some ds =>
      refine flatMap_congr_mem fun d hdm => ?_
      match d with
      | .other => rfl
      | .types [] => rfl
      | .types [_] => rfl
      | .types (a :: b :: l) =>
        have := hg f hm ds hd _ hdm
        simp at this
  exact flatMap_congr_mem key

/-- C95 (partial): with no groups and no errors of the walk, all interfaces of the Go files are served. -/
theorem C95_all_partial (walk : List Entry) (old o : Option Output) (h : generate walk old = .ok o)
    (he : .failed ∉ walk) (hg : ∀ f, .file f ∈ walk → ∀ ds, f.decls = some ds →
      ∀ specs, .types specs ∈ ds → specs.length ≤ 1) (hn : allIfaces ifaces walk ≠ []) :
    ∃ out, o = some out ∧ out.proxies.map (·.interface) = allIfaces ifaces walk ∧
      out.registered.map (·.1) = allIfaces ifaces walk := by
  have hu : untilError walk = walk := by
    clear h hg hn
    unfold untilError
    induction walk with
    | nil => rfl
    | cons e es ih =>
      simp only [List.mem_cons, not_or] at he
      rw [List.takeWhile_cons_of_pos (by simpa using Ne.symm he.1), ih he.2]
  have hs := allIfaces_single walk hg
  obtain ⟨out, h1, h2, h3, _⟩ := C95_exact_partial walk old o h (by rw [hu, hs]; exact hn)
  rw [hu, hs] at h2 h3
  exact ⟨out, h1, h2, h3⟩

theorem putMethod_perm (m : AstMethod) : ∀ l : List AstMethod, m.name ∉ l.map (·.name) →
    (putMethod m l).Perm (m :: l) := by
  intro l
  induction l with
  | nil => intro _; exact .refl _
  | cons x xs ih =>
    intro h
    simp only [List.map_cons, List.mem_cons, not_or] at h
    simp only [putMethod, if_neg h.1]
    split
    · exact .refl _
    · exact ((ih h.2).cons x).trans (.swap m x xs)

theorem methodMap_perm (ms : List AstMethod) (h : (ms.map (·.name)).Nodup) : (methodMap ms).Perm ms := by
  have key : ∀ (ms acc : List AstMethod), ((acc ++ ms).map (·.name)).Nodup →
      (ms.foldl (fun l m => putMethod m l) acc).Perm (acc ++ ms) := by
    intro ms
    induction ms with
    | nil => intro acc _; simp
    | cons m ms ih =>
      intro acc hn
      have hp : (acc ++ m :: ms).Perm (m :: acc ++ ms) := List.perm_middle
      have hn' := (hp.map (·.name)).nodup_iff.mp hn
      have hm : m.name ∉ acc.map (·.name) := by
        intro hx
        simp only [List.cons_append, List.map_cons, List.nodup_cons, List.map_append, List.mem_append] at hn'
        exact hn'.1 (.inl hx)
      have hq := putMethod_perm m acc hm
      have h3 := ih (putMethod m acc) (((hq.append_right ms).map (·.name)).nodup_iff.mpr hn')
      exact h3.trans ((hq.append_right ms).trans hp.symm)
  simpa [methodMap] using key ms [] (by simpa using h)

theorem scanDecls_mem : ∀ (ds : List Decl) (ts : List AstTarget), scanDecls ds = .ok ts → ∀ n ms,
    .types [.iface n ms] ∈ ds → ∃ t ∈ ts, parseDecl (.types [.iface n ms]) = .ok (some t) := by
  intro ds
  induction ds with
  | nil => intro ts _ n ms hm; cases hm
  | cons d ds ih =>
    intro ts h n ms hm
    simp only [scanDecls] at h
    cases hd : parseDecl d with
    | ok t =>
      rw [hd] at h
      simp only [Res.bind_ok] at h
      cases hs : scanDecls ds with
      | ok us =>
        rw [hs] at h
        rcases List.mem_cons.mp hm with rfl | hm
        · cases t with
          | none =>
            simp only [parseDecl] at hd
            cases hp : parseAll parseMember ms <;> rw [hp] at hd <;> cases hd
          | some t => cases h; exact ⟨t, List.mem_cons_self .., hd⟩
        · obtain ⟨u, hu, hx⟩ := ih us hs n ms hm
          cases t <;> cases h
          · exact ⟨u, hu, hx⟩
          · exact ⟨u, List.mem_cons_of_mem _ hu, hx⟩
      | _ => rw [hs] at h; cases h
    | _ => rw [hd] at h; cases h

theorem scanAll_mem : ∀ (walk : List Entry) (ts : List (List Char × AstTarget)), scanAll walk = .ok ts →
    ∀ f ∈ goFiles (untilError walk), ∃ ds us, f.decls = some ds ∧ scanDecls ds = .ok us ∧
      ∀ u ∈ us, (f.path, u) ∈ ts := by
  intro walk
  induction walk with
  | nil => intro ts _ f hf; cases hf
  | cons e es ih =>
    intro ts h f hf
    cases e with
    | failed => cases hf
    | dir p => exact ih ts h f hf
    | file g =>
      have hu : untilError (.file g :: es) = .file g :: untilError es := by simp [untilError]
      rw [hu] at hf
      simp only [scanAll] at h
      split at h
      · rename_i hi
        exact ih ts h f (by simpa only [goFiles_skip _ hi] using hf)
      · rename_i hi
        have hf : f = g ∨ f ∈ goFiles (untilError es) := by
          rw [goFiles_read _ hi] at hf
          exact List.mem_cons.mp hf
        simp only [scanFile] at h
        cases hd : g.decls with
        | none => rw [hd] at h; cases h
        | some ds =>
          rw [hd] at h
          simp only at h
          cases hs : scanDecls ds with
          | ok us =>
            rw [hs] at h
            simp only [Res.bind_ok] at h
            cases ha : scanAll es with
            | ok vs =>
              rw [ha] at h
              cases h
              rcases hf with rfl | hf
              · exact ⟨ds, us, hd, hs, fun u hu => List.mem_append_left _ (List.mem_map.mpr ⟨u, hu, rfl⟩)⟩
              · obtain ⟨ds', us', h1, h2, h3⟩ := ih vs ha f hf
                exact ⟨ds', us', h1, h2, fun u hu => List.mem_append_right _ (h3 u hu)⟩
            | _ => rw [ha] at h; cases h
          | _ => rw [hs] at h; cases h

/-- C95 (partial): the proxy of an interface names its file and, if the methods have different names as Go demands, has
exactly the methods of the interface. -/
theorem C95_methods_partial (walk : List Entry) (old o : Option Output) (h : generate walk old = .ok o)
    (f : File) (hf : f ∈ goFiles (untilError walk)) (ds : List Decl) (hds : f.decls = some ds) (n : String)
    (ms : List Member) (hm : .types [.iface n ms] ∈ ds)
    (hn : (ms.filterMap fun | .method k _ _ => some k | .embedded => none).Nodup) :
    ∃ out p, o = some out ∧ p ∈ out.proxies ∧ p.interface = n ∧ p.source = f.path ∧
      (p.methods.map (·.name)).Perm (ms.filterMap fun | .method k _ _ => some k | .embedded => none) := by
  obtain ⟨ts, h1, h2⟩ := generate_ok h
  obtain ⟨ds', us, h3, h4, h5⟩ := scanAll_mem walk ts h1 f hf
  rw [hds] at h3; cases h3
  obtain ⟨t, ht, hp⟩ := scanDecls_mem ds us h4 n ms hm
  have hmem := h5 t ht
  rw [if_pos (List.length_pos_of_mem hmem)] at h2
  have hname := (parseDecl_ok hp).1
  have hnames : t.methods.map (·.name) = ms.filterMap fun | .method k _ _ => some k | .embedded => none := by
    have hall : parseAll parseMember ms = .ok t.methods := (parseDecl_ok hp).2
    clear hp hm hn
    generalize t.methods = ys at hall
    induction ms generalizing ys with
    | nil => cases hall; rfl
    | cons m ms ih =>
      simp only [parseAll] at hall
      cases m with
      | embedded => cases hall
      | method k ps rs =>
        cases hq : parseMember (.method k ps rs) with
        | ok y =>
          rw [hq] at hall
          simp only [Res.bind_ok] at hall
          cases hr : parseAll parseMember ms with
          | ok zs =>
            rw [hr] at hall
            cases hall
            simp [ih zs hr, (parseMember_ok hq).1]
          | _ => rw [hr] at hall; cases hall
        | _ => rw [hq] at hall; cases hall
  refine ⟨_, _, h2, List.mem_map.mpr ⟨_, hmem, rfl⟩, hname, rfl, ?_⟩
  rw [← hnames] at hn ⊢
  simpa [Function.comp_def, genMethod] using (methodMap_perm t.methods hn).map (·.name)

/-- Two files with one interface each, a type that is none, a directory, and a generated file from before. -/
def genWalk : List Entry :=
  [.dir ".".toList,
   .file ⟨"game.go".toList, some [.other, .types [.iface "IGame" [.method "Stop" [] [],
      .method "Start" [⟨["level"], .ident "string"⟩] []]]]⟩,
   .file ⟨"math.go".toList, some [.types [.other "math"], .types [.iface "IMath"
      [.method "Add" [⟨["x"], .ident "float64"⟩, ⟨["y"], .ident "float64"⟩] [⟨[], .ident "float64"⟩]]]]⟩,
   .file ⟨"proxy.gen.go".toList, some [.other, .types [.other "imathproxy"]]⟩]

example : (∃ o, generate genWalk none = .ok (some o) ∧
      o.registered = [("IGame", "igameproxy".toList), ("IMath", "imathproxy".toList)] ∧
      o.proxies.map (·.methods.map (·.name)) = [["Start", "Stop"], ["Add"]]) ∧
    allIfaces singleIfaces (untilError genWalk) = ["IGame", "IMath"] ∧ allIfaces ifaces genWalk = ["IGame", "IMath"] ∧
    .failed ∉ genWalk :=
  ⟨⟨_, rfl, by decide +kernel, by decide +kernel⟩, by decide +kernel, by decide +kernel, by decide +kernel⟩

/-- C95 (refuted): the interfaces of a group of type declarations are passed over in silence. -/
theorem C95_grouped_refuted : ∃ walk, generate walk none = .ok none ∧ .failed ∉ walk ∧
    allIfaces ifaces walk = ["IGame", "IMath"] :=
  ⟨[.file ⟨"game.go".toList, some [.types [.iface "IGame" [], .iface "IMath" []]]⟩], rfl, by decide, by decide +kernel⟩

/-- C95 (refuted): an error of the walk, for instance a directory that cannot be read, ends it in silence, and a file is
written without the interfaces that come later. -/
theorem C95_unreadable_refuted : ∃ walk out, generate walk none = .ok (some out) ∧
    out.registered.map (·.1) = ["IGame"] ∧ allIfaces ifaces walk = ["IGame", "IMath"] :=
  ⟨[.file ⟨"game.go".toList, some [.types [.iface "IGame" []]]⟩, .dir "lib".toList, .failed,
    .file ⟨"math.go".toList, some [.types [.iface "IMath" []]]⟩], _, rfl, rfl, by decide +kernel⟩

/-! ## C96: Proxy types do not clash -/

theorem lower_inj_append (a b : List Char) (h : lower (a ++ "proxy".toList) = lower (b ++ "proxy".toList)) :
    lower a = lower b := by
  unfold lower at h ⊢
  rw [List.map_append, List.map_append] at h
  exact List.append_cancel_right h

/-- C96 (partial): if the names of the interfaces, in lower case, are all different, the generated types have different
names.  Missing: names that differ in case only, and interfaces of the same name in different directories, see
`C96_clash_refuted`. -/
theorem C96_distinct_partial (walk : List Entry) (old o : Option Output) (h : generate walk old = .ok o)
    (hn : allIfaces singleIfaces (untilError walk) ≠ [])
    (hd : ((allIfaces singleIfaces (untilError walk)).map fun n => n.toList.map Char.toLower).Nodup) :
    ∃ out, o = some out ∧ (out.proxies.map (·.type)).Nodup ∧ (out.registered.map (·.1)).Nodup := by
  obtain ⟨ts, h1, h2⟩ := generate_ok h
  have h3 := scanAll_names walk ts h1
  have hl : 0 < ts.length := by
    cases ts with
    | nil => exact absurd h3.symm hn
    | cons => simp
  rw [if_pos hl] at h2
  rw [← h3, List.map_map] at hd
  refine ⟨_, h2, ?_, ?_⟩
  · simp only [genProxyCode, List.map_map]
    refine List.pairwise_map.mpr ((List.pairwise_map.mp hd).imp ?_)
    intro a b hne he
    exact hne (lower_inj_append _ _ he)
  · simp only [genProxyCode, List.map_map]
    refine List.pairwise_map.mpr ((List.pairwise_map.mp hd).imp ?_)
    intro a b hne he
    exact hne (congrArg (fun n : String => n.toList.map Char.toLower) he)

example : ((allIfaces singleIfaces (untilError genWalk)).map fun n => n.toList.map Char.toLower).Nodup := by decide +kernel

/-- C96 (refuted): names that differ in case only get the same type, and so do interfaces of the same name in different
directories; in the latter case `Register` is called twice with the same name as well.  The generated file does not
compile, since it declares a type twice. -/
theorem C96_clash_refuted :
    (∃ out, generate [.file ⟨"a.go".toList, some [.types [.iface "IMath" []], .types [.iface "Imath" []]]⟩] none =
        .ok (some out) ∧ out.proxies.map (·.type) = ["imathproxy".toList, "imathproxy".toList]) ∧
    ∃ out, generate [.file ⟨"a/x.go".toList, some [.types [.iface "IMath" []]]⟩,
        .file ⟨"b/x.go".toList, some [.types [.iface "IMath" []]]⟩] none = .ok (some out) ∧
      out.registered = [("IMath", "imathproxy".toList), ("IMath", "imathproxy".toList)] :=
  ⟨⟨_, rfl, rfl⟩, ⟨_, rfl, rfl⟩⟩

/-! ## C97: Generating again changes nothing -/

/-- C97, second part (partial): what has been generated is the same when the generator runs again, whatever the
generated file, which is now among the files, contains.  The generated file may be anywhere in the order of the files. -/
theorem C97_again_partial (pre post : List Entry) (decls : Option (List Decl)) (old o : Option Output)
    (h : generate (pre ++ post) old = .ok o) :
    generate (pre ++ .file ⟨"proxy.gen.go".toList, decls⟩ :: post) o = .ok o := by
  have hs : scanAll (pre ++ .file ⟨"proxy.gen.go".toList, decls⟩ :: post) = scanAll (pre ++ post) := by
    clear h
    induction pre with
    | nil => rfl
    | cons e es ih => cases e <;> simp only [List.cons_append, scanAll, ih]
  obtain ⟨ts, h1, h2⟩ := generate_ok h
  unfold generate
  rw [hs, h1]
  simp only [Res.bind_ok]
  split
  · rename_i hl
    rw [if_pos hl] at h2
    rw [h2]; rfl
  · rfl

example : ∃ o, generate (genWalk.take 3) none = .ok o ∧ o.isSome ∧ generate genWalk o = .ok o :=
  ⟨_, rfl, rfl, rfl⟩

/-- Without interfaces the generated file stays as it is. -/
theorem C97_untouched (walk : List Entry) (old : Option Output) (h : scanAll walk = .ok []) :
    generate walk old = .ok old := by
  unfold generate
  rw [h]
  rfl

example : scanAll [.dir ".".toList, .file ⟨"game.go".toList, some [.types [.other "IGame"]]⟩] = .ok [] := rfl

/-- C97 (refuted): a first run writes the proxy of `IGame`.  Then `IGame` is made a struct, so that no interface is left;
the next run does not update the generated file, which still has the proxy and registers it. -/
theorem C97_stale_refuted : ∃ walk walk' out, generate walk none = .ok (some out) ∧ generate walk' (some out) = .ok (some out) ∧
    out.registered = [("IGame", "igameproxy".toList)] ∧ .failed ∉ walk' ∧ allIfaces ifaces walk' = [] :=
  ⟨[.file ⟨"game.go".toList, some [.types [.iface "IGame" []]]⟩],
    [.file ⟨"game.go".toList, some [.types [.other "IGame"]]⟩], _, rfl, rfl, rfl, by decide, by decide +kernel⟩

/-- C97 (refuted): files are passed over that are not the output of the generator, here in a directory whose name contains
the name of the generated file. -/
theorem C97_skipped_refuted : ∃ path decls, path ≠ "proxy.gen.go".toList ∧ (∃ pre, path = pre ++ "/math.go".toList) ∧
    ignore path = true ∧ generate [.file ⟨path, some decls⟩] none = .ok none ∧ decls.flatMap ifaces = ["IMath"] :=
  ⟨"old.proxy.gen.go.d/math.go".toList, [.types [.iface "IMath" []]], by decide, ⟨"old.proxy.gen.go.d".toList, by decide⟩,
    by decide, rfl, rfl⟩

end Verif.Props
