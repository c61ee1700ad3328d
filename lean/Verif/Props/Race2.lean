import Verif.Race.Where
import Verif.Props.Race1

/-! # C106 to C109: exactly which accesses conflict -/

namespace Verif.Props

open Verif Verif.Race

/-- Nothing is claimed about accesses. -/
private def unguarded {V M : Type} : V → Guard M := fun _ => .free

private theorem after_kept {V M : Type} {guard : V → Guard M} {l : List (Op V M)} (h : Kept guard none none l) :
    after none l = none := by
  have := kept_drop (p := l) (q := []) (by simpa using h)
  revert this
  cases after none l <;> cases amid none l <;> intro h <;> first | exact h.elim | rfl

private theorem accs_flatten {V M : Type} {guard : V → Guard M} {ls : List (List (Op V M))}
    (h : ∀ l ∈ ls, Kept guard none none l) (y : Option M × V × Bool) :
    y ∈ accs none ls.flatten ↔ ∃ l ∈ ls, y ∈ accs none l := by
  induction ls with
  | nil => simp [accs]
  | cons l ls ih =>
    rw [List.flatten_cons, accs_append, after_kept (h l (by simp)), List.mem_append, ih fun l' hl => h l' (by simp [hl])]
    simp

private theorem accs_map {V M T : Type} {guard : V → Guard M} {f : T → List (Op V M)}
    (h : ∀ t, Kept guard none none (f t)) (tasks : List T) (y : Option M × V × Bool) :
    y ∈ accs none (tasks.map f).flatten ↔ ∃ t ∈ tasks, y ∈ accs none (f t) := by
  rw [accs_flatten (guard := guard)]
  · constructor
    · rintro ⟨l, hl, hy⟩
      obtain ⟨t, ht, rfl⟩ := List.mem_map.mp hl
      exact ⟨t, ht, hy⟩
    · rintro ⟨t, ht, hy⟩
      exact ⟨f t, List.mem_map.mpr ⟨t, ht, rfl⟩, hy⟩
  · intro l hl
    obtain ⟨t, _, rfl⟩ := List.mem_map.mp hl
    exact h t

private theorem accs_access {V M : Type} {h : Option M} {x : V} {w : Bool} {r : List (Op V M)} :
    accs h (access x w ++ r) = (h, x, w) :: accs h r := rfl

private theorem accs_one {V M : Type} {h : Option M} {x : V} {w : Bool} :
    accs (M := M) h (access x w) = [(h, x, w)] := rfl

private theorem accs_lock {V M : Type} {h : Option M} {m : M} {r : List (Op V M)} :
    accs h (.lock m :: r) = accs (some m) r := rfl

private theorem accs_unlock {V M : Type} {h : Option M} {m : M} : accs (V := V) h [.unlock m] = [] := rfl

private theorem accs_times {V M : Type} {h : Option M} {x : V} {w : Bool} {r : List (Op V M)} (n : Nat) :
    accs h (times n (access x w) ++ r) = List.replicate n (h, x, w) ++ accs h r := by
  induction n with
  | zero => rfl
  | succ n ih =>
    simp only [times, List.replicate_succ, List.flatten_cons, List.append_assoc, List.cons_append] at *
    rw [accs_access, ih]

private theorem accs_many {V M : Type} {h : Option M} {x : V} {w : Bool} (n : Nat) :
    accs (M := M) h (times n (access x w)) = List.replicate n (h, x, w) := by
  simpa [accs] using accs_times (r := []) (h := h) (x := x) (w := w) n

private theorem after_access {V M : Type} {h : Option M} {x : V} {w : Bool} : after (M := M) h (access x w) = h := rfl

/-- A goroutine of a hub goes through the list of this name. -/
def Lists (n : Nat) (t : HubTask) : Prop :=
  (∃ names f, t = .ready names ∧ (n, some f) ∈ names) ∨ ∃ rounds k, t = .query n rounds ∧ some (k + 1) ∈ rounds

/-- It looks the features up. -/
def LooksUp (t : HubTask) : Prop :=
  t = .close ∨ (∃ a names, t = .register a names ∧ names ≠ []) ∨ (∃ names, t = .ready names ∧ names ≠ []) ∨
    ∃ n rounds, t = .query n rounds ∧ rounds ≠ []

private theorem hub_ops (t : HubTask) (y : Option HubMutex × HubVar × Bool) : y ∈ accs none t.ops ↔ match t with
    | .register _ names => y = (some .ports, .ports, false) ∨ y = (some .ports, .black, false) ∨
        y = (some .ports, .ports, true) ∨ ∃ p ∈ names, y = (some .docks, .docks, false) ∨
          (p.2 = true ∧ y = (some .docks, .docks, true)) ∨ y = (some .docks, .list p.1, true)
    | .ready names => ∃ p ∈ names, y = (some .docks, .docks, false) ∨ ∃ f, p.2 = some f ∧
        (y = (none, .list p.1, false) ∨ (f.2 = true ∧ y = (none, .flag p.1, true)))
    | .query name rounds => ∃ p ∈ rounds, y = (some .docks, .docks, false) ∨ ∃ k, p = some (k + 1) ∧
        (y = (none, .list name, false) ∨ y = (none, .flag name, false))
    | .close => y = (none, .docks, true) ∨ y = (none, .ports, true) ∨ y = (none, .black, true) := by
  have find : accs none findOps = [(some HubMutex.docks, HubVar.docks, false)] := rfl
  have findA : after none findOps = none := rfl
  cases t with
  | register again names =>
    have ha : after none (allocateOps again) = none := by
      refine after_kept (guard := unguarded) ?_
      exact kept_access (h := some HubMutex.ports) (by trivial) (kept_times (by trivial) (kept_access (by trivial) (by exact ⟨rfl, trivial⟩)) _)
    have hb : ∀ l ∈ names.map fun p => addOps p.1 p.2, Kept unguarded none none l := by
      intro l hl
      obtain ⟨p, _, rfl⟩ := List.mem_map.mp hl
      exact kept_access (h := some HubMutex.docks) (by trivial) (kept_times (by trivial) (kept_access (by trivial) (by exact ⟨rfl, trivial⟩)) _)
    simp only [HubTask.ops]
    rw [accs_append, List.mem_append, ha, accs_flatten hb]
    simp only [allocateOps, accs_lock, accs_access, accs_times, accs_unlock, List.mem_cons, List.mem_append,
      List.mem_replicate, List.mem_map, addOps]
    constructor
    · rintro ((h | h | h | h) | ⟨l, ⟨p, hp, rfl⟩, h⟩)
      · exact Or.inl h
      · exact Or.inr (Or.inl h.2)
      · exact Or.inr (Or.inr (Or.inl h))
      · cases h
      · refine Or.inr (Or.inr (Or.inr ⟨p, hp, ?_⟩))
        simp only [accs_lock, accs_access, accs_times, accs_unlock, List.mem_cons, List.mem_append, List.mem_replicate] at h
        rcases h with h | h | h | h
        · exact Or.inl h
        · refine Or.inr (Or.inl ⟨?_, h.2⟩)
          cases e : p.2
          · rw [e] at h; simp at h
          · rfl
        · exact Or.inr (Or.inr h)
        · cases h
    · rintro (h | h | h | ⟨p, hp, h⟩)
      · exact Or.inl (Or.inl h)
      · exact Or.inl (Or.inr (Or.inl ⟨by simp, h⟩))
      · exact Or.inl (Or.inr (Or.inr (Or.inl h)))
      · refine Or.inr ⟨_, ⟨p, hp, rfl⟩, ?_⟩
        simp only [accs_lock, accs_access, accs_times, accs_unlock, List.mem_cons, List.mem_append, List.mem_replicate]
        rcases h with h | ⟨e, h⟩ | h
        · exact Or.inl h
        · exact Or.inr (Or.inl ⟨by simp [e], h⟩)
        · exact Or.inr (Or.inr (Or.inl h))
  | ready names =>
    have hb : ∀ l ∈ names.map fun p => markOps p.1 p.2, Kept unguarded none none l := by
      intro l hl
      obtain ⟨⟨n, f⟩, _, rfl⟩ := List.mem_map.mp hl
      refine kept_append (kept_access (h := some HubMutex.docks) (by trivial) (by exact ⟨rfl, trivial⟩)) ?_
      cases f with
      | none => trivial
      | some p =>
        refine kept_times (by trivial) ?_ _
        cases p.2
        · trivial
        · exact ⟨trivial, trivial⟩
    simp only [HubTask.ops]
    rw [accs_flatten hb]
    constructor
    · rintro ⟨l, hl, h⟩
      obtain ⟨⟨n, f⟩, hp, rfl⟩ := List.mem_map.mp hl
      refine ⟨_, hp, ?_⟩
      simp only [markOps, accs_append, find, findA, List.mem_append, List.mem_singleton] at h
      rcases h with h | h
      · exact Or.inl h
      · cases f with
        | none => cases h
        | some f =>
          refine Or.inr ⟨f, rfl, ?_⟩
          simp only [accs_times, List.mem_append, List.mem_replicate] at h
          rcases h with h | h
          · exact Or.inl h.2
          · cases e : f.2 <;> rw [e] at h
            · cases h
            · exact Or.inr ⟨rfl, by simpa [accs_one] using h⟩
    · rintro ⟨⟨n, f⟩, hp, h⟩
      refine ⟨_, List.mem_map.mpr ⟨_, hp, rfl⟩, ?_⟩
      simp only [markOps, accs_append, find, findA, List.mem_append, List.mem_singleton]
      rcases h with h | ⟨f, rfl, h⟩
      · exact Or.inl h
      · simp only [accs_times, List.mem_append, List.mem_replicate]
        rcases h with h | ⟨e, h⟩
        · exact Or.inr (Or.inl ⟨by simp, h⟩)
        · exact Or.inr (Or.inr (by rw [e]; simpa [accs_one] using h))
  | query name rounds =>
    have inner : ∀ (k : Nat) (l : List (Op HubVar HubMutex)),
        l ∈ List.replicate k (access (.list name) false ++ access (.flag name) false) → Kept unguarded none none l := by
      intro k l hl
      rw [(List.mem_replicate.mp hl).2]
      exact ⟨trivial, trivial, trivial⟩
    have hb : ∀ l ∈ rounds.map (roundOps name), Kept unguarded none none l := by
      intro l hl
      obtain ⟨f, _, rfl⟩ := List.mem_map.mp hl
      refine kept_append (kept_access (h := some HubMutex.docks) (by trivial) (by exact ⟨rfl, trivial⟩)) ?_
      cases f with
      | none => trivial
      | some k => exact kept_flatten (inner k)
    simp only [HubTask.ops]
    rw [accs_flatten hb]
    constructor
    · rintro ⟨l, hl, h⟩
      obtain ⟨f, hp, rfl⟩ := List.mem_map.mp hl
      refine ⟨_, hp, ?_⟩
      simp only [roundOps, accs_append, find, findA, List.mem_append, List.mem_singleton] at h
      rcases h with h | h
      · exact Or.inl h
      · cases f with
        | none => cases h
        | some k =>
          simp only [times, accs_flatten (inner k), List.mem_replicate] at h
          obtain ⟨l, ⟨hk, rfl⟩, h⟩ := h
          cases k with
          | zero => exact absurd rfl hk
          | succ k => exact Or.inr ⟨k, rfl, by simpa [accs_access, accs_one] using h⟩
    · rintro ⟨f, hp, h⟩
      refine ⟨_, List.mem_map.mpr ⟨_, hp, rfl⟩, ?_⟩
      simp only [roundOps, accs_append, find, findA, List.mem_append, List.mem_singleton]
      rcases h with h | ⟨k, rfl, h⟩
      · exact Or.inl h
      · simp only [times, accs_flatten (inner (k + 1)), List.mem_replicate]
        exact Or.inr ⟨_, ⟨by simp, rfl⟩, by simpa [accs_access, accs_one] using h⟩
  | close => simp [HubTask.ops, accs_access, accs_one]

private theorem hub_accs (tasks : List HubTask) (y : Option HubMutex × HubVar × Bool) :
    y ∈ accs none (hubProg tasks) ↔ ∃ t ∈ tasks, y ∈ accs none t.ops :=
  accs_map (fun t => by have := hub_all [t]; simpa [hubProg] using this) tasks y

/-- C106 (partial): exactly which goroutines of a hub conflict in some interleaving.  A list of stubs: a registration of
the name with a ready packet for it or a query that gets to a stub.  The flag of a stub: a ready packet that sets it with
another one or with such a query.  The three maps: only `Close` with something else.
Missing: that there are none, see `C106_list_refuted` to `C106_close_refuted`. -/
theorem C106_where_partial (tasks : Nat → List HubTask) (x : HubVar) :
    (∃ as s, run State.step (State.init fun i => hubProg (tasks i)) as = some s ∧ Conflict s x) ↔
    ∃ i j, i ≠ j ∧ ∃ t ∈ tasks i, ∃ u ∈ tasks j, match x with
      | .list n => (∃ a names b, t = .register a names ∧ (n, b) ∈ names) ∧ Lists n u
      | .flag n => (∃ names k, t = .ready names ∧ (n, some (k, true)) ∈ names) ∧
          ((∃ names k, u = .ready names ∧ (n, some (k, true)) ∈ names) ∨
            ∃ rounds k, u = .query n rounds ∧ some (k + 1) ∈ rounds)
      | .docks => t = .close ∧ LooksUp u
      | .ports => t = .close ∧ (u = .close ∨ ∃ a names, u = .register a names)
      | .black => t = .close ∧ (u = .close ∨ ∃ a names, u = .register a names) := by
  rw [conflict_iff (fun i => hub_all (tasks i))]
  simp only [hub_accs]
  constructor
  · rintro ⟨i, j, h, h', w, hij, ⟨t, ht, h1⟩, ⟨u, hu, h2⟩, hm⟩
    rw [hub_ops] at h1 h2
    cases x
    case list n =>
      refine ⟨i, j, hij, t, ht, u, hu, ?_⟩
      cases t <;> cases u <;> simp [Lists] at h1 h2 ⊢ <;> grind
    case flag n =>
      refine ⟨i, j, hij, t, ht, u, hu, ?_⟩
      cases t <;> cases u <;> simp at h1 h2 ⊢ <;> grind
    case docks =>
      by_cases e : t = .close
      · refine ⟨i, j, hij, t, ht, u, hu, ?_⟩
        cases t <;> cases u <;> simp [LooksUp] at e h1 h2 ⊢ <;> grind
      · refine ⟨j, i, hij.symm, u, hu, t, ht, ?_⟩
        cases t <;> cases u <;> simp [LooksUp] at e h1 h2 ⊢ <;> grind
    case ports =>
      by_cases e : t = .close
      · refine ⟨i, j, hij, t, ht, u, hu, ?_⟩
        cases t <;> cases u <;> simp at e h1 h2 ⊢
      · refine ⟨j, i, hij.symm, u, hu, t, ht, ?_⟩
        cases t <;> cases u <;> simp at e h1 h2 ⊢ <;> grind
    case black =>
      refine ⟨i, j, hij, t, ht, u, hu, ?_⟩
      cases t <;> cases u <;> simp at h1 h2 ⊢ <;> grind
  · rintro ⟨i, j, hij, t, ht, u, hu, h⟩
    have make : ∀ (g g' : Option HubMutex) (w : Bool), (g, x, true) ∈ accs none t.ops → (g', x, w) ∈ accs none u.ops →
        (∀ m, ¬ (g = some m ∧ g' = some m)) → ∃ i j h h' w, i ≠ j ∧ (∃ t ∈ tasks i, (h, x, true) ∈ accs none t.ops) ∧
          (∃ u ∈ tasks j, (h', x, w) ∈ accs none u.ops) ∧ ∀ m, ¬ (h = some m ∧ h' = some m) :=
      fun g g' w a b c => ⟨i, j, g, g', w, hij, ⟨t, ht, a⟩, ⟨u, hu, b⟩, c⟩
    cases x
    case list n =>
      obtain ⟨⟨a, names, b, rfl, hn⟩, h⟩ := h
      have reg := (hub_ops (.register a names) (some .docks, .list n, true)).mpr
        (Or.inr (Or.inr (Or.inr ⟨_, hn, Or.inr (Or.inr rfl)⟩)))
      rcases h with ⟨names', f, rfl, hf⟩ | ⟨rounds, k, rfl, hf⟩
      · exact make _ none false reg ((hub_ops _ _).mpr ⟨_, hf, Or.inr ⟨f, rfl, Or.inl rfl⟩⟩) (by simp)
      · exact make _ none false reg ((hub_ops _ _).mpr ⟨_, hf, Or.inr ⟨k, rfl, Or.inl rfl⟩⟩) (by simp)
    case flag n =>
      obtain ⟨⟨names, k, rfl, hn⟩, h⟩ := h
      have set : ∀ (names : List (Nat × Option (Nat × Bool))) (k : Nat), (n, some (k, true)) ∈ names →
          (none, HubVar.flag n, true) ∈ accs none (HubTask.ready names).ops := fun names k hn =>
        (hub_ops (.ready names) _).mpr ⟨_, hn, Or.inr ⟨_, rfl, Or.inr ⟨rfl, rfl⟩⟩⟩
      rcases h with ⟨names', k', rfl, hf⟩ | ⟨rounds, k', rfl, hf⟩
      · exact make _ none true (set _ _ hn) (set _ _ hf) (by simp)
      · exact make _ none false (set _ _ hn) ((hub_ops _ _).mpr ⟨_, hf, Or.inr ⟨_, rfl, Or.inr rfl⟩⟩) (by simp)
    case docks =>
      obtain ⟨rfl, h⟩ := h
      have cl := (hub_ops .close (none, .docks, true)).mpr (Or.inl rfl)
      rcases h with rfl | ⟨a, names, rfl, hn⟩ | ⟨names, rfl, hn⟩ | ⟨n, rounds, rfl, hn⟩
      · exact make _ _ _ cl cl (by simp)
      all_goals obtain ⟨p, hp⟩ := List.exists_mem_of_ne_nil _ hn
      · exact make _ (some .docks) false cl ((hub_ops _ _).mpr (Or.inr (Or.inr (Or.inr ⟨p, hp, Or.inl rfl⟩)))) (by simp)
      · exact make _ (some .docks) false cl ((hub_ops _ _).mpr ⟨p, hp, Or.inl rfl⟩) (by simp)
      · exact make _ (some .docks) false cl ((hub_ops _ _).mpr ⟨p, hp, Or.inl rfl⟩) (by simp)
    case ports =>
      obtain ⟨rfl, h⟩ := h
      have cl := (hub_ops .close (none, .ports, true)).mpr (Or.inr (Or.inl rfl))
      rcases h with rfl | ⟨a, names, rfl⟩
      · exact make _ _ _ cl cl (by simp)
      · exact make _ (some .ports) false cl ((hub_ops _ _).mpr (Or.inl rfl)) (by simp)
    case black =>
      obtain ⟨rfl, h⟩ := h
      have cl := (hub_ops .close (none, .black, true)).mpr (Or.inr (Or.inr rfl))
      rcases h with rfl | ⟨a, names, rfl⟩
      · exact make _ _ _ cl cl (by simp)
      · exact make _ (some .ports) false cl ((hub_ops _ _).mpr (Or.inr (Or.inl rfl))) (by simp)

private theorem conflict_tasks {V M T : Type} [DecidableEq M] {guard : V → Guard M} {f : T → List (Op V M)}
    (hk : ∀ t, Kept guard none none (f t)) (tasks : Nat → List T) (x : V) :
    (∃ as s, run State.step (State.init fun i => ((tasks i).map f).flatten) as = some s ∧ Conflict s x) ↔
    ∃ i j, i ≠ j ∧ ∃ t ∈ tasks i, ∃ u ∈ tasks j, ∃ h h' w, (h, x, true) ∈ accs none (f t) ∧ (h', x, w) ∈ accs none (f u) ∧
      ∀ m, ¬ (h = some m ∧ h' = some m) := by
  have kept : ∀ i, Kept guard none none ((tasks i).map f).flatten := by
    intro i
    refine kept_flatten ?_
    intro l hl
    obtain ⟨t, _, rfl⟩ := List.mem_map.mp hl
    exact hk t
  rw [conflict_iff kept]
  simp only [accs_map hk]
  constructor
  · rintro ⟨i, j, h, h', w, hij, ⟨t, ht, h1⟩, ⟨u, hu, h2⟩, hm⟩
    exact ⟨i, j, hij, t, ht, u, hu, h, h', w, h1, h2, hm⟩
  · rintro ⟨i, j, hij, t, ht, u, hu, h, h', w, h1, h2, hm⟩
    exact ⟨i, j, h, h', w, hij, ⟨t, ht, h1⟩, ⟨u, hu, h2⟩, hm⟩

private theorem chan_ops (t : ChanTask) : accs none t.ops = match t with
    | .setTimeout c m there => (none, .funcs c, false) :: if there then [(none, .timeout c m, true)] else []
    | .process c m r there first => (none, .funcs c, false) :: ((if there then [(none, .timeout c m, false)] else []) ++
        (none, .funcs c, false) :: (some ⟨r⟩, .done r, false) :: if first then [(some ⟨r⟩, .done r, true)] else [])
    | .track r first => (some ⟨r⟩, .done r, false) :: if first then [(some ⟨r⟩, .done r, true)] else [] := by
  cases t with
  | setTimeout c m there => cases there <;> rfl
  | process c m r there first => cases there <;> cases first <;> rfl
  | track r first => cases first <;> rfl

/-- C109 (partial): exactly which goroutines of a callee conflict in some interleaving: `SetTimeout` for a method with
another one or with the processing of a request for it.
Missing: that there are none, see `C109_timeout_refuted`. -/
theorem C109_where_partial (tasks : Nat → List ChanTask) (x : ChanVar) :
    (∃ as s, run State.step (State.init fun i => chanProg (tasks i)) as = some s ∧ Conflict s x) ↔
    ∃ c m, x = .timeout c m ∧ ∃ i j, i ≠ j ∧ .setTimeout c m true ∈ tasks i ∧
      (.setTimeout c m true ∈ tasks j ∨ ∃ r first, .process c m r true first ∈ tasks j) := by
  refine (conflict_tasks chan_kept tasks x).trans ?_
  constructor
  · rintro ⟨i, j, hij, t, ht, u, hu, h, h', w, h1, h2, hm⟩
    rw [chan_ops] at h1 h2
    cases x <;> cases t <;> simp at h1 <;> cases u <;> simp at h2 <;> grind
  · rintro ⟨c, m, rfl, i, j, hij, h1, h2 | ⟨r, first, h2⟩⟩
    · exact ⟨i, j, hij, _, h1, _, h2, none, none, true, by simp [chan_ops], by simp [chan_ops], by simp⟩
    · exact ⟨i, j, hij, _, h1, _, h2, none, none, false, by simp [chan_ops], by simp [chan_ops], by simp⟩

/-- What writes data of package network. -/
def NetWrites : NetVar → NetTask → Prop
  | .serializers, t => t = .extend
  | .makers, _ => False
  | .listeners, t => t = .listen true
  | .vport, t => ∃ n, t = .dialMock n
  | .peers s, t => t = .accept s ∨ t = .dial s ∨ ∃ ps, t = .close s ps
  | .sink p, t => ∃ s ps, t = .close s ps ∧ p ∈ ps

/-- What uses it without a mutex that the writer holds. -/
def NetUses : NetVar → NetTask → Prop
  | .serializers, t => t = .extend ∨ t = .newSocket
  | .makers, _ => False
  | .listeners, t => ∃ n, t = .dialMock n
  | .vport, t => ∃ n, t = .dialMock n
  | .peers s, t => t = .accept s ∨ t = .dial s ∨ (∃ ps, t = .close s ps) ∨ t = .send s
  | .sink p, t => t = .packet p

private theorem net_ops (t : NetTask) (y : Option NetMutex × NetVar × Bool) : y ∈ accs none t.ops ↔ match t with
    | .extend => y = (none, .serializers, true)
    | .newSocket => y = (none, .serializers, false)
    | .listen mock => y = (none, .makers, false) ∨ (mock = true ∧ y = (some .listeners, .listeners, true))
    | .accept s => y = (none, .peers s, true)
    | .dial s => y = (none, .makers, false) ∨ y = (none, .peers s, true)
    | .dialMock _ => y = (none, .listeners, false) ∨ y = (none, .vport, true)
    | .close s ps => y = (none, .peers s, false) ∨ (∃ p ∈ ps, ∃ w, y = (some (.peer p), .sink p, w)) ∨ y = (none, .peers s, true)
    | .send s => y = (none, .peers s, false)
    | .packet p => y = (none, .sink p, false) := by
  cases t with
  | extend => simp [NetTask.ops, accs_one]
  | newSocket => simp [NetTask.ops, accs_one]
  | listen mock => cases mock <;> simp [NetTask.ops, accs_access, accs_one, accs_lock, accs_unlock, accs]
  | accept s => simp [NetTask.ops, accs_one]
  | dial s => simp [NetTask.ops, accs_one, accs_access]
  | dialMock n => simp [NetTask.ops, accs_one, accs_times, List.mem_replicate]
  | close s ps =>
    have hk : ∀ p, Kept unguarded none none (closePeerOps p) := fun p => ⟨trivial, trivial, rfl, trivial⟩
    have hf : Kept unguarded none none (ps.map closePeerOps).flatten := kept_flatten (by
      intro l hl
      obtain ⟨p, _, rfl⟩ := List.mem_map.mp hl
      exact hk p)
    simp only [NetTask.ops, accs_access, List.mem_cons]
    rw [accs_append, List.mem_append, accs_map hk, after_kept hf]
    simp [closePeerOps, accs_lock, accs_access, accs_unlock, accs_one]
  | send s => simp [NetTask.ops, accs_one]
  | packet p => simp [NetTask.ops, accs_many, List.mem_replicate]

/-- C108 (partial): exactly which goroutines conflict in some interleaving over the data of package network.
Missing: that there are none, see `C108_serializers_refuted` to `C108_sink_refuted`. -/
theorem C108_where_partial (tasks : Nat → List NetTask) (x : NetVar) :
    (∃ as s, run State.step (State.init fun i => netProg (tasks i)) as = some s ∧ Conflict s x) ↔
    ∃ i j, i ≠ j ∧ ∃ t ∈ tasks i, ∃ u ∈ tasks j, NetWrites x t ∧ NetUses x u := by
  refine (conflict_tasks net_kept tasks x).trans ?_
  constructor
  · rintro ⟨i, j, hij, t, ht, u, hu, h, h', w, h1, h2, hm⟩
    rw [net_ops] at h1 h2
    refine ⟨i, j, hij, t, ht, u, hu, ?_⟩
    cases x <;> cases t <;> simp at h1 <;> cases u <;> simp at h2 <;> simp [NetWrites, NetUses] <;> grind
  · rintro ⟨i, j, hij, t, ht, u, hu, h1, h2⟩
    have write : ∃ h, (h, x, true) ∈ accs none t.ops := by
      simp only [net_ops]
      cases x <;> cases t <;> simp [NetWrites] at h1 <;> simp [h1]
      obtain ⟨_, _, ⟨_, rfl⟩, h1⟩ := h1
      exact h1
    have use : ∃ w, (none, x, w) ∈ accs none u.ops := by
      simp only [net_ops]
      cases x <;> cases u <;> simp [NetUses] at h2 <;> simp [h2]
    obtain ⟨h, a⟩ := write
    obtain ⟨w, b⟩ := use
    exact ⟨i, j, hij, t, ht, u, hu, h, none, w, a, b, by simp⟩

/-- What writes data of a dock. -/
def DockWrites : DockVar → DockTask → Prop
  | .slots, t => ∃ n k, t = .close n k
  | .remote, _ => False
  | .rpcs, t => t = .callback ∨ ∃ c peer, t = .outside c peer
  | .req c, t => (∃ peer, t = .outside c peer) ∨ ∃ names calls, t = .ready names ∧ calls ∈ names ∧ (c, some true) ∈ calls
  | .sockets, t => t = .found ∨ t = .run ∨ (∃ n, t = .response n) ∨ ∃ n k, t = .close n k
  | .visiters s, t => t = .visit s false true
  | .registry, t => t = .register

/-- What uses it without a mutex that the writer holds. -/
def DockUses : DockVar → DockTask → Prop
  | .slots, t => t = .request ∨ t = .inside ∨ (∃ c peer, t = .outside c peer) ∨ (∃ n, t = .announce n) ∨
      (∃ n names, t = .registered n names) ∨ (∃ n, t = .response n) ∨ (∃ n, t = .start n) ∨ ∃ n k, t = .close n k
  | .remote, _ => False
  | .rpcs, t => t = .callback ∨ t = .answer ∨ (∃ c peer, t = .outside c peer) ∨ ∃ names, t = .ready names ∧ names ≠ []
  | .req c, t => (∃ peer, t = .outside c peer) ∨ ∃ names calls peer, t = .ready names ∧ calls ∈ names ∧ (c, peer) ∈ calls
  | .sockets, t => t = .found ∨ t = .run ∨ (∃ n, t = .response n) ∨ (∃ n k, t = .close n k) ∨ (∃ c, t = .outside c false) ∨
      ∃ names calls c, t = .ready names ∧ calls ∈ names ∧ (c, some false) ∈ calls
  | .visiters s, t => ∃ there maker, t = .visit s there maker
  | .registry, t => t = .register ∨ ∃ s maker, t = .visit s false maker

private theorem commit_accs (c : Nat) (peer : Bool) : accs none (commitOps c peer) =
    [(some DockMutex.remote, .req c, false), (some .remote, .remote, false), (some .remote, .req c, false),
      (some .remote, if peer then .req c else .sockets, peer)] := by
  cases peer <;> rfl

private theorem commit_kept (c : Nat) (peer : Bool) : Kept unguarded none none (commitOps c peer) := by
  refine ⟨trivial, trivial, trivial, ?_⟩
  cases peer <;> exact ⟨trivial, rfl, trivial⟩

private theorem collect_accs (n : Nat) (y : Option DockMutex × DockVar × Bool) : y ∈ accs none (collectOps n) ↔
    y = (none, .slots, false) := by
  simp [collectOps, accs_many, List.mem_replicate]

private theorem collect_kept (n : Nat) : Kept (unguarded (M := DockMutex)) none none (collectOps n) := by
  have := kept_times (guard := unguarded (M := DockMutex)) (h := none) (x := DockVar.slots) (w := false) (r := [])
    (by trivial) (by trivial) (n + 1)
  simpa [collectOps] using this

/-- One call in the inner loop of a ready packet. -/
private def callOps (p : Nat × Option Bool) : List (Op DockVar DockMutex) :=
  access .rpcs false ++ (times 2 (access (.req p.1) false) ++ p.2.elim [] (commitOps p.1))

private theorem awaited_eq (calls : List (Nat × Option Bool)) :
    awaitedOps calls = (calls.map callOps).flatten ++ access .rpcs false := by
  unfold awaitedOps
  congr 3
  funext p
  unfold callOps
  cases p.2 <;> rfl

private theorem dock_ops (t : DockTask) (y : Option DockMutex × DockVar × Bool) : y ∈ accs none t.ops ↔ match t with
    | .announce _ => y = (none, .slots, false)
    | .ready names => ∃ calls ∈ names, y = (none, .rpcs, false) ∨ ∃ p ∈ calls, y = (none, .req p.1, false) ∨
        ∃ peer, p.2 = some peer ∧ y ∈ accs none (commitOps p.1 peer)
    | .registered _ names => y = (none, .slots, false) ∨ (names ≠ 0 ∧ y = (some .remote, .remote, true))
    | .response _ => y = (none, .sockets, true) ∨ y = (none, .slots, false)
    | .start _ => y = (none, .slots, false)
    | .found => y = (none, .sockets, true)
    | .request => y = (none, .slots, false)
    | .answer => y = (none, .rpcs, false)
    | .callback => y = (none, .rpcs, true)
    | .run => y = (none, .sockets, true)
    | .inside => y = (none, .slots, false)
    | .outside c peer => y = (none, .slots, false) ∨ y = (none, .rpcs, true) ∨ y = (none, .req c, true) ∨
        y ∈ accs none (commitOps c peer)
    | .visit s there maker => y = (none, .visiters s, false) ∨ (there = false ∧ (y = (none, .registry, false) ∨
        (maker = true ∧ y = (none, .visiters s, true))))
    | .close _ _ => y = (none, .slots, false) ∨ y = (none, .slots, true) ∨ y = (none, .sockets, false) ∨
        y = (none, .sockets, true)
    | .register => y = (none, .registry, true) := by
  cases t with
  | announce n => exact collect_accs n y
  | ready names =>
    have one : ∀ p, Kept unguarded none none (callOps p) := by
      intro p
      refine kept_access (by trivial) (kept_times (by trivial) ?_ _)
      cases p.2 with
      | none => trivial
      | some b => exact commit_kept _ _
    have part : ∀ calls : List (Nat × Option Bool), Kept unguarded none none (calls.map callOps).flatten := by
      intro calls
      refine kept_flatten ?_
      intro l hl
      obtain ⟨p, _, rfl⟩ := List.mem_map.mp hl
      exact one p
    have all : ∀ calls : List (Nat × Option Bool), Kept unguarded none none (awaitedOps calls) := by
      intro calls
      rw [awaited_eq]
      exact kept_append (part calls) ⟨trivial, trivial⟩
    simp only [DockTask.ops]
    rw [accs_map all]
    refine exists_congr fun calls => and_congr_right fun _ => ?_
    rw [awaited_eq, accs_append, List.mem_append, accs_map one, after_kept (part calls), accs_one, List.mem_singleton]
    constructor
    · rintro (⟨p, hp, h⟩ | h)
      · rw [callOps, accs_access, accs_times, List.mem_cons, List.mem_append, List.mem_replicate] at h
        rcases h with h | h | h
        · exact Or.inl h
        · exact Or.inr ⟨p, hp, Or.inl h.2⟩
        · cases e : p.2 with
          | none => rw [e] at h; cases h
          | some b => rw [e] at h; exact Or.inr ⟨p, hp, Or.inr ⟨b, e, h⟩⟩
      · exact Or.inl h
    · rintro (h | ⟨p, hp, h⟩)
      · exact Or.inr h
      · refine Or.inl ⟨p, hp, ?_⟩
        rw [callOps, accs_access, accs_times, List.mem_cons, List.mem_append, List.mem_replicate]
        rcases h with h | ⟨b, e, h⟩
        · exact Or.inr (Or.inl ⟨by simp, h⟩)
        · exact Or.inr (Or.inr (by rw [e]; exact h))
  | registered n names =>
    have one : ∀ l ∈ List.replicate names (Op.lock DockMutex.remote :: (access DockVar.remote true ++ [.unlock .remote])),
        Kept unguarded none none l := by
      intro l hl
      rw [(List.mem_replicate.mp hl).2]
      exact ⟨trivial, rfl, trivial⟩
    simp only [DockTask.ops]
    rw [accs_append, List.mem_append, collect_accs, after_kept (collect_kept n), times, accs_flatten one]
    have acc : accs none (Op.lock DockMutex.remote :: (access DockVar.remote true ++ [.unlock .remote])) =
      [(some .remote, .remote, true)] := rfl
    constructor
    · rintro (h | ⟨l, hl, h⟩)
      · exact Or.inl h
      · obtain ⟨h1, rfl⟩ := List.mem_replicate.mp hl
        rw [acc] at h
        exact Or.inr ⟨h1, List.mem_singleton.mp h⟩
    · rintro (h | ⟨h1, h⟩)
      · exact Or.inl h
      · exact Or.inr ⟨_, List.mem_replicate.mpr ⟨h1, rfl⟩, by rw [acc, h]; simp⟩
  | response n =>
    simp only [DockTask.ops, accs_access, List.mem_cons, collect_accs]
  | start n => exact collect_accs n y
  | found => simp [DockTask.ops, accs_one]
  | request => simp [DockTask.ops, accs_one]
  | answer => simp [DockTask.ops, accs_one]
  | callback => simp [DockTask.ops, accs_one]
  | run => simp [DockTask.ops, accs_one]
  | inside => simp [DockTask.ops, accs_one]
  | outside c p => simp only [DockTask.ops, accs_access, List.mem_cons]
  | visit s there maker => cases there <;> cases maker <;> simp [DockTask.ops, accs_access, accs_one, accs]
  | close n k =>
    simp only [DockTask.ops]
    rw [accs_append, List.mem_append, collect_accs, after_kept (collect_kept n)]
    simp [accs_access, accs_times, accs_one, List.mem_replicate]
  | register => simp [DockTask.ops, accs_one]

/-- C107 (partial): exactly which goroutines conflict in some interleaving over the data of a dock and its slots.
Missing: that there are none, see `C107_calls_refuted` to `C107_register_refuted`. -/
theorem C107_where_partial (tasks : Nat → List DockTask) (x : DockVar) :
    (∃ as s, run State.step (State.init fun i => dockProg (tasks i)) as = some s ∧ Conflict s x) ↔
    ∃ i j, i ≠ j ∧ ∃ t ∈ tasks i, ∃ u ∈ tasks j, DockWrites x t ∧ DockUses x u := by
  refine (conflict_tasks (fun t => dock_kept (o := false) t (by simp)) tasks x).trans ?_
  constructor
  · rintro ⟨i, j, hij, t, ht, u, hu, h, h', w, h1, h2, hm⟩
    refine ⟨i, j, hij, t, ht, u, hu, ?_⟩
    have write : DockWrites x t ∨ (x = .remote ∧ h = some .remote) := by
      rw [dock_ops] at h1
      cases t <;> simp [commit_accs] at h1 <;> cases x <;> simp [DockWrites] <;> grind
    have use : DockUses x u ∨ (x = .remote ∧ h' = some .remote) := by
      rw [dock_ops] at h2
      cases u <;> simp [commit_accs] at h2 <;> cases x <;> simp [DockUses] <;> grind
    rcases write with a | ⟨a, a'⟩
    · rcases use with b | ⟨b, _⟩
      · exact ⟨a, b⟩
      · rw [b] at a; exact a.elim
    · rcases use with b | ⟨_, b⟩
      · rw [a] at b; exact b.elim
      · exact (hm _ ⟨a', b⟩).elim
  · rintro ⟨i, j, hij, t, ht, u, hu, h1, h2⟩
    have write : ∃ h, (h, x, true) ∈ accs none t.ops ∧ ((∀ c, x ≠ .req c) → h = none) := by
      simp only [dock_ops]
      cases x <;> cases t <;> simp [DockWrites] at h1 <;> simp [h1, commit_accs]
      obtain ⟨calls, hc, hp⟩ := h1
      exact ⟨_, calls, hc, _, _, hp, rfl, rfl, rfl⟩
    have use : ∃ h w, (h, x, w) ∈ accs none u.ops ∧ (∀ c, x = .req c → h = none) := by
      simp only [dock_ops]
      cases x <;> cases u <;> simp [DockUses] at h2 <;> simp [h2, commit_accs]
      · exact ⟨none, Or.inl (Or.inl rfl)⟩
      · exact List.exists_mem_of_ne_nil _ h2
      · exact ⟨none, Or.inr (Or.inl rfl)⟩
      · obtain ⟨calls, hc, a, hp⟩ := h2
        exact ⟨_, calls, hc, _, _, hp, rfl, rfl⟩
    obtain ⟨h, a, a'⟩ := write
    obtain ⟨h', w, b, b'⟩ := use
    refine ⟨i, j, hij, t, ht, u, hu, h, h', w, a, b, ?_⟩
    rintro m ⟨e, e'⟩
    by_cases hx : ∃ c, x = .req c
    · obtain ⟨c, hx⟩ := hx
      rw [b' c hx] at e'
      cases e'
    · rw [a' fun c hc => hx ⟨c, hc⟩] at e
      cases e

/-- Two features that call different docks: their calls conflict; so do their visits. -/
example : ∃ i j, i ≠ j ∧ ∃ t ∈ dockTasks i, ∃ u ∈ dockTasks j, DockWrites (.visiters 0) t ∧ DockUses (.visiters 0) u :=
  ⟨3, 4, by decide, .visit 0 false true, by simp [dockTasks], .visit 0 false true, by simp [dockTasks], rfl, _, _, rfl⟩

/-- The same features when each of them visits only what it has visited before. -/
example : ¬ ∃ as s, run State.step (State.init fun i => dockProg (if i < 2 then [.visit 0 true true, .inside] else [])) as =
    some s ∧ Conflict s (.visiters 0) := by
  rw [C107_where_partial]
  rintro ⟨i, j, _, t, ht, _, _, rfl, _⟩
  simp at ht

/-- Peers may register and queries for other names be answered at the same time. -/
example : ¬ ∃ as s, run State.step (State.init fun i => hubProg (if i < 5 then [.register 0 [(7, true)]] else
    if i < 9 then [.query 8 [some 1]] else [])) as = some s ∧ Conflict s (.list 7) := by
  rw [C106_where_partial]
  rintro ⟨i, j, _, t, _, u, hu, _, ⟨names, f, rfl, _⟩ | ⟨rounds, k, rfl, _⟩⟩ <;> grind

/-- Sockets may be closed by two goroutines if nothing arrives. -/
example : ¬ ∃ as s, run State.step (State.init fun i => netProg (if i < 2 then [.close i [7]] else [])) as = some s ∧
    Conflict s (.sink 7) := by
  rw [C108_where_partial]
  rintro ⟨i, j, _, t, _, u, hu, _, rfl⟩
  simp at hu

/-- Timeouts may be set for one method while requests for another one are processed. -/
example : ¬ ∃ as s, run State.step (State.init fun i => chanProg (if i = 0 then [.setTimeout 0 5 true] else
    if i = 1 then [.process 0 6 0 true true] else [])) as = some s ∧ Conflict s (.timeout 0 5) := by
  rw [C109_where_partial]
  rintro ⟨c, m, e, i, j, hij, h1, h2⟩
  cases e
  grind

end Verif.Props
