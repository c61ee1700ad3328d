import Verif.Props.Hub5
import Verif.Net.Mock

/-!
# C145: a hub and its docks on the mock network

The mock network forgets the host of an address (mock.go:92-95), and `Listen` on an address that is in use replaces the
listener (mock.go:38-40).  So whether a hub and docks of several hosts can be tested on it depends on the ports.
-/

namespace Verif.Props

open Verif Verif.Net.Mock

/-- Who listens: the hub, or a dock with the port it was given.  /repo/hub.go:141-142, /repo/dock.go:137-142 -/
abbrev Listening := Option (Nat × BitVec 64)

/-- The address passed to `Listen`; `hub` is the address passed to `Serve`.  /repo/hub.go:141-142, /repo/dock.go:139-141 -/
def listenAddr (hub : Str) : Listening → Str
  | none => hub
  | some (_, x) => anyHost ++ decimal x.toNat

/-- The addresses of the calls of `Listen`, in order.  /repo/network/mock.go:29-44 -/
def listened (acts : List Act) : List Str :=
  acts.filterMap fun
    | .listen a => some a
    | _ => none

private theorem quiet_listen {s t : Net} {a : Act} (ha : ∀ b, a ≠ .listen b) (hr : a ≠ .reset) (h : s.step a = some t) :
    t.listeners = s.listeners ∧ t.nListeners = s.nListeners := by
  unfold Net.step at h
  split at h
  · cases h
  cases a with
  | listen b => exact absurd rfl (ha b)
  | reset => exact absurd rfl hr
  | _ =>
    simp only at h
    repeat' split at h
    all_goals first
      | (cases h; done)
      | (cases h; exact ⟨rfl, rfl⟩)

/-- Listeners with different addresses are all found. -/
theorem listeners_found : ∀ (n : Nat) (acts : List Act), acts.length = n → ∀ (m : Net),
    run Net.step .init acts = some m → Act.reset ∉ acts →
    ((listened acts).map formatAddr).Nodup →
    m.nListeners = (listened acts).length ∧
      ∀ l a, (listened acts)[l]? = some a → m.listeners (formatAddr a) = some l := by
  intro n
  induction n with
  | zero =>
    intro acts hn m h _ _
    rw [List.length_eq_zero_iff] at hn
    subst hn
    cases h
    exact ⟨rfl, by intro l a h; simp [listened] at h⟩
  | succ n ih =>
    intro acts hn m h hr hd
    rcases List.eq_nil_or_concat acts with rfl | ⟨pre, a, rfl⟩
    · simp at hn
    rw [List.concat_eq_append] at h hn hr hd ⊢
    rw [run_append] at h
    cases hp : run Net.step .init pre with
    | none => rw [hp] at h; cases h
    | some u =>
      rw [hp] at h
      have hs : u.step a = some m := by
        simp only [Option.bind_some, run] at h
        split at h
        · cases h
        · rename_i v hv; cases h; exact hv
      have hr1 : Act.reset ∉ pre := fun x => hr (List.mem_append_left _ x)
      have hr2 : a ≠ .reset := fun x => hr (by simp [x])
      have el : listened (pre ++ [a]) = listened pre ++ listened [a] := by simp [listened]
      rw [el, List.map_append] at hd
      obtain ⟨i1, i2⟩ := ih pre (by simpa using hn) u hp hr1 (List.nodup_append.mp hd).1
      rw [el]
      by_cases ha : ∃ b, a = .listen b
      · obtain ⟨b, rfl⟩ := ha
        have e1 : listened [Act.listen b] = [b] := rfl
        rw [e1] at hd ⊢
        unfold Net.step at hs
        split at hs
        · cases hs
        cases hs
        refine ⟨by simp [i1], ?_⟩
        intro l x hx
        simp only
        by_cases hl : l < (listened pre).length
        · rw [List.getElem?_append_left hl] at hx
          have hne : formatAddr x ≠ formatAddr b := by
            intro e
            have := (List.nodup_append.mp hd).2.2 (formatAddr x)
              (List.mem_map.mpr ⟨x, List.mem_of_getElem? hx, rfl⟩) (formatAddr b) (by simp)
            exact this e
          rw [upd_other _ _ hne]
          exact i2 l x hx
        · rw [List.getElem?_append_right (by omega)] at hx
          have hl0 : l = (listened pre).length := by
            rcases Nat.lt_or_ge (l - (listened pre).length) 1 with h | h
            · omega
            · rw [List.getElem?_eq_none (by simpa using h)] at hx
              cases hx
          subst hl0
          simp only [Nat.sub_self, List.getElem?_cons_zero, Option.some.injEq] at hx
          subst hx
          rw [upd_same, i1]
      · have ha : ∀ b, a ≠ .listen b := fun b e => ha ⟨b, e⟩
        have e1 : listened [a] = [] := by
          cases a <;> first | rfl | exact absurd rfl (ha _)
        obtain ⟨q1, q2⟩ := quiet_listen ha hr2 hs
        rw [e1, List.append_nil, q1, q2]
        exact ⟨i1, i2⟩

theorem format_any (n : Nat) : formatAddr (anyHost ++ decimal n) = anyHost ++ decimal n := by
  unfold formatAddr
  have e : anyHost ++ decimal n = [48, 46, 48, 46, 48, 46, 48] ++ colon :: decimal n := rfl
  rw [e, lastSegment_append _ _ (System.colon_notMem_decimal n)]
  rfl

section
variable {C : Nat → List Dock.Carried} {H R : Nat → Str} {black : List Int} {S : System.State}

private theorem mock_host {as : List System.Act} (h : run (System.State.step C H R black) .init as = some S)
    (hR : ∀ p, ∃ y, R p = anyHost ++ y) {d : Nat} {x : BitVec 64} (hx : x ∈ (S.dock d).ports) :
    H d = [48, 46, 48, 46, 48, 46, 48] := by
  have I := System.inv_run C H R black h
  obtain ⟨e, he⟩ := ((System.dock_inv I d).1.ports x).mp hx
  obtain ⟨_, _, h3, _⟩ := port_registered I he
  obtain ⟨y, hy⟩ := hR (System.other e)
  rw [← h3, hy]
  exact (C53_host_partial [48, 46, 48, 46, 48, 46, 48] y).mpr (by decide)

private theorem mock_apart {as : List System.Act} (h : run (System.State.step C H R black) .init as = some S)
    (hR : ∀ p, ∃ y, R p = anyHost ++ y) {hub : Str} {own : Nat} (hh : lastSegment hub = decimal own)
    (ho : own ≤ 20000 ∨ 49000 < own ∨ (own : Int) ∈ black) {v w : Listening}
    (hv : ∀ d x, v = some (d, x) → x ∈ (S.dock d).ports) (hw : ∀ d x, w = some (d, x) → x ∈ (S.dock d).ports)
    (e : formatAddr (listenAddr hub v) = formatAddr (listenAddr hub w)) : v = w := by
  cases v with
  | none =>
    cases w with
    | none => rfl
    | some w =>
      obtain ⟨d, x⟩ := w
      simp only [listenAddr] at e
      rw [format_any, formatAddr, hh] at e
      have := decimal_inj _ _ (List.append_cancel_left e)
      exact absurd this.symm (C144_apart_partial C H R black as S h own ho d x (hw d x rfl))
  | some v =>
    obtain ⟨d, x⟩ := v
    cases w with
    | none =>
      simp only [listenAddr] at e
      rw [format_any, formatAddr, hh] at e
      have := decimal_inj _ _ (List.append_cancel_left e)
      exact absurd this (C144_apart_partial C H R black as S h own ho d x (hv d x rfl))
    | some w =>
      obtain ⟨d', x'⟩ := w
      simp only [listenAddr, format_any] at e
      have hx := BitVec.eq_of_toNat_eq (decimal_inj _ _ (List.append_cancel_left e))
      subst hx
      by_cases hd : d = d'
      · rw [hd]
      · have h1 := hv d x rfl
        have h2 := hw d' x rfl
        exact absurd h2 (C79_no_conflict C H R black as S h d d' hd
          ((mock_host h hR h1).trans (mock_host h hR h2).symm) x h1)

end

/-- C145, first part: on the mock network, where the hub sees all docks at the address 0.0.0.0, the hub and all docks are
found under the addresses on which they listen, whatever else is done on the network, if the port of the hub is outside the
range of the ports for docks or in the black list.  `who` are the hub and the docks that have listened, in this order. -/
theorem C145_found_partial (C : Nat → List Dock.Carried) (H R : Nat → Str) (black : List Int)
    (as : List System.Act) (S : System.State) (h : run (System.State.step C H R black) .init as = some S)
    (hR : ∀ p, ∃ y, R p = anyHost ++ y)
    (hub : Str) (own : Nat) (hh : lastSegment hub = decimal own)
    (ho : own ≤ 20000 ∨ 49000 < own ∨ (own : Int) ∈ black)
    (who : List Listening) (hw : who.Nodup) (hp : ∀ d x, some (d, x) ∈ who → x ∈ (S.dock d).ports)
    (acts : List Act) (m : Net) (hm : run Net.step .init acts = some m) (hr : Act.reset ∉ acts)
    (hl : listened acts = who.map (listenAddr hub)) (l : Nat) (w : Listening) (hwl : who[l]? = some w) :
    m.listeners (formatAddr (listenAddr hub w)) = some l := by
  have hn : ((listened acts).map formatAddr).Nodup := by
    rw [hl, List.map_map]
    have key : ∀ (ws : List Listening), ws.Nodup → (∀ w ∈ ws, w ∈ who) →
        (ws.map (formatAddr ∘ listenAddr hub)).Nodup := by
      intro ws
      induction ws with
      | nil => intros; exact List.nodup_nil
      | cons v ws ih =>
        intro hd hs
        rw [List.nodup_cons] at hd
        rw [List.map_cons, List.nodup_cons]
        refine ⟨?_, ih hd.2 fun w hw => hs w (List.mem_cons_of_mem _ hw)⟩
        intro hm
        obtain ⟨w, hw1, hw2⟩ := List.mem_map.mp hm
        have := mock_apart h hR hh ho (v := w) (w := v)
          (fun d x e => hp d x (e ▸ hs w (List.mem_cons_of_mem _ hw1)))
          (fun d x e => hp d x (e ▸ hs v (List.mem_cons_self ..))) hw2
        exact hd.1 (this ▸ hw1)
    exact key who hw fun w hw => hw
  refine (listeners_found _ acts rfl m hm hr hn).2 l _ ?_
  rw [hl, List.getElem?_map, hwl]
  rfl

/-- C145, second part: under the same conditions, when a dock dials an address that the hub has named, it reaches the
listener of the dock that listens there: the address is that of a dock, and the listener found is the one of this dock, once
it has listened. -/
theorem C145_dial_partial (C : Nat → List Dock.Carried) (H R : Nat → Str) (black : List Int)
    (as : List System.Act) (S : System.State) (h : run (System.State.step C H R black) .init as = some S)
    (hR : ∀ p, ∃ y, R p = anyHost ++ y)
    (hub : Str) (own : Nat) (hh : lastSegment hub = decimal own)
    (ho : own ≤ 20000 ∨ 49000 < own ∨ (own : Int) ∈ black)
    (who : List Listening) (hw : who.Nodup) (hp : ∀ d x, some (d, x) ∈ who → x ∈ (S.dock d).ports)
    (acts : List Act) (m : Net) (hm : run Net.step .init acts = some m) (hr : Act.reset ∉ acts)
    (hl : listened acts = who.map (listenAddr hub))
    (d p : Nat) (addr : Str) (hd : (S.dock d).handler p = .dialling addr) :
    ∃ d' x, addr = H d' ++ colon :: decimal x.toNat ∧ x ∈ (S.dock d').ports ∧
      ∀ l, who[l]? = some (some (d', x)) → m.listeners (formatAddr addr) = some l := by
  obtain ⟨d', x, h1, h2, _⟩ := C80_dial C H R black as S h d p addr hd
  refine ⟨d', x, h1, h2, fun l hl2 => ?_⟩
  have h3 := C145_found_partial C H R black as S h hR hub own hh ho who hw hp acts m hm hr hl l _ hl2
  rw [h1, formatAddr, lastSegment_append _ _ (System.colon_notMem_decimal _)]
  rw [listenAddr, format_any] at h3
  exact h3

/-- "127.0.0.1:55555" -/
def hub55555 : Str := [49, 50, 55, 46, 48, 46, 48, 46, 49, 58, 53, 53, 53, 53, 53]

/-- The host "0.0.0.0". -/
def mockH : Str := [48, 46, 48, 46, 48, 46, 48]

/-- The conditions of both theorems can be met: two docks have their ports; the hub and the docks have listened. -/
example : lastSegment hub55555 = decimal 55555 ∧
    (∃ S, run (System.State.step sysC (fun _ => mockH) (fun _ => anyHost ++ [54]) []) .init twinActs = some S ∧
      ((S.dock 0).ports, (S.dock 1).ports) = ([20001], [20002])) ∧
    (∃ m, run Net.step .init [.listen hub55555, .listen (listenAddr hub55555 (some (0, 20001))),
        .listen (listenAddr hub55555 (some (1, 20002)))] = some m ∧
      m.listeners (formatAddr hub55555) = some 0 ∧ m.listeners (anyHost ++ decimal 20002) = some 2) :=
  ⟨by decide +kernel, sysWitness (by decide +kernel), _, rfl, by decide +kernel, by decide +kernel⟩

/-- A dock that dials. -/
example : ∃ S, run (System.State.step sysC (fun _ => mockH) (fun _ => anyHost ++ [54]) []) .init sysQuery = some S ∧
    dialView ((S.dock 1).handler 2) = some (mockH ++ colon :: decimal 20001) := sysWitness (by decide +kernel)

/-- C145 does not hold for all ports of the hub: the hub listens on port 20002, two docks start, the second one is given
this port as well, and from then on the listener found under the address of the hub is the one of this dock. -/
theorem C145_hub_refuted : ∃ hub : Str, lastSegment hub = decimal 20002 ∧
    (∃ S, run (System.State.step sysC (fun _ => mockH) (fun _ => anyHost ++ [54]) []) .init twinActs = some S ∧
      (20001 : BitVec 64) ∈ (S.dock 0).ports ∧ (20002 : BitVec 64) ∈ (S.dock 1).ports) ∧
    (∃ m, run Net.step .init [.listen (listenAddr hub none), .listen (listenAddr hub (some (0, 20001))),
        .listen (listenAddr hub (some (1, 20002)))] = some m ∧
      m.listeners (formatAddr hub) = some 2) := by
  refine ⟨[49, 58, 50, 48, 48, 48, 50], by decide +kernel, ?_, _, rfl, by decide +kernel⟩
  obtain ⟨S, h1, h2⟩ : ∃ S, run (System.State.step sysC (fun _ => mockH) (fun _ => anyHost ++ [54]) []) .init twinActs
      = some S ∧ ((S.dock 0).ports, (S.dock 1).ports) = ([20001], [20002]) := sysWitness (by decide +kernel)
  injection h2 with h3 h4
  exact ⟨S, h1, by rw [h3]; simp, by rw [h4]; simp⟩

end Verif.Props
