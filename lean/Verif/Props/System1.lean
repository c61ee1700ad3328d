import Verif.System.Facts
import Verif.Props.Hub3
import Verif.Props.Dock1

/-!
# C61, C62, C79, C80: a hub and its docks

In all theorems there are any number of docks; `C d` are the features of dock `d`, `H d` is its host, `R` are the remote
addresses that the hub sees and `black` its black list; `acts` is any interleaving of the goroutines of all processes,
with connections that lose packets and processes that stop.
-/

namespace Verif.Props

open Verif Verif.Codec Verif.Proto Verif.System
open Verif.Dock (Carried LastNamed)

variable (C : Nat → List Carried) (H : Nat → Str) (R : Nat → Str) (black : List Int)

-- for the views of the examples
set_option synthInstance.maxSize 1024

/-! ## An example system -/

/-- Dock 0 carries the discoverable feature `a`; dock 1 carries the hidden feature `b`. -/
def sysC : Nat → List Carried := fun d => if d = 0 then [⟨nameA, 3, true⟩] else [⟨nameB, 2, false⟩]

/-- The docks are on different hosts. -/
def sysH : Nat → Str := fun d => if d = 0 then [97] else [98]

/-- Dock 0 has connection 0 to the hub. -/
def sysR : Nat → Str := fun e => if e = 1 then [97, 58, 49] else [98, 58, 49]

/-- Dock 0 registers with the hub and listens. -/
def sysBoot : List System.Act :=
  [.join 0, .dock 0 .storeHub, .dock 0 (.greet 0 [nameA]), .deliver 1, .hub (.work 1), .hub (.work 1), .deliver 0,
   .dock 0 (.work 0 []), .dock 0 (.work 0 [nameA]), .deliver 1, .hub (.work 1), .hub (.work 1)]

/-- Dock 1 registers with the hub, calls feature `a`, asks the hub for it and receives the answer. -/
def sysQuery : List System.Act := sysBoot ++
  [.join 1, .dock 1 .storeHub, .dock 1 (.greet 2 []), .deliver 3, .hub (.work 3), .deliver 2,
   .dock 1 (.work 2 []), .dock 1 (.work 2 []), .dock 1 (.call ⟨nameA, methM, [], true⟩ 77), .dock 1 (.store 0),
   .dock 1 (.setReq 0), .dock 1 (.commit 0), .deliver 3, .hub (.work 3), .deliver 3, .hub (.look 0), .hub (.examine 0),
   .hub (.respond 0), .deliver 2]

/-- Dock 1 dials dock 0, both register with each other, and the request is sent when dock 0 is ready. -/
def sysSend : List System.Act := sysQuery ++
  [.dial 1 2 0 20001, .dock 1 (.work 2 []), .accept 5, .dock 0 (.greet 5 [nameA]), .deliver 4, .dock 1 (.work 4 []),
   .dock 1 (.work 4 []), .dock 1 (.work 4 []), .dock 1 (.greet 4 []), .deliver 5, .dock 0 (.work 5 []), .deliver 5,
   .dock 0 (.work 5 [nameA]), .dock 0 (.work 5 []), .deliver 4, .dock 1 (.work 4 []), .dock 1 (.visit 4 0),
   .dock 1 (.work 4 []), .dock 1 (.work 4 []), .dock 1 (.work 4 []), .dock 1 (.work 4 [])]

/-- The request is executed, and the call returns. -/
def sysDone : List System.Act := sysSend ++
  [.deliver 5, .dock 0 (.invoke 0), .dock 0 (.finish 0 ⟨[.bool 0 true], []⟩), .dock 0 (.respond 0), .deliver 4,
   .dock 1 (.callback 0), .dock 1 (.receive 0), .dock 1 (.closeChan 0), .dock 1 (.delete 0)]

/-- An execution with a view of its final state. -/
theorem sysWitness {β : Type} [DecidableEq β] {C : Nat → List Carried} {H R : Nat → Str} {as : List System.Act}
    {f : System.State → β} {b : β}
    (h : ((run (System.State.step C H R []) .init as).any fun S => f S = b) = true) :
    ∃ S, run (System.State.step C H R []) .init as = some S ∧ f S = b := by
  cases hr : run (System.State.step C H R []) .init as with
  | none => rw [hr] at h; cases h
  | some S =>
    rw [hr] at h
    exact ⟨S, rfl, of_decide_eq_true h⟩

/-- The requests in a history: peer, index, feature and method. -/
def requestView : Dock.Ev → Option (Nat × BitVec 64 × Str × Str)
  | .sent p (.rpcRequest x slot meth _ _) => some (p, x, slot, meth)
  | _ => none

/-- The executions for peers in a history. -/
def executionView : Dock.Ev → Option (Nat × BitVec 64 × Nat × Str × Str)
  | .invoke (some (p, x)) f c => some (p, x, f, c.slot, c.meth)
  | _ => none

/-! ## C61 -/

/-- C61, first part: a request goes out over a connection between the calling dock and a dock that carries the feature as
discoverable. -/
theorem C61_routed (acts : List System.Act) (S : System.State)
    (h : run (System.State.step C H R black) .init acts = some S) (d e : Nat) (x : BitVec 64) (slot meth : Str)
    (args : List Val) (wr : Bool) (hs : Dock.Ev.sent e (.rpcRequest x slot meth args wr) ∈ (S.dock d).log) :
    S.owner e = some (.dock d) ∧ ∃ d' f, S.owner (other e) = some (.dock d') ∧ LastNamed (C d') slot f ∧
      f.discoverable = true :=
  told_true (inv_run C H R black h) ((dock_inv (inv_run C H R black h) d).1.sent _ _ hs)

example : ∃ S, run (System.State.step sysC sysH sysR []) .init sysSend = some S ∧
    ((S.dock 1).log.filterMap requestView, S.owner 4, S.owner 5) =
      ([(4, 77, nameA, methM)], some (.dock 1), some (.dock 0)) := sysWitness (by decide +kernel)

/-- The requests that a dock received. -/
def requestGot : Dock.Ev → Option (Nat × BitVec 64 × Dock.Call)
  | .recv p (.rpcRequest x slot meth args wr) => some (p, x, ⟨slot, meth, args, wr⟩)
  | _ => none

theorem filterMap_congr {α β : Type} {f g : α → Option β} {l : List α} (h : ∀ a ∈ l, f a = g a) :
    l.filterMap f = l.filterMap g := by
  induction l with
  | nil => rfl
  | cons a l ih =>
    rw [List.filterMap_cons, List.filterMap_cons, h a (List.mem_cons_self ..), ih fun b hb => h b (List.mem_cons_of_mem _ hb)]

/-- A request that arrives is for a discoverable feature. -/
theorem request_discoverable {C : Nat → List Carried} {H : Nat → Str} {R : Nat → Str} {black : List Int} {S : System.State}
    (I : System.Inv C H R black S) {d e : Nat} {x : BitVec 64} {slot meth : Str} {args : List Val} {wr : Bool}
    (h : Dock.Ev.recv e (.rpcRequest x slot meth args wr) ∈ (S.dock d).log) :
    ∃ f, LastNamed (C d) slot f ∧ f.discoverable = true := by
  obtain ⟨ho, d', args', wr', ho', hs, _⟩ := request_sent I h
  obtain ⟨_, d'', f, ho'', hf⟩ := told_true I ((dock_inv I d').1.sent _ _ hs)
  rw [other_other, ho] at ho''
  cases ho''
  exact ⟨f, hf⟩

/-- C61, second part: the goroutines that execute calls for peers are, in this order, those of all requests that have
arrived, each with the call of the request and the feature carried (last) under its name, which is discoverable. -/
theorem C61_executed (acts : List System.Act) (S : System.State)
    (h : run (System.State.step C H R black) .init acts = some S) (d : Nat) :
    (S.dock d).log.filterMap requestGot =
      (List.range (S.dock d).nx).map (fun k => (((S.dock d).exec k).peer, ((S.dock d).exec k).index, ((S.dock d).exec k).call)) ∧
    ∀ k, k < (S.dock d).nx → ∃ f, LastNamed (C d) ((S.dock d).exec k).call.slot f ∧ f.discoverable = true ∧
      f.feature = ((S.dock d).exec k).feature := by
  have I := inv_run C H R black h
  obtain ⟨_, _, _, hH⟩ := dock_inv I d
  have key : ∀ a ∈ (S.dock d).log, (Dock.askedOf (C d) a).map (fun (p, x, _, c) => (p, x, c)) = requestGot a := by
    intro a ha
    unfold Dock.askedOf requestGot
    split
    · rename_i p x slot meth args wr
      obtain ⟨f, hf, _⟩ := request_discoverable I ha
      rw [(Dock.slotsOf_some _ _ _).mpr hf]
      rfl
    · split
      · rename_i hn; exact (hn _ _ _ _ _ _ rfl).elim
      · rfl
  constructor
  · rw [← filterMap_congr key, ← List.map_filterMap, hH.asked, List.map_map]
    rfl
  · intro k hk
    have : ((S.dock d).exec k).key ∈ (S.dock d).log.filterMap (Dock.askedOf (C d)) := by
      rw [hH.asked]; exact List.mem_map.mpr ⟨k, List.mem_range.mpr hk, rfl⟩
    obtain ⟨a, ha, hk⟩ := List.mem_filterMap.mp this
    unfold Dock.askedOf at hk
    split at hk
    · obtain ⟨f, hf, hd⟩ := request_discoverable I ha
      rw [(Dock.slotsOf_some _ _ _).mpr hf] at hk
      simp only [Option.map_some, Option.some.injEq, Dock.Exec.key, Prod.mk.injEq] at hk
      obtain ⟨_, _, h3, h4⟩ := hk
      rw [← h4]
      exact ⟨f, hf, hd, h3⟩
    · cases hk

example : ∃ S, run (System.State.step sysC sysH sysR []) .init sysDone = some S ∧
    ((S.dock 0).nx, ((S.dock 0).exec 0).peer, ((S.dock 0).exec 0).call.slot, ((S.dock 0).exec 0).feature) =
      (1, 5, nameA, 3) := sysWitness (by decide +kernel)

/-! ## C60 again -/

/-- C60 for the whole system: if all processes are unmodified, a feature that is not discoverable is not executed on
behalf of a peer. -/
theorem C60_honest_partial (acts : List System.Act) (S : System.State)
    (h : run (System.State.step C H R black) .init acts = some S) (d p : Nat) (x : BitVec 64) (feature : Nat) (c : Dock.Call)
    (hi : Dock.Ev.invoke (some (p, x)) feature c ∈ (S.dock d).log) :
    ∃ f, LastNamed (C d) c.slot f ∧ f.discoverable = true ∧ f.feature = feature := by
  have I := inv_run C H R black h
  obtain ⟨_, _, _, hH⟩ := dock_inv I d
  have h1 : (p, x, feature, c) ∈ (S.dock d).log.filterMap Dock.remoteOf := List.mem_filterMap.mpr ⟨_, hi, rfl⟩
  obtain ⟨ids, _, hm, he⟩ := hH.invoked
  rw [he] at h1
  obtain ⟨k, hk, e⟩ := List.mem_map.mp h1
  have := (C61_executed C H R black acts S h d).2 k ((hm k).mp hk).1
  cases e
  exact this

example : ∃ S, run (System.State.step sysC sysH sysR []) .init sysDone = some S ∧
    (S.dock 0).log.filterMap executionView = [(5, 77, 3, nameA, methM)] := sysWitness (by decide +kernel)

/-! ## C62 -/

/-- Whatever a receiver sees in the same way as the sender, it sees at most as often. -/
theorem got_count {C : Nat → List Carried} {H : Nat → Str} {R : Nat → Str} {black : List Int} {S : System.State}
    (I : System.Inv C H R black S) (φ : Proto → Bool) (hφ : ∀ p, φ (head p) = φ p) (e : Nat) :
    ((S.got e).filter φ).length ≤ ((S.sentBy (other e)).filter φ).length := by
  obtain ⟨del, h1, h2⟩ := I.fifo e
  have : ∀ (del got : List Proto), del.map fate = got.map Fate.arrives → (got.filter φ).length = (del.filter φ).length := by
    intro del
    induction del with
    | nil => intro got h; rw [List.map_eq_nil_iff.mp h.symm]
    | cons a del ih =>
      intro got h
      cases got with
      | nil => cases h
      | cons b got =>
        simp only [List.map_cons, List.cons.injEq] at h
        have hb : φ b = φ a := by rw [← hφ b, ← hφ a, fate_head h.1]
        have := ih got h.2
        simp only [List.filter_cons, hb]
        split <;> simp [this]
  rw [this del _ h1]
  exact (((List.sublist_append_left _ _).trans h2).filter φ).length_le

/-- Register requests. -/
def isReg : Proto → Bool
  | .registerRequest _ => true
  | _ => false

/-- The registrations of a peer at the hub. -/
def regsOf (e : Nat) (log : List Hub.Ev) : List (List Str × Nat) :=
  log.filterMap fun
    | .register p slots port => if p = e then some (slots, port) else none
    | _ => none

theorem regsOf_length (e : Nat) (log : List Hub.Ev) : (regsOf e log).length = ((hubGot e log).filter isReg).length := by
  induction log with
  | nil => rfl
  | cons a log ih =>
    unfold regsOf hubGot at ih ⊢
    rw [List.filterMap_cons, List.filterMap_cons]
    cases a with
    | register p slots port => by_cases h : p = e <;> simp [h, isReg, List.filter_cons, ih]
    | ready p slots => by_cases h : p = e <;> simp [h, isReg, List.filter_cons, ih]
    | query p slot => by_cases h : p = e <;> simp [h, isReg, List.filter_cons, ih]
    | _ => simpa using ih

theorem regsTo_length (e : Nat) (log : List Dock.Ev) : (Dock.regsTo e log).length = ((dockSent e log).filter isReg).length := by
  induction log with
  | nil => rfl
  | cons a log ih =>
    unfold Dock.regsTo dockSent at ih ⊢
    rw [List.filterMap_cons, List.filterMap_cons]
    cases a with
    | sent p pkt =>
      by_cases h : p = e
      · cases pkt <;> simp [h, isReg, List.filter_cons, ih]
      · cases pkt <;> simp [h, ih]
    | _ => simpa using ih

theorem eq_of_length_le_one {α : Type} {l : List α} (h : l.length ≤ 1) {a b : α} (ha : a ∈ l) (hb : b ∈ l) : a = b := by
  match l, h with
  | [x], _ =>
    simp at ha hb
    rw [ha, hb]

section
variable {C : Nat → List Carried} {H : Nat → Str} {R : Nat → Str} {black : List Int} {S : System.State}

/-- The ends of the hub. -/
theorem hub_end (I : System.Inv C H R black S) {e : Nat} (h : S.owner e = some .hub) :
    ∃ d, S.owner (other e) = some (.dock d) ∧ Hub.pickIP (R e) = H d := by
  have hlt : e < 2 * S.n := by
    rcases Nat.lt_or_ge e (2 * S.n) with h' | h'
    · exact h'
    · rw [I.shape.fresh e h'] at h; cases h
  rcases Nat.mod_two_eq_zero_or_one e with h' | h'
  · obtain ⟨d, hd⟩ := I.shape.even (e / 2) (by omega)
    rw [show 2 * (e / 2) = e by omega, h] at hd
    cases hd
  · obtain ⟨d, hd⟩ := I.shape.even (e / 2) (by omega)
    refine ⟨d, ?_, ?_⟩
    · rw [show other e = 2 * (e / 2) by unfold other; rw [if_neg (by omega)]; omega]
      exact hd
    · have := I.shape.host (e / 2) d (by rw [show 2 * (e / 2) + 1 = e by omega]; exact h) hd
      rw [show 2 * (e / 2) + 1 = e by omega] at this
      exact this

/-- Each peer registers at most once. -/
theorem regs_once (I : System.Inv C H R black S) (e : Nat) : (regsOf e S.hub.log).length ≤ 1 := by
  rw [regsOf_length]
  have h1 := ((I.got.hub e).filter isReg).length_le
  split at h1
  · rename_i ho
    obtain ⟨d, hd, _⟩ := hub_end I ho
    have h2 := got_count I isReg (fun p => by cases p <;> rfl) e
    unfold System.State.sentBy at h2
    rw [hd] at h2
    simp only at h2
    rw [← regsTo_length] at h2
    have h3 := (dock_inv I d).2.1.greet (other e)
    have : (if (S.dock d).isPeer (other e) = true then 1 else 0) ≤ 1 := by split <;> omega
    omega
  · rw [List.filter_nil] at h1
    exact Nat.le_succ_of_le h1

theorem mem_regsOf {e : Nat} {log : List Hub.Ev} {slots : List Str} {port : Nat} :
    (slots, port) ∈ regsOf e log ↔ Hub.Ev.register e slots port ∈ log := by
  unfold regsOf
  rw [List.mem_filterMap]
  constructor
  · rintro ⟨a, h, h'⟩
    split at h'
    · split at h'
      · cases h'; rename_i hp; subst hp; exact h
      · cases h'
    · cases h'
  · intro h; exact ⟨_, h, by simp⟩

/-- A port that a dock was told comes from a registration of this dock at the hub. -/
theorem port_registered (I : System.Inv C H R black S) {d e : Nat} {port : BitVec 64}
    (h : Dock.Ev.recv e (.registerResponse port) ∈ (S.dock d).log) :
    S.owner e = some (.dock d) ∧ S.owner (other e) = some .hub ∧ Hub.pickIP (R (other e)) = H d ∧
    ∃ slots n, Hub.Ev.register (other e) slots n ∈ S.hub.log ∧ port = BitVec.ofNat 64 n ∧ port.toNat = n := by
  obtain ⟨ho, hg⟩ := recv_owner I h
  obtain ⟨pkt, hf, hp⟩ := got_sent I hg
  have := fate_control hf (by simp [Proto.kind])
  subst this
  unfold System.State.sentBy at hp
  split at hp
  · rename_i d' _
    exact ((dock_inv I d').2.2.2.sent _ _ (mem_dockSent.mp hp)).elim
  · rename_i ho'
    obtain ⟨d', hd', hR⟩ := hub_end I ho'
    rw [other_other, ho] at hd'
    cases hd'
    refine ⟨ho, ho', hR, ?_⟩
    obtain ⟨as, hr⟩ := I.parts.hub
    have h1 : port ∈ portsSent (other e) S.hub.log := by
      unfold portsSent
      exact List.mem_filterMap.mpr ⟨_, mem_hubSent.mp hp, by simp⟩
    have h2 : port ∈ portsOf (other e) S.hub.log := by
      rw [← C74_register_responses R black as _ hr]
      exact List.mem_append_left _ h1
    unfold portsOf at h2
    obtain ⟨a, ha, hb⟩ := List.mem_filterMap.mp h2
    split at hb
    · split at hb
      · rename_i p slots n hp'
        cases hb
        subst hp'
        refine ⟨slots, n, ha, rfl, ?_⟩
        have := C47_ports_in_range R black as _ hr _ _ _ ha
        rw [BitVec.toNat_ofNat]
        exact Nat.mod_eq_of_lt (by omega)
      · cases hb
    · cases hb
  · cases hp

theorem mem_hubGot_ready {e : Nat} {log : List Hub.Ev} {slots : List Str} (h : Hub.Ev.ready e slots ∈ log) :
    .ready slots ∈ hubGot e log := List.mem_filterMap.mpr ⟨_, h, by simp⟩

theorem mem_hubGot_register {e : Nat} {log : List Hub.Ev} {slots : List Str} {port : Nat}
    (h : Hub.Ev.register e slots port ∈ log) : .registerRequest slots ∈ hubGot e log :=
  List.mem_filterMap.mpr ⟨_, h, by simp⟩

/-- What is offered at the hub is offered by a dock that carries the feature as discoverable and listens. -/
theorem offered_listening (I : System.Inv C H R black S) {p : Nat} {slot addr : Str}
    (h : Hub.Offered R S.hub.log p slot addr) : ∃ d x f, addr = H d ++ colon :: decimal x.toNat ∧ x ∈ (S.dock d).ports ∧
      LastNamed (C d) slot f ∧ f.discoverable = true := by
  obtain ⟨pre, post, slots, e, _, slots', n, hreg, hslot, haddr⟩ := h
  have hready : Hub.Ev.ready p slots ∈ S.hub.log := by rw [e]; simp
  have hreg : Hub.Ev.register p slots' n ∈ S.hub.log := by rw [e]; exact List.mem_append_left _ hreg
  have h1 := (I.got.hub p).subset (mem_hubGot_ready hready)
  split at h1
  case isFalse => cases h1
  rename_i ho
  obtain ⟨d, hd, hR⟩ := hub_end I ho
  obtain ⟨hO, hP, _, hH⟩ := dock_inv I d
  -- the registration
  have h2 := (I.got.hub p).subset (mem_hubGot_register hreg)
  rw [if_pos ho] at h2
  obtain ⟨pkt, hf, hp⟩ := got_sent I h2
  have := fate_control hf (by simp [Proto.kind])
  subst this
  obtain ⟨d', hd', hp⟩ := sent_dock I hp (by simp) (by simp)
  rw [hd] at hd'
  cases hd'
  obtain ⟨f, hf1, hf2⟩ := ((Dock.isPerm_collect (hH.sent _ _ hp)).2 slot).mp hslot
  -- the ready packet
  obtain ⟨pkt, hf, hp⟩ := got_sent I h1
  have := fate_control hf (by simp [Proto.kind])
  subst this
  obtain ⟨d', hd', hp⟩ := sent_dock I hp (by simp) (by simp)
  rw [hd] at hd'
  cases hd'
  rcases hO.sent _ _ hp with ⟨ss, h3⟩ | ⟨x, h3⟩
  · obtain ⟨_, hg⟩ := recv_owner I h3
    obtain ⟨pkt, hf, hp⟩ := got_sent I hg
    have := fate_control hf (by simp [Proto.kind])
    subst this
    obtain ⟨d', hd', hp⟩ := sent_dock I hp (by simp) (by simp)
    rw [other_other, ho] at hd'
    cases hd'
  · obtain ⟨_, _, _, ss, n', h4, h5, h6⟩ := port_registered I h3
    rw [other_other] at h4
    have := eq_of_length_le_one (regs_once I p) (mem_regsOf.mpr hreg) (mem_regsOf.mpr h4)
    cases this
    refine ⟨d, x, f, ?_, (hO.ports x).mpr ⟨_, h3⟩, hf1, hf2⟩
    rw [haddr, Hub.fullAddr, hR, h6]

end

/-- C62: when a query for a feature has been answered, the answer is the address of a dock that carries this feature as
discoverable and is listening there. -/
theorem C62_listening (acts : List System.Act) (S : System.State)
    (h : run (System.State.step C H R black) .init acts = some S) (q : Nat) (addr : Str)
    (hq : (S.hub.query q).phase = .done addr) :
    ∃ d x f, addr = H d ++ colon :: decimal x.toNat ∧ x ∈ (S.dock d).ports ∧ LastNamed (C d) (S.hub.query q).slot f ∧
      f.discoverable = true := by
  have I := inv_run C H R black h
  obtain ⟨as, hr⟩ := I.parts.hub
  obtain ⟨p, ho⟩ := C49_answer_was_offered R black as _ hr q addr hq
  exact offered_listening I ho

/-- C62 for the packets: whatever address the hub has sent, a dock listens there that carries, as discoverable, a feature
the recipient has asked for. -/
theorem C62_sent (acts : List System.Act) (S : System.State)
    (h : run (System.State.step C H R black) .init acts = some S) (c : Nat) (addr : Str)
    (hs : Hub.Ev.sent c (.queryResponse addr) ∈ S.hub.log) :
    ∃ slot d x f, Hub.Ev.query c slot ∈ S.hub.log ∧ addr = H d ++ colon :: decimal x.toNat ∧ x ∈ (S.dock d).ports ∧
      LastNamed (C d) slot f ∧ f.discoverable = true := by
  have I := inv_run C H R black h
  obtain ⟨as, hr⟩ := I.parts.hub
  obtain ⟨pre, post, e⟩ := List.append_of_mem hs
  obtain ⟨slot, p, hq, ho⟩ := C49_response_was_offered R black as _ hr pre post c addr e
  have ho : Hub.Offered R S.hub.log p slot addr := by rw [e]; exact ho.append _
  obtain ⟨d, x, f, h1⟩ := offered_listening I ho
  exact ⟨slot, d, x, f, by rw [e]; exact List.mem_append_left _ hq, h1⟩

/-- The address in the state of a query. -/
def answerView : Hub.Phase → Option Str
  | .done addr => some addr
  | _ => none

example : ∃ S, run (System.State.step sysC sysH sysR []) .init sysQuery = some S ∧
    (answerView (S.hub.query 0).phase, (S.hub.query 0).slot, sysH 0, (S.dock 0).ports) =
      (some ([97] ++ colon :: decimal 20001), nameA, [97], [20001]) := sysWitness (by decide +kernel)

/-! ## C79: no two docks of a host listen on the same port -/

theorem two_mem {α : Type} {l : List α} {a b : α} (ha : a ∈ l) (hb : b ∈ l) (h : a ≠ b) :
    (∃ pre mid post, l = pre ++ a :: mid ++ b :: post) ∨ ∃ pre mid post, l = pre ++ b :: mid ++ a :: post := by
  obtain ⟨pre, post, rfl⟩ := List.append_of_mem ha
  rcases List.mem_append.mp hb with hb | hb
  · obtain ⟨x, y, rfl⟩ := List.append_of_mem hb
    exact Or.inr ⟨x, y, post, by simp⟩
  · rcases List.mem_cons.mp hb with hb | hb
    · exact absurd hb.symm h
    · obtain ⟨x, y, rfl⟩ := List.append_of_mem hb
      exact Or.inl ⟨pre, x, y, by simp⟩

/-- C79: docks on one host listen on different ports. -/
theorem C79_no_conflict (acts : List System.Act) (S : System.State)
    (h : run (System.State.step C H R black) .init acts = some S) (d d' : Nat) (hd : d ≠ d') (hH : H d = H d')
    (x : BitVec 64) (hx : x ∈ (S.dock d).ports) : x ∉ (S.dock d').ports := by
  intro hx'
  have I := inv_run C H R black h
  obtain ⟨e, he⟩ := ((dock_inv I d).1.ports x).mp hx
  obtain ⟨e', he'⟩ := ((dock_inv I d').1.ports x).mp hx'
  obtain ⟨h1, _, h3, ss, n, h4, _, h5⟩ := port_registered I he
  obtain ⟨h1', _, h3', ss', n', h4', _, h5'⟩ := port_registered I he'
  have hne : other e ≠ other e' := by
    intro x
    rw [other_inj x, h1'] at h1
    cases h1
    exact hd rfl
  obtain ⟨as, hr⟩ := I.parts.hub
  rcases two_mem h4 h4' (fun x => hne (Hub.Ev.register.inj x).1) with ⟨pre, mid, post, e⟩ | ⟨pre, mid, post, e⟩
  · exact ports_unique R black as _ hr _ _ _ _ _ _ _ _ _ e (by rw [h3, h3', hH]) (by omega)
  · exact ports_unique R black as _ hr _ _ _ _ _ _ _ _ _ e (by rw [h3, h3', hH]) (by omega)

/-- Two docks on one host. -/
def twinActs : List System.Act :=
  [.join 0, .dock 0 .storeHub, .dock 0 (.greet 0 [nameA]), .deliver 1, .hub (.work 1), .hub (.work 1), .deliver 0,
   .join 1, .dock 1 .storeHub, .dock 1 (.greet 2 []), .deliver 3, .hub (.work 3), .deliver 2]

example : ∃ S, run (System.State.step sysC (fun _ => [98]) (fun _ => [98, 58, 49]) []) .init twinActs = some S ∧
    ((S.dock 0).ports, (S.dock 1).ports) = ([20001], [20002]) :=
  sysWitness (by decide +kernel)

/-! ## C80: what a dock dials is a listening dock -/

/-- C80: while a dock is dialling an address, a dock listens there, and it is the only one. -/
theorem C80_dial (acts : List System.Act) (S : System.State)
    (h : run (System.State.step C H R black) .init acts = some S) (d p : Nat) (addr : Str)
    (hd : (S.dock d).handler p = .dialling addr) :
    ∃ d' x, addr = H d' ++ colon :: decimal x.toNat ∧ x ∈ (S.dock d').ports ∧
      ∀ d'' x', addr = H d'' ++ colon :: decimal x'.toNat → x' ∈ (S.dock d'').ports → d'' = d' ∧ x' = x := by
  have I := inv_run C H R black h
  have h1 := (dock_inv I d).1.hand p
  rw [hd] at h1
  obtain ⟨_, hg⟩ := recv_owner I (show Dock.Ev.recv p (.queryResponse addr) ∈ (S.dock d).log from h1)
  obtain ⟨pkt, hf, hp⟩ := got_sent I hg
  have := fate_control hf (by simp [Proto.kind])
  subst this
  unfold System.State.sentBy at hp
  split at hp
  · rename_i d' _
    exact ((dock_inv I d').2.2.2.sent _ _ (mem_dockSent.mp hp)).elim
  · obtain ⟨slot, d', x, f, _, h2, h3, _⟩ := C62_sent C H R black acts S h _ _ (mem_hubSent.mp hp)
    refine ⟨d', x, h2, h3, ?_⟩
    intro d'' x' h4 h5
    rw [h2] at h4
    obtain ⟨h6, h7⟩ := address_inj h4
    have hx := BitVec.eq_of_toNat_eq h7
    subst hx
    refine ⟨?_, rfl⟩
    rcases Decidable.em (d'' = d') with e | e
    · exact e
    · exact absurd h5 (C79_no_conflict C H R black acts S h d' d'' (fun x => e x.symm) h6 x h3)
  · cases hp

/-- The address a handler is dialling. -/
def dialView : Dock.Handler → Option Str
  | .dialling addr => some addr
  | _ => none

example : ∃ S, run (System.State.step sysC sysH sysR []) .init sysQuery = some S ∧
    dialView ((S.dock 1).handler 2) = some ([97] ++ colon :: decimal 20001) := sysWitness (by decide +kernel)

end Verif.Props
