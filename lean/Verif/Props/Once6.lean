import Verif.Props.Once2

/-! # C148: an execution of the program of the README that prints nothing -/

namespace Verif.Props

open Verif Verif.Codec Verif.Proto Verif.System

/-- The hub's answer to the game is handled before `run` has stored the socket to the hub, /repo/dock.go:199-204 and 117-122.  `OnStart`
of the game calls `Print`; the query for the logger is sent to `sockets[0]`, which nobody is connected to. -/
def lateHello : List World.Act := List.map lift
  [.join 0, .dock 0 .storeHub, .dock 0 (.greet 0 [bytesOf "ILogger"]), .deliver 1, .hub (.work 1), .hub (.work 1), .deliver 0,
   .dock 0 (.work 0 []), .dock 0 (.work 0 [bytesOf "ILogger"]), .deliver 1, .hub (.work 1), .hub (.work 1),
   .join 1, .dock 1 (.greet 2 [bytesOf "IGame"]), .deliver 3, .hub (.work 3), .hub (.work 3), .deliver 2,
   .dock 1 (.work 2 []), .dock 1 .storeHub, .dock 1 (.work 2 [bytesOf "IGame"]), .deliver 3, .hub (.work 3), .hub (.work 3)] ++
  [.dock 0 .start, .dock 0 (.onStart 0 (bytesOf "ILogger")), .dock 0 (.onStarted 0), .dock 1 .start,
   .dock 1 (.onStart 0 (bytesOf "IGame")), .dock 1 (.call helloPrint 77 none), .dock 1 (.dock (.store 0)),
   .dock 1 (.dock (.setReq 0)), .dock 1 (.dock (.commit 0))]

set_option synthInstance.maxSize 100000 in
set_option synthInstance.maxHeartbeats 2000000 in
/-- **C148, violated.**  There is a fair execution of the program of the README that meets all hypotheses of `C148_hello_partial` but
`HubFirst`, in which `OnStart` of the game never returns and no method is ever started: nothing is printed. -/
theorem C148_silent_refuted : ∃ E : World.Course helloC helloT sysH sysR [], World.Fair E ∧ E.WeaklyFair StartTurn ∧
    BodiesReturn E ∧ (∀ d, ReadingsDiffer E d) ∧ HelloStarts E ∧ E.act 0 = some (.sys (.join 0)) ∧
    E.act 12 = some (.sys (.join 1)) ∧ E.act 28 = some (.dock 1 (.onStart 0 (bytesOf "IGame"))) ∧
    (∀ m, 28 < m → Starting (E.st m) 1 0 (bytesOf "IGame")) ∧ (∀ n d c, Calls E n d c ↔ n = 29 ∧ d = 1 ∧ c = helloPrint) ∧
    NeverReturns E 29 1 helloPrint ∧ ∀ m d k, E.act m ≠ some (.dock d (.chan (.start k))) := by
  obtain ⟨S, h, hv⟩ := worldWitness (C := helloC) (T := helloT) (H := sysH) (R := sysR) (as := lateHello)
    (f := fun S => ((World.quietOn true 2 S, startsRest 2 S, (S.sys.dock 0).n, (S.sys.dock 1).n), ((S.sys.dock 1).phase 0).result.isNone,
      [0, 1].map fun d => ((S.rest d).chan.n, (S.rest d).starts.map fun L => (L.todo, L.current))))
    (b := ((true, true, 0, 1), true, [(0, [([], none)]), (0, [([], some (bytesOf "IGame"))])])) (by decide +kernel)
  obtain ⟨S1, hs1, hv1⟩ := worldWitness (C := helloC) (T := helloT) (H := sysH) (R := sysR) (as := lateHello.take 29)
    (f := fun S => ((S.sys.dock 1).n, (S.rest 1).starts.map fun L => (L.todo, L.current))) (b := (0, [([], some (bytesOf "IGame"))])) (by decide +kernel)
  simp only [Prod.mk.injEq, List.map_cons, List.map_nil, List.cons.injEq, and_true] at hv hv1
  obtain ⟨⟨hq, hr, n0, n1⟩, hret, ⟨c0, l0⟩, c1, l1⟩ := hv
  have ht : (lateHello.all fun a => a.tame 2) = true := by decide +kernel
  have hlen : lateHello.length = 33 := by decide
  obtain ⟨E, F, hd, hD, hact, hst, htail⟩ := course_of (w := true) h ht hq (by
    intro d hd
    match d, hd with
    | 0, _ => omega
    | 1, _ => omega)
  rw [hlen] at hact
  have htick := fun n hn => (htail n hn).2
  have htail : ∀ n, lateHello.length ≤ n → S.later (E.st n) := fun n hn => (htail n hn).1
  have Q := World.quiet_of h ht hq
  obtain ⟨W, -⟩ := begin_of h ht hr (fun d => (Q.1.chan d).alive) F hst htail
  have st29 : E.st 29 = S1 := Option.some.inj ((hst 29 (by omega)).symm.trans hs1)
  have J' := World.tame_rest h (List.all_eq_true.mp ht)
  have hstarts : ∀ n d, 33 ≤ n → ((E.st n).rest d).starts = (S.rest d).starts := fun n d hn => by
    obtain ⟨k, e⟩ := (htail n (by omega)).2 d
    exact (congrArg Whole.State.starts e :)
  have one : ∀ {l : List Whole.Loop} {t c}, l.map (fun L => (L.todo, L.current)) = [(t, c)] → l = [⟨t, c⟩] := by
    intro l t c hl
    match l, hl with
    | [⟨_, _⟩], hl => cases hl; rfl
  have s1 := one l1
  -- the feature is being started
  have hon : ∀ m, 28 < m → ((E.st m).rest 1).starts[0]? = some ⟨[], some (bytesOf "IGame")⟩ := by
    refine Trace.keep (P := fun m => ((E.st m).rest 1).starts[0]? = some ⟨[], some (bytesOf "IGame")⟩) ?_ ?_
    · rw [st29, one hv1.2]; rfl
    · intro m hm hp
      rcases loop_step hp with ⟨h, _⟩ | ⟨_, h, _⟩ | ⟨_, _, h, _⟩
      · exact h
      · cases h
      · have hlt : m < 33 := Nat.lt_of_not_le fun hle => by
          obtain ⟨d', e⟩ := htick m (by omega)
          rw [e] at h
          cases h
        rw [hact m hlt] at h
        rcases (show m = 29 ∨ m = 30 ∨ m = 31 ∨ m = 32 by omega) with rfl | rfl | rfl | rfl <;> cases h
  have h29 : E.act 29 = some (.dock 1 (.call helloPrint 77 none)) := hact 29 (by omega)
  have hno : ∀ m r, 29 < m → ((E.st m).sys.dock 1).phase ((E.st 29).sys.dock 1).n ≠ .returned r := by
    intro m r hm hr
    have hlt := course_called F hm h29 (by decide +kernel)
    have h2 := course_returned F (show m ≤ max m 33 by omega) hlt hr
    rw [(htail (max m 33) (by omega)).1, st29, hv1.1] at h2
    rw [h2] at hret
    cases hret
  have hb : BodiesReturn E := by
    intro n d c q hrun
    -- no method has been called
    have hn : (S.rest d).chan.n = 0 := by
      rcases (show d = 0 ∨ d = 1 ∨ 2 ≤ d by omega) with rfl | rfl | h2
      · exact c0
      · exact c1
      · rw [J' d h2]; rfl
    refine ⟨max n 33, by omega, fun hr => ?_⟩
    obtain ⟨t, e⟩ := (htail (max n 33) (by omega)).2 d
    have e : ((E.st (max n 33)).rest d).chan = { (S.rest d).chan with clock := t } := congrArg Whole.State.chan e
    rw [e] at hr
    have hr : (S.rest d).chan.handler c = .running q := hr
    have A : Chan.AnsInv (S.rest d).chan := (Reach.facts ⟨_, h⟩ d).2.1.ans
    obtain ⟨h1, -, h3⟩ := A.inHandler c q (by rw [hr]; rfl)
    have := fair_exists A h3
    omega
  have hcalls : callsIn lateHello = [(29, 1, helloPrint)] := by decide +kernel
  have only : ∀ n d c, Calls E n d c → n = 29 ∧ d = 1 ∧ c = helloPrint := by
    intro n d c hc
    have := calls_in (by rw [hlen]; exact hact) (fun n hn => htick n hn) hc
    rw [hcalls, List.mem_singleton] at this
    cases this
    exact ⟨rfl, rfl, rfl⟩
  have never : NeverReturns E 29 1 helloPrint :=
    ⟨⟨77, h29⟩, fun hc => absurd hc (by decide +kernel), fun _ m r hm => hno m r hm⟩
  have hs : HelloStarts E := by
    refine ⟨fun n l hall => ?_, fun n l hall => ?_, fun i j hij hi hj => ?_, fun n d c h => (only n d c h).2,
      fun n n' h h' => (only _ _ _ h).1.trans (only _ _ _ h').1.symm⟩
    · obtain ⟨todo, hs⟩ := hall (max n 33) (by omega)
      rw [hstarts _ _ (by omega), one l0] at hs
      cases List.mem_singleton.mp (List.mem_of_getElem? hs)
    · obtain ⟨todo, hs⟩ := hall (max n 33) (by omega)
      rw [hstarts _ _ (by omega), s1] at hs
      match l, hs with
      | 0, hs =>
        exact ⟨29, ⟨_, hon 29 (by omega)⟩, never⟩
    · have e := course_zip (by rw [hlen]; exact hact) (fun n hn => htick n hn) hj (by simp)
      have : (lateHello.zipIdx.all fun x => match x.1 with | .dock 1 (.onStarted _) => false | _ => true) = true := by decide +kernel
      have := List.all_eq_true.mp this _ e
      cases this
  refine ⟨E, F, W, hb, hd, hs, hact 0 (by omega), hact 12 (by omega), hact 28 (by omega), fun m hm => ⟨_, hon m hm⟩,
    fun n d c => ⟨only n d c, fun ⟨e1, e2, e3⟩ => by subst e1 e2 e3; exact ⟨77, none, h29⟩⟩, never, ?_⟩
  intro m d k hm
  have e := course_zip (by rw [hlen]; exact hact) (fun n hn => htick n hn) hm (by simp)
  have : (lateHello.zipIdx.all fun x => match x.1 with | .dock _ (.chan (.start _)) => false | _ => true) = true := by decide +kernel
  have := List.all_eq_true.mp this _ e
  cases this

end Verif.Props
