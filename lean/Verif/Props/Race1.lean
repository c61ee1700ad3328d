import Verif.Race.Facts
import Verif.Race.Hub
import Verif.Race.Dock
import Verif.Race.Net
import Verif.Race.Chan

/-! # C106 to C109: accesses to shared data -/

namespace Verif.Props

open Verif Verif.Race

/-- Which mutex protects which variable of the hub. -/
private def hubGuard : HubVar → Guard HubMutex
  | .docks => .by .docks
  | .ports => .by .ports
  | .black => .readOnly
  | _ => .free

private theorem kept_of_append {V M : Type} {guard : V → Guard M} {h : Option M} {l : List (Op V M)}
    (hl : Kept guard h none (l ++ [])) : Kept guard h none l := by simpa using hl

private theorem hub_find : Kept hubGuard none none findOps :=
  kept_access (h := some HubMutex.docks) rfl ⟨rfl, trivial⟩

theorem hub_kept (t : HubTask) (ht : t ≠ .close) : Kept hubGuard none none t.ops := by
  cases t with
  | close => exact absurd rfl ht
  | register again names =>
    refine kept_append ?_ (kept_flatten ?_)
    · exact kept_access (h := some HubMutex.ports) (by rfl) (kept_times (by rfl) (kept_access (by rfl) (by exact ⟨rfl, trivial⟩)) _)
    · intro l hl
      obtain ⟨p, _, rfl⟩ := List.mem_map.mp hl
      exact kept_access (h := some HubMutex.docks) (by rfl) (kept_times (by rfl) (kept_access (by trivial) (by exact ⟨rfl, trivial⟩)) _)
  | ready names =>
    refine kept_flatten ?_
    intro l hl
    obtain ⟨⟨n, f⟩, _, rfl⟩ := List.mem_map.mp hl
    refine kept_append hub_find ?_
    cases f with
    | none => trivial
    | some p =>
      refine kept_times (by trivial) ?_ _
      cases p.2
      · trivial
      · exact kept_of_append (kept_access trivial trivial)
  | query name rounds =>
    refine kept_flatten ?_
    intro l hl
    obtain ⟨f, _, rfl⟩ := List.mem_map.mp hl
    refine kept_append hub_find ?_
    cases f with
    | none => trivial
    | some k =>
      refine kept_flatten ?_
      intro l hl
      rw [(List.mem_replicate.mp hl).2]
      exact kept_access trivial (kept_of_append (kept_access trivial trivial))

private theorem hub_prog (tasks : List HubTask) (hc : .close ∉ tasks) : Kept hubGuard none none (hubProg tasks) := by
  refine kept_flatten ?_
  intro l hl
  obtain ⟨t, ht, rfl⟩ := List.mem_map.mp hl
  exact hub_kept t fun e => hc (e ▸ ht)

theorem hub_all (tasks : List HubTask) : Kept (fun _ => .free) none none (hubProg tasks) := by
  have weak : ∀ {h : Option HubMutex} {a : Option HubVar} {l : List (Op HubVar HubMutex)}, Kept hubGuard h a l →
      Kept (fun _ => .free) h a l := by
    intro h a l
    induction l generalizing h a with
    | nil => intro hk; cases h <;> cases a <;> exact hk
    | cons o l ih =>
      intro hk
      cases o <;> cases h <;> cases a <;> first
        | exact hk.elim
        | exact ih hk
        | exact ⟨hk.1, ih hk.2⟩
        | exact ⟨trivial, ih hk.2⟩
  refine kept_flatten ?_
  intro l hl
  obtain ⟨t, _, rfl⟩ := List.mem_map.mp hl
  by_cases e : t = .close
  · subst e
    exact kept_access trivial (kept_access trivial (kept_of_append (kept_access trivial trivial)))
  · exact weak (hub_kept t e)

/-- C106 (partial): whatever packets any number of goroutines of a hub handle, none of its maps is accessed by two at the
same time, one of them writing, unless the hub is closed.
Missing: the lists and the stubs in them, see `C106_list_refuted` and `C106_flag_refuted`, and `Close`, see
`C106_close_refuted`. -/
theorem C106_maps_partial (tasks : Nat → List HubTask) (as : List Nat) (s : Race.State HubVar HubMutex)
    (h : run State.step (State.init fun i => hubProg (tasks i)) as = some s) (hc : ∀ i, .close ∉ tasks i) :
    ¬ Conflict s .docks ∧ ¬ Conflict s .ports ∧ ¬ Conflict s .black :=
  have k := fun i => hub_prog (tasks i) (hc i)
  ⟨no_conflict k h (by simp [hubGuard]), no_conflict k h (by simp [hubGuard]), no_conflict k h (by simp [hubGuard])⟩

/-- C106 (partial): the mutexes never leave the goroutines waiting for one another: as long as one is not at its end, one
can go on; this holds with `Close` too. -/
theorem C106_progress_partial (tasks : Nat → List HubTask) (as : List Nat) (s : Race.State HubVar HubMutex)
    (h : run State.step (State.init fun i => hubProg (tasks i)) as = some s) (i : Nat) (hi : s.rest i ≠ []) :
    ∃ j s', s.step j = some s' :=
  progress (fun i => hub_all (tasks i)) h hi

/-- A peer registers feature 7 and is ready, another one registers it too, and a query for it is answered in its second
round. -/
def hubTasks : Nat → List HubTask
  | 0 => [.register 0 [(7, true)], .ready [(7, some (0, true))]]
  | 1 => [.register 1 [(7, false)]]
  | 2 => [.query 7 [none, some 1]]
  | _ => []

/-- The first registration is under way, the query waits for the mutex. -/
example : ∃ s, run State.step (State.init fun i => hubProg (hubTasks i)) (List.replicate 4 2 ++ List.replicate 14 0) = some s ∧
    s.rest 0 ≠ [] ∧ s.acc 0 = some (.list 7, true) ∧ s.owner .docks = some 0 := by
  refine ⟨_, rfl, ?_, ?_, ?_⟩ <;> decide

example : ∀ i, HubTask.close ∉ hubTasks i := by
  intro i
  unfold hubTasks
  split <;> simp

/-- C106 (refuted): a query goes through the list of a name while a registration appends to it. -/
theorem C106_list_refuted : ∃ as s, run State.step (State.init fun i => hubProg (hubTasks i)) as = some s ∧
    Conflict s (.list 7) :=
  ⟨List.replicate 4 2 ++ List.replicate 16 0 ++ List.replicate 5 2 ++ List.replicate 14 1, _, rfl, 1, 2, false, by decide,
    by decide, by decide⟩

/-- C106 (refuted): a query reads `ready` of a stub while a ready packet sets it. -/
theorem C106_flag_refuted : ∃ as s, run State.step (State.init fun i => hubProg (hubTasks i)) as = some s ∧
    Conflict s (.flag 7) :=
  ⟨List.replicate 4 2 ++ List.replicate 16 0 ++ List.replicate 7 2 ++ List.replicate 7 0, _, rfl, 0, 2, false, by decide,
    by decide, by decide⟩

/-- The same hub is closed by another goroutine. -/
def hubClosing (i : Nat) : List HubTask := if i = 3 then [.close] else hubTasks i

/-- C106 (refuted): `Close` takes neither of the mutexes: it sets the map of features to nil while a registration adds to
it, and the map of ports while a port is allocated. -/
theorem C106_close_refuted : (∃ as s, run State.step (State.init fun i => hubProg (hubClosing i)) as = some s ∧
      Conflict s .docks) ∧ ∃ as s, run State.step (State.init fun i => hubProg (hubClosing i)) as = some s ∧
      Conflict s .ports :=
  ⟨⟨List.replicate 12 0 ++ [3], _, rfl, 0, 3, true, by decide, by decide, by decide⟩,
    List.replicate 2 0 ++ List.replicate 3 3, _, rfl, 3, 0, false, by decide, by decide, by decide⟩

/-- What protects the data of a dock as long as it is not closed and no proxy is registered, and in general. -/
private def dockGuard (open' : Bool) : DockVar → Guard DockMutex
  | .slots => if open' then .readOnly else .free
  | .registry => if open' then .readOnly else .free
  | .remote => .by .remote
  | _ => .free

/-- The task is not `Close` or `Register`. -/
private def uses : DockTask → Bool
  | .close _ _ => false
  | .register => false
  | _ => true

private theorem dock_collect {o : Bool} (n : Nat) : Kept (dockGuard o) none none (collectOps n) :=
  kept_of_append (kept_times (by cases o <;> trivial) (by trivial) _)

private theorem dock_commit {o : Bool} (c : Nat) (p : Bool) : Kept (dockGuard o) none none (commitOps c p) := by
  refine kept_access (h := some DockMutex.remote) (by trivial) (kept_access (by rfl) (kept_access (by trivial)
    (kept_access ?_ (by exact ⟨rfl, trivial⟩))))
  cases p <;> trivial

theorem dock_kept {o : Bool} (t : DockTask) (ht : o = true → uses t = true) : Kept (dockGuard o) none none t.ops := by
  cases t with
  | announce n => exact dock_collect n
  | ready names =>
    refine kept_flatten ?_
    intro l hl
    obtain ⟨calls, _, rfl⟩ := List.mem_map.mp hl
    refine kept_append (kept_flatten ?_) (kept_of_append (kept_access (by trivial) (by trivial)))
    intro l hl
    obtain ⟨p, _, rfl⟩ := List.mem_map.mp hl
    refine kept_access (by trivial) (kept_times (by trivial) ?_ _)
    cases p.2 with
    | none => trivial
    | some b => exact dock_commit _ _
  | registered n names =>
    refine kept_append (dock_collect n) (kept_flatten ?_)
    intro l hl
    rw [(List.mem_replicate.mp hl).2]
    exact kept_access (h := some DockMutex.remote) (by rfl) (by exact ⟨rfl, trivial⟩)
  | response n => exact kept_access (by trivial) (dock_collect n)
  | start n => exact dock_collect n
  | found => exact kept_of_append (kept_access (by trivial) (by trivial))
  | request => exact kept_of_append (kept_access (by cases o <;> trivial) (by trivial))
  | answer => exact kept_of_append (kept_access (by trivial) (by trivial))
  | callback => exact kept_of_append (kept_access (by trivial) (by trivial))
  | run => exact kept_of_append (kept_access (by trivial) (by trivial))
  | inside => exact kept_of_append (kept_access (by cases o <;> trivial) (by trivial))
  | outside c p => exact kept_access (by cases o <;> trivial) (kept_access (by trivial) (kept_access (by trivial) (dock_commit c p)))
  | visit s there maker =>
    refine kept_access (by trivial) ?_
    cases there
    · refine kept_access (by cases o <;> trivial) ?_
      cases maker
      · trivial
      · exact kept_of_append (kept_access (by trivial) (by trivial))
    · trivial
  | close n k =>
    have ho : o = false := by cases o; rfl; exact absurd (ht rfl) (by simp [uses])
    subst ho
    exact kept_append (dock_collect n) (kept_access (by trivial) (kept_times (by trivial)
      (kept_of_append (kept_access (by trivial) (by trivial))) _))
  | register =>
    have ho : o = false := by cases o; rfl; exact absurd (ht rfl) (by simp [uses])
    subst ho
    exact kept_of_append (kept_access (by trivial) (by trivial))

theorem dock_prog {o : Bool} (tasks : List DockTask) (h : o = true → ∀ t ∈ tasks, uses t = true) :
    Kept (dockGuard o) none none (dockProg tasks) := by
  refine kept_flatten ?_
  intro l hl
  obtain ⟨t, ht, rfl⟩ := List.mem_map.mp hl
  exact dock_kept t fun e => h e t ht

/-- C107 (partial): whatever the goroutines of a dock do, the table of remote features is not accessed by two of them at
the same time, one of them writing; and as long as the dock is not closed and no proxy is registered, the same holds for
the table of its own features and the table of proxies.
Missing: the calls, the sockets and the visitors, see `C107_calls_refuted` to `C107_visit_refuted`, `Close` and
`Register`, see `C107_close_refuted` and `C107_register_refuted`. -/
theorem C107_tables_partial (tasks : Nat → List DockTask) (as : List Nat) (s : Race.State DockVar DockMutex)
    (h : run State.step (State.init fun i => dockProg (tasks i)) as = some s) :
    ¬ Conflict s .remote ∧ ((∀ i t, t ∈ tasks i → t ≠ .register ∧ ∀ n k, t ≠ .close n k) →
      ¬ Conflict s .slots ∧ ¬ Conflict s .registry) := by
  refine ⟨no_conflict (guard := dockGuard false) (fun i => dock_prog (tasks i) (by simp)) h (by simp [dockGuard]), ?_⟩
  intro hu
  have k := fun i => dock_prog (o := true) (tasks i) (fun _ t ht => by
    have := hu i t ht
    cases t <;> first | rfl | exact absurd rfl this.1 | exact absurd rfl (this.2 _ _))
  exact ⟨no_conflict k h (by simp [dockGuard]), no_conflict k h (by simp [dockGuard])⟩

/-- C107 (partial): the mutex never leaves the goroutines waiting for one another. -/
theorem C107_progress_partial (tasks : Nat → List DockTask) (as : List Nat) (s : Race.State DockVar DockMutex)
    (h : run State.step (State.init fun i => dockProg (tasks i)) as = some s) (i : Nat) (hi : s.rest i ≠ []) :
    ∃ j s', s.step j = some s' :=
  progress (fun i => dock_prog (o := false) (tasks i) (by simp)) h hi

/-- `Startup` connects; the goroutine of the connection to the hub gets the response and the address of another dock; the
goroutine of that connection gets a registration, a ready packet and an answer; two features call it and visit it. -/
def dockTasks : Nat → List DockTask
  | 0 => [.run]
  | 1 => [.response 2, .found]
  | 2 => [.registered 2 1, .ready [[(0, some true), (1, some true)]], .answer]
  | 3 => [.visit 0 false true, .outside 0 false]
  | 4 => [.visit 0 false true, .outside 1 false]
  | 5 => [.callback]
  | _ => []

/-- Both features have visited and are calling, one of them has got the mutex. -/
example : ∃ s, run State.step (State.init fun i => dockProg (dockTasks i)) (List.replicate 13 3 ++ List.replicate 12 4) = some s ∧
    s.owner .remote = some 3 ∧ s.rest 4 ≠ [] ∧ s.step 4 = none := by
  refine ⟨_, rfl, ?_, ?_, ?_⟩ <;> decide

example : ∀ i t, t ∈ dockTasks i → t ≠ .register ∧ ∀ n k, t ≠ .close n k := by
  intro i t
  unfold dockTasks
  split <;> simp <;> grind

/-- C107 (refuted): two features of a dock call features of other docks at the same time; both write to the table of
calls, for which the runtime may end the process. -/
theorem C107_calls_refuted : ∃ as s, run State.step (State.init fun i => dockProg (dockTasks i)) as = some s ∧
    ∃ i j, i ≠ j ∧ s.acc i = some (.rpcs, true) ∧ s.acc j = some (.rpcs, true) :=
  ⟨List.replicate 9 3 ++ List.replicate 9 4, _, rfl, 3, 4, by decide, by decide, by decide⟩

/-- C107 (refuted): the table of calls is searched for a ready packet while a call is entered, and while an answered call is
removed. -/
theorem C107_ready_refuted : ∃ as s, run State.step (State.init fun i => dockProg (dockTasks i)) as = some s ∧
    ∃ i j k, s.acc i = some (.rpcs, false) ∧ s.acc j = some (.rpcs, true) ∧ s.acc k = some (.rpcs, true) :=
  ⟨List.replicate 9 4 ++ List.replicate 11 2 ++ [5], _, rfl, 2, 4, 5, by decide, by decide, by decide⟩

/-- C107 (refuted): the response of the hub arrives before `run` has stored the socket; both append to the sockets. -/
theorem C107_sockets_refuted : ∃ as s, run State.step (State.init fun i => dockProg (dockTasks i)) as = some s ∧
    ∃ i j, i ≠ j ∧ s.acc i = some (.sockets, true) ∧ s.acc j = some (.sockets, true) :=
  ⟨[0, 1], _, rfl, 0, 1, by decide, by decide, by decide⟩

/-- C107 (refuted): a feature that visits from two goroutines writes to the map of its slot from both. -/
theorem C107_visit_refuted : ∃ as s, run State.step (State.init fun i => dockProg (dockTasks i)) as = some s ∧
    ∃ i j, i ≠ j ∧ s.acc i = some (.visiters 0, true) ∧ s.acc j = some (.visiters 0, true) :=
  ⟨List.replicate 5 3 ++ List.replicate 5 4, _, rfl, 3, 4, by decide, by decide, by decide⟩

/-- The same dock is closed by another goroutine, and a proxy is registered. -/
def dockClosing (i : Nat) : List DockTask := if i = 6 then [.close 2 2] else if i = 7 then [.register] else dockTasks i

/-- C107 (refuted): `Close` sets the table of features to nil while it is searched for a call, and cuts the sockets while
one is appended. -/
theorem C107_close_refuted : (∃ as s, run State.step (State.init fun i => dockProg (dockClosing i)) as = some s ∧
      Conflict s .slots) ∧ ∃ as s, run State.step (State.init fun i => dockProg (dockClosing i)) as = some s ∧
      Conflict s .sockets :=
  ⟨⟨List.replicate 7 6 ++ List.replicate 7 3, _, rfl, 6, 3, false, by decide, by decide, by decide⟩,
    List.replicate 15 6 ++ [0], _, rfl, 6, 0, true, by decide, by decide, by decide⟩

/-- C107 (refuted): `Register` writes to the table of proxies while a feature visits. -/
theorem C107_register_refuted : ∃ as s, run State.step (State.init fun i => dockProg (dockClosing i)) as = some s ∧
    Conflict s .registry :=
  ⟨[3, 3, 3, 7], _, rfl, 7, 3, false, by decide, by decide, by decide⟩

/-- Which variables of package network are protected. -/
private def netGuard : NetVar → Guard NetMutex
  | .makers => .readOnly
  | _ => .free

theorem net_kept (t : NetTask) : Kept netGuard none none t.ops := by
  have one : ∀ {x : NetVar} {w : Bool}, (netGuard x).allows none w → Kept netGuard none none (access x w) :=
    fun h => kept_of_append (kept_access h (by trivial))
  cases t with
  | extend => exact one (by trivial)
  | newSocket => exact one (by trivial)
  | listen mock =>
    refine kept_access (by rfl) ?_
    cases mock
    · trivial
    · exact kept_access (h := some NetMutex.listeners) (by trivial) (by exact ⟨rfl, trivial⟩)
  | accept s => exact one (by trivial)
  | dial s => exact kept_access (by rfl) (one (by trivial))
  | dialMock tries => exact kept_times (by trivial) (one (by trivial)) _
  | close s ps =>
    refine kept_access (by trivial) (kept_append (kept_flatten ?_) (one (by trivial)))
    intro l hl
    obtain ⟨p, _, rfl⟩ := List.mem_map.mp hl
    exact kept_access (h := some (NetMutex.peer p)) (by trivial) (kept_access (by trivial) (by exact ⟨rfl, trivial⟩))
  | send s => exact one (by trivial)
  | packet p => exact kept_of_append (kept_times (by trivial) (by trivial) _)

theorem net_prog (tasks : List NetTask) : Kept netGuard none none (netProg tasks) := by
  refine kept_flatten ?_
  intro l hl
  obtain ⟨t, _, rfl⟩ := List.mem_map.mp hl
  exact net_kept t

/-- C108 (partial): the table of networks is only read, and the mutexes of the package never leave goroutines waiting for
one another.
Missing: everything else, see `C108_serializers_refuted` to `C108_sink_refuted`. -/
theorem C108_makers_partial (tasks : Nat → List NetTask) (as : List Nat) (s : Race.State NetVar NetMutex)
    (h : run State.step (State.init fun i => netProg (tasks i)) as = some s) :
    ¬ Conflict s .makers ∧ ∀ i, s.rest i ≠ [] → ∃ j s', s.step j = some s' :=
  have k := fun i => net_prog (tasks i)
  ⟨no_conflict k h (by simp [netGuard]), fun _ hi => progress k h hi⟩

/-- Two instances are started at the same time, the second of which dials the first over the mock; the first accepts and is
closed, while a packet arrives. -/
def netTasks : Nat → List NetTask
  | 0 => [.extend, .newSocket, .listen true, .close 0 [0]]
  | 1 => [.extend, .newSocket, .dial 1]
  | 2 => [.dialMock 1]
  | 3 => [.accept 0]
  | 4 => [.packet 0]
  | _ => []

/-- The first instance is about to listen, the second one has asked for the network. -/
example : ∃ s, run State.step (State.init fun i => netProg (netTasks i)) (List.replicate 7 0 ++ List.replicate 5 1) = some s ∧
    s.acc 1 = some (.makers, false) ∧ s.owner .listeners = some 0 := by
  refine ⟨_, rfl, ?_, ?_⟩ <;> decide

/-- C108 (refuted): two calls of `Startup` or `Serve` at the same time both write to the table of serializers, or one of
them while the other reads it. -/
theorem C108_serializers_refuted :
    (∃ as s, run State.step (State.init fun i => netProg (netTasks i)) as = some s ∧
      s.acc 0 = some (.serializers, true) ∧ s.acc 1 = some (.serializers, true)) ∧
    (∃ as s, run State.step (State.init fun i => netProg (netTasks i)) as = some s ∧
      s.acc 0 = some (.serializers, false) ∧ s.acc 1 = some (.serializers, true)) :=
  ⟨⟨[0, 1], _, rfl, by decide, by decide⟩, ⟨[0, 0, 0, 1], _, rfl, by decide, by decide⟩⟩

/-- C108 (refuted): the mock takes a mutex to enter a listener, but looks listeners up without it. -/
theorem C108_listeners_refuted : ∃ as s, run State.step (State.init fun i => netProg (netTasks i)) as = some s ∧
    Conflict s .listeners :=
  ⟨List.replicate 8 0 ++ [2], _, rfl, 0, 2, false, by decide, by decide, by decide⟩

/-- C108 (refuted): a connection is accepted and entered in the peers of a socket while `Close` goes through them. -/
theorem C108_peers_refuted : ∃ as s, run State.step (State.init fun i => netProg (netTasks i)) as = some s ∧
    Conflict s (.peers 0) :=
  ⟨List.replicate 11 0 ++ [3], _, rfl, 3, 0, false, by decide, by decide, by decide⟩

/-- C108 (refuted): a packet is handed to the sink of a peer while `close` sets it to nil; the mutex of the peer is not taken
for packets. -/
theorem C108_sink_refuted : ∃ as s, run State.step (State.init fun i => netProg (netTasks i)) as = some s ∧
    Conflict s (.sink 0) :=
  ⟨List.replicate 16 0 ++ [4, 4, 4], _, rfl, 0, 4, false, by decide, by decide, by decide⟩

/-- Which mutex protects which variable of package chancall. -/
private def chanGuard : ChanVar → Guard ChanMutex
  | .funcs _ => .readOnly
  | .timeout _ _ => .free
  | .done r => .by ⟨r⟩

private theorem chan_finish (r : Nat) (first : Bool) : Kept chanGuard none none (finishOps r first) :=
  kept_access (h := some (ChanMutex.mk r)) (by rfl) (kept_times (by rfl) (by exact ⟨rfl, trivial⟩) _)

theorem chan_kept (t : ChanTask) : Kept chanGuard none none t.ops := by
  cases t with
  | setTimeout c m there =>
    refine kept_access (by rfl) ?_
    cases there
    · trivial
    · exact kept_of_append (kept_access (by trivial) (by trivial))
  | process c m r there first =>
    refine kept_access (by rfl) ?_
    have rest := kept_access (guard := chanGuard) (h := none) (x := .funcs c) (w := false) (by rfl) (chan_finish r first)
    cases there
    · exact rest
    · exact kept_access (by trivial) rest
  | track r first => exact chan_finish r first

theorem chan_prog (tasks : List ChanTask) : Kept chanGuard none none (chanProg tasks) := by
  refine kept_flatten ?_
  intro l hl
  obtain ⟨t, _, rfl⟩ := List.mem_map.mp hl
  exact chan_kept t

/-- C109 (partial): whatever requests are processed, timed out and given timeouts, the table of methods of a callee and the
field that decides between answer and timeout are not accessed by two goroutines at the same time, one of them writing;
and the mutexes never leave goroutines waiting for one another.
Missing: the timeouts themselves, see `C109_timeout_refuted`. -/
theorem C109_requests_partial (tasks : Nat → List ChanTask) (as : List Nat) (s : Race.State ChanVar ChanMutex)
    (h : run State.step (State.init fun i => chanProg (tasks i)) as = some s) :
    (∀ c, ¬ Conflict s (.funcs c)) ∧ (∀ r, ¬ Conflict s (.done r)) ∧ ∀ i, s.rest i ≠ [] → ∃ j s', s.step j = some s' :=
  have k := fun i => chan_prog (tasks i)
  ⟨fun _ => no_conflict k h (by simp [chanGuard]), fun _ => no_conflict k h (by simp [chanGuard]), fun _ hi => progress k h hi⟩

/-- A callee processes two requests, the first of which is timed out, while its feature sets a timeout. -/
def chanTasks : Nat → List ChanTask
  | 0 => [.process 0 5 0 true false, .process 0 5 1 true true]
  | 1 => [.track 0 true]
  | 2 => [.setTimeout 0 5 true]
  | _ => []

example : ∃ s, run State.step (State.init fun i => chanProg (chanTasks i)) (List.replicate 4 1 ++ List.replicate 6 0) = some s ∧
    s.acc 1 = some (.done 0, true) ∧ s.step 0 = none := by
  refine ⟨_, rfl, ?_, ?_⟩ <;> decide

/-- C109 (refuted): `SetTimeout` writes the timeout of a method while a request for it is being processed. -/
theorem C109_timeout_refuted : ∃ as s, run State.step (State.init fun i => chanProg (chanTasks i)) as = some s ∧
    Conflict s (.timeout 0 5) :=
  ⟨[0, 0, 0, 2, 2, 2], _, rfl, 2, 0, false, by decide, by decide, by decide⟩

end Verif.Props
