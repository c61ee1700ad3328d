import Verif.Props.Hub2

/-!
# C74: what the hub sends
-/

namespace Verif.Props

open Verif Verif.Proto Verif.Hub

/-- The ports allocated to a peer, as they are sent. -/
def portsOf (p : Nat) (log : List Ev) : List (BitVec 64) :=
  log.filterMap fun
    | .register r _ port => if r = p then some (BitVec.ofNat 64 port) else none
    | _ => none

/-- The ports in the responses sent to a peer. -/
def portsSent (p : Nat) (log : List Ev) : List (BitVec 64) :=
  log.filterMap fun
    | .sent r (.registerResponse port) => if r = p then some port else none
    | _ => none

/-- The port of the registration that a goroutine is working on. -/
def pendingPort : Task → List (BitVec 64)
  | .adding _ port _ => [BitVec.ofNat 64 port]
  | _ => []

@[simp] theorem portsOf_append (p : Nat) (a b : List Ev) : portsOf p (a ++ b) = portsOf p a ++ portsOf p b := by simp [portsOf]
@[simp] theorem portsSent_append (p : Nat) (a b : List Ev) : portsSent p (a ++ b) = portsSent p a ++ portsSent p b := by
  simp [portsSent]

/-- C74, first part: every granted register request is answered, in order, with the port allocated to it, and the
only answer outstanding is that of the request being handled. -/
theorem C74_register_responses (R : Nat → Str) (black : List Int) (acts : List Act) (s : State)
    (h : run (State.step R black) .init acts = some s) (p : Nat) :
    portsSent p s.log ++ pendingPort (s.task p) = portsOf p s.log := by
  refine run_inv (I := fun s : State => ∀ p, portsSent p s.log ++ pendingPort (s.task p) = portsOf p s.log) ?_ acts _ _
    (fun _ => rfl) h p
  intro s a t I h p
  have I := I p
  unfold State.step at h
  split at h
  · cases h
  cases a with
  | recv r pkt =>
    simp only at h
    split at h
    · rename_i hidle _
      repeat' split at h
      all_goals cases h
      · exact I
      · by_cases e : p = r
        · subst e
          rw [hidle] at I
          simp [portsSent, portsOf, pendingPort] at I ⊢
          exact I
        · simp [upd, e, portsSent, portsOf, fun x => e (Eq.symm x)] at I ⊢
          simpa [fun x => e (Eq.symm x), Ne.symm e] using I
      · by_cases e : p = r
        · subst e
          rw [hidle] at I
          simp [portsSent, portsOf, pendingPort] at I ⊢
          exact I
        · simp [upd, e, portsSent, portsOf] at I ⊢
          exact I
      · simp [portsSent, portsOf] at I ⊢
        exact I
      · exact I
    · cases h
  | work r =>
    simp only at h
    repeat' split at h
    all_goals cases h
    all_goals
      rename_i ht
      by_cases e : p = r
      · subst e
        rw [ht] at I
        simp [portsSent, portsOf, pendingPort] at I ⊢
        exact I
      · have e' : ¬ r = p := fun x => e x.symm
        simp [upd, e, e', portsSent, portsOf] at I ⊢
        exact I
  | _ =>
    simp only at h
    repeat' split at h
    all_goals (cases h; try first | exact I | simpa [portsSent, portsOf] using I)

/-- The addresses in the query responses sent to a peer. -/
def answersTo (c : Nat) (log : List Ev) : List Str :=
  log.filterMap fun
    | .sent r (.queryResponse addr) => if r = c then some addr else none
    | _ => none

/-- The answer a query has been given, if it is from the peer. -/
def answerOf (c : Nat) (q : Query) : Option Str :=
  if q.peer = c then (match q.phase with | .done addr => some addr | _ => none) else none

/-- The answers given to the queries of a peer. -/
def given (c : Nat) (s : State) : List Str := (List.range s.n).filterMap fun q => answerOf c (s.query q)

theorem filterMap_same {α β : Type} {f g : α → Option β} : ∀ {l : List α}, (∀ x ∈ l, f x = g x) → l.filterMap f = l.filterMap g := by
  intro l
  induction l with
  | nil => intro _; rfl
  | cons x l ih =>
    intro h
    rw [List.filterMap_cons, List.filterMap_cons, h x (List.mem_cons_self ..), ih fun y hy => h y (List.mem_cons_of_mem _ hy)]

theorem filterMap_upd {β : Type} (f : Nat → Query) (g : Query → Option β) (q : Nat) (x : Query) (n : Nat) (h : g x = g (f q)) :
    (List.range n).filterMap (fun r => g (upd f q x r)) = (List.range n).filterMap (fun r => g (f r)) := by
  apply filterMap_same
  intro r _
  simp only [upd]
  split
  · rename_i e; rw [h, e]
  · rfl

theorem filterMap_upd_new {β : Type} (f : Nat → Query) (g : Query → Option β) (q : Nat) (x : Query) (y : β) :
    ∀ n, q < n → g (f q) = none → g x = some y →
    ((List.range n).filterMap (fun r => g (upd f q x r))).Perm ((List.range n).filterMap (fun r => g (f r)) ++ [y]) := by
  intro n
  induction n with
  | zero => intro h; omega
  | succ n ih =>
    intro h h1 h2
    rw [List.range_succ, List.filterMap_append, List.filterMap_append]
    by_cases e : q = n
    · subst e
      have : (List.range q).filterMap (fun r => g (upd f q x r)) = (List.range q).filterMap (fun r => g (f r)) := by
        apply filterMap_same
        intro r hr
        rw [List.mem_range] at hr
        rw [upd_other f x (by omega)]
      rw [this]
      simp [h1, h2]
    · have hq : q < n := by omega
      have e' : ¬ n = q := fun x => e x.symm
      have := ih hq h1 h2
      have hn : g (upd f q x n) = g (f n) := by rw [upd_other f x e']
      simp only [List.filterMap_cons, List.filterMap_nil, hn]
      cases g (f n) with
      | none => simpa using this
      | some z =>
        simp only
        refine (this.append_right [z]).trans ?_
        simp only [List.append_assoc]
        exact List.Perm.append_left _ (List.Perm.swap ..)

/-- C74, second part: the answers sent to a peer are, one for one, those given to its queries. -/
theorem C74_query_responses (R : Nat → Str) (black : List Int) (acts : List Act) (s : State)
    (h : run (State.step R black) .init acts = some s) (c : Nat) : (answersTo c s.log).Perm (given c s) := by
  refine (run_inv (I := fun s : State => QueryInv s ∧ (answersTo c s.log).Perm (given c s)) ?_ acts _ _
    ⟨by constructor <;> simp [State.init], List.Perm.refl _⟩ h).2
  intro s a t ⟨Q, I⟩ h
  refine ⟨queryInv_step R black s a t Q h, ?_⟩
  unfold State.step at h
  split at h
  · cases h
  cases a with
  | recv r pkt =>
    simp only at h
    repeat' split at h
    all_goals cases h
    · exact I
    · simpa [answersTo, given] using I
    · simpa [answersTo, given] using I
    · have e1 : ∀ q ∈ List.range s.n, ¬ q = s.n := by
        intro q hq; rw [List.mem_range] at hq; omega
      unfold given at I ⊢
      simp only [List.range_succ, List.filterMap_append]
      have : (List.range s.n).filterMap (fun q => answerOf c (upd s.query s.n ⟨r, ‹Str›, .top⟩ q)) =
          (List.range s.n).filterMap (fun q => answerOf c (s.query q)) := by
        apply filterMap_same
        intro q hq
        rw [upd_other _ _ (e1 q hq)]
      rw [this]
      simpa [answersTo, answerOf] using I
    · exact I
  | work r =>
    simp only at h
    repeat' split at h
    all_goals (cases h; try first | exact I | simpa [answersTo, given] using I)
  | look q =>
    simp only at h
    split at h
    · split at h
      · rename_i hp
        split at h
        · cases h; exact I
        · cases h
          unfold given at I ⊢
          rw [filterMap_upd]
          · exact I
          · simp [answerOf, hp]
      · cases h
    · cases h
  | examine q =>
    simp only at h
    split at h
    · rename_i hp
      repeat' split at h
      all_goals cases h
      all_goals
        unfold given at I ⊢
        rw [filterMap_upd]
        · exact I
        · simp [answerOf, hp]
    · cases h
  | respond q =>
    simp only at h
    split at h
    · rename_i k hp
      split at h
      · rename_i st hst
        cases h
        have hq : q < s.n := by
          rcases Nat.lt_or_ge q s.n with h | h
          · exact h
          · have := Q.fresh q h; rw [hp] at this; cases this
        unfold given at I ⊢
        by_cases e : (s.query q).peer = c
        · refine List.Perm.trans ?_ (filterMap_upd_new s.query (answerOf c) q _ st.addr s.n hq (by simp [answerOf, hp])
            (by simp [answerOf, e])).symm
          simp only [answersTo, List.filterMap_append] at I ⊢
          simpa [e] using I.append_right [st.addr]
        · rw [filterMap_upd]
          · simpa [answersTo, e] using I
          · simp [answerOf, e]
      · cases h
    · cases h
  | close r => cases h; simpa [answersTo, given] using I

/-- So a peer is sent at most as many query responses as it sent queries. -/
theorem C74_at_most_one_each (R : Nat → Str) (black : List Int) (acts : List Act) (s : State)
    (h : run (State.step R black) .init acts = some s) (c : Nat) :
    (answersTo c s.log).length ≤ ((List.range s.n).filter fun q => (s.query q).peer = c).length := by
  rw [(C74_query_responses R black acts s h c).length_eq]
  unfold given
  generalize List.range s.n = l
  induction l with
  | nil => simp
  | cons q l ih =>
    simp only [List.filterMap_cons, List.filter_cons]
    unfold answerOf
    by_cases e : (s.query q).peer = c
    · simp only [e, if_true, decide_true]
      split
      · simp only [List.length_cons]; exact Nat.le_succ_of_le ih
      · simp only [List.length_cons]; exact Nat.succ_le_succ ih
    · simp only [e, if_false, decide_false]
      exact ih

example : ∃ acts s, run (State.step hubAddrs []) .init acts = some s ∧
    portsSent 0 s.log = [20001] ∧ answersTo 2 s.log = [fullAddr [97] 20001] ∧ answersTo 1 s.log = [] ∧ s.n = 2 :=
  ⟨hubRegister 0 ++ hubReady 0 ++ [hubAsk 1, hubAsk 2, .look 1, .examine 1, .look 0, .respond 1], _, rfl, rfl, rfl, rfl, rfl⟩

end Verif.Props
