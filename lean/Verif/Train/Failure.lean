import Mathlib.Logic.Function.Basic
import Verif.Basic

/-!
# Failures in actor-learner training (C118)

`train_agent_async` ends the training when `exception_event` is set: process 0 saves the agent and kills all processes.  In actor-learner
training the agents of the processes are actors, which ask the learner's poller thread to save.
-/

namespace Pfrl.Train.Failure

/-! ## Model -/

/-- A message of an actor: `("transition", …)`, or something the actor waits for an answer to: `("stop_episode", None)` and
`("get_statistics", None)`, or `("save", dirname)`. -/
inductive Msg where
  | transition
  | ask
  | save
  deriving DecidableEq, Repr

/-- Where process 0 is in `train_loop`, `pfrl/experiments/train_agent_async.py:27-131`: in a step (`act`, `observe` and what happens at the
end of an episode), waiting for an answer in it, at the test of line 124, waiting in `agent.save` of line 126, killed by line 127, or out of
the loop (lines 110 and 117). -/
inductive Proc where
  | stepping
  | asking
  | checking
  | saving
  | killed
  | finished
  deriving DecidableEq, Repr

/-- Where the poller is: at the test of its loop (`pfrl/agents/dqn.py:723`), at `pipe.poll()` for pipe `i` (line 614), at the test of
`exception_event` in the same line, or about to receive (line 615); or its thread has ended. -/
inductive Poller where
  | outer
  | sweep (i : Nat)
  | polled (i : Nat)
  | committed (i : Nat)
  | ended
  deriving DecidableEq, Repr

/-- `exc`: `exception_event`; `stop`: the stop event of the poller; `pipe i`: what actor `i` has sent and the poller has not received;
`answers`: what the poller has sent to actor 0 and that has not been received; `saved`: whether the agent has been saved because of an
exception. -/
structure Sys where
  exc : Bool
  stop : Bool
  poller : Poller
  pipe : Nat → List Msg
  answers : Nat
  proc : Proc
  saved : Bool

/-- What may happen next.  The choices of process 0 in a step, and what the other actors send, are arbitrary. -/
inductive Move where
  /-- process 0 sends a transition -/
  | transition
  /-- process 0 sends something and waits for the answer -/
  | ask
  /-- process 0 receives an answer -/
  | recv
  /-- process 0 comes to the end of a step -/
  | endStep
  /-- process 0 leaves the loop -/
  | finish
  /-- process 0 tests `exception_event` -/
  | check
  /-- the learner raises an exception (`dqn.py:711-713`) -/
  | learnerFails
  /-- the poller is told to stop -/
  | stopPoller
  /-- another actor sends something -/
  | other (j : Nat) (m : Msg)
  /-- the poller goes on; `raises`: if it handles a message, this raises an exception (`dqn.py:644-646`) -/
  | poll (raises : Bool)
  deriving DecidableEq, Repr

/-- Does actor `i` wait for an answer to this? -/
def Msg.answered : Msg → Bool
  | .transition => false
  | .ask => true
  | .save => true

/-- The poller has received `m` from actor `i` and handles it, `dqn.py:616-646`. -/
def Sys.handle (s : Sys) (i : Nat) (m : Msg) (rest : List Msg) (raises : Bool) : Sys :=
  let s := { s with pipe := Function.update s.pipe i rest }
  if raises then { s with exc := true, poller := .sweep (i + 1) }
  else { s with answers := s.answers + (if i = 0 ∧ m.answered = true then 1 else 0), poller := .sweep i }

/-- `_poller_loop` and `_poll_pipe`, `pfrl/agents/dqn.py:604-646` and `714-728`, for `n` actors, one atomic action.  Pipes that have been closed are
not modelled. -/
def Sys.pollOnce (n : Nat) (s : Sys) (raises : Bool) : Sys :=
  match s.poller with
  | .outer => if s.stop || s.exc then { s with poller := .ended } else { s with poller := .sweep 0 }
  | .sweep i =>
    if n ≤ i then { s with poller := .outer }
    else if s.pipe i = [] then { s with poller := .sweep (i + 1) }
    else { s with poller := .polled i }
  | .polled i => if s.exc then { s with poller := .sweep (i + 1) } else { s with poller := .committed i }
  | .committed i =>
    match s.pipe i with
    | [] => s
    | m :: rest => s.handle i m rest raises
  | .ended => s

/-- Process 0 tests `exception_event`, `train_agent_async.py:124-127`.  `remote`: its agent is an actor, whose `save`
(`pfrl/agents/state_q_function_actor.py:123-125`) asks the poller; other agents save by themselves. -/
def Sys.check (remote : Bool) (s : Sys) : Sys :=
  if s.exc then
    if remote then { s with pipe := Function.update s.pipe 0 (s.pipe 0 ++ [.save]), proc := .saving }
    else { s with saved := true, proc := .killed }
  else { s with proc := .stepping }

/-- Process 0 sends something in a step. -/
def Sys.send (s : Sys) (m : Msg) (p : Proc) : Sys :=
  { s with pipe := Function.update s.pipe 0 (s.pipe 0 ++ [m]), proc := p }

/-- One move; those that are not possible do nothing.  Only actors send anything. -/
def Sys.move (n : Nat) (remote : Bool) (s : Sys) : Move → Sys
  | .transition => if s.proc = .stepping ∧ remote = true then s.send .transition .stepping else s
  | .ask => if s.proc = .stepping ∧ remote = true then s.send .ask .asking else s
  | .recv =>
    if s.answers = 0 then s
    else
      match s.proc with
      | .asking => { s with answers := s.answers - 1, proc := .stepping }
      | .saving => { s with answers := s.answers - 1, proc := .killed, saved := true }
      | _ => s
  | .endStep => if s.proc = .stepping then { s with proc := .checking } else s
  | .finish => if s.proc = .stepping then { s with proc := .finished } else s
  | .check => if s.proc = .checking then s.check remote else s
  | .learnerFails => { s with exc := true }
  | .stopPoller => { s with stop := true }
  | .other j m => if j = 0 then s else { s with pipe := Function.update s.pipe j (s.pipe j ++ [m]) }
  | .poll raises => s.pollOnce n raises

def Sys.run (n : Nat) (remote : Bool) (s : Sys) (ms : List Move) : Sys := ms.foldl (Sys.move n remote) s

/-- At the start of the training. -/
def start : Sys := ⟨false, false, .outer, fun _ => [], 0, .stepping, false⟩

/-! ## Specification -/

/-- The poller's own moves. -/
def Spec.pollerMoves (ms : List Move) : Nat := ms.countP fun m => match m with | .poll _ => true | _ => false

/-! ## Lemmas -/

/-- What process 0 waits for.  `hand`: a message of actor 0 that the poller has already decided to receive. -/
inductive Waits (s : Sys) : Prop
  | free : s.answers = 0 → (∀ m ∈ s.pipe 0, m = .transition) → (s.proc = .stepping ∨ s.proc = .checking ∨ s.proc = .finished) → Waits s
  | asked (ts : List Msg) : s.proc = .asking → (∀ m ∈ ts, m = .transition) → s.answers = 0 → s.pipe 0 = ts ++ [.ask] → Waits s
  | answered : s.proc = .asking → s.answers = 1 → (∀ m ∈ s.pipe 0, m = .transition) → Waits s
  | lost : s.proc = .asking → s.answers = 0 → (∀ m ∈ s.pipe 0, m = .transition) → s.exc = true → Waits s
  | saving (ts : List Msg) : s.proc = .saving → s.exc = true → s.answers = 0 → (∀ m ∈ ts, m = .transition) → s.pipe 0 = ts ++ [.save] →
      (s.poller = .committed 0 → ts ≠ []) → Waits s

/-- What holds at every moment of actor-learner training. -/
structure Inv (s : Sys) : Prop where
  waits : Waits s
  held : ∀ i, (s.poller = .polled i ∨ s.poller = .committed i) → s.pipe i ≠ []
  notSaved : s.saved = false

theorem start_inv : Inv start := by
  refine ⟨.free rfl (by simp [start]) (Or.inl rfl), ?_, rfl⟩
  intro i h
  simp [start] at h

theorem waits_congr {s s' : Sys} (h : Waits s) (h1 : s'.answers = s.answers) (h2 : s'.pipe 0 = s.pipe 0) (h3 : s'.proc = s.proc)
    (h4 : s.exc = true → s'.exc = true) (h5 : s.proc = .saving → s'.poller = .committed 0 → s.poller = .committed 0) : Waits s' := by
  cases h with
  | free a b c => exact .free (h1.trans a) (by rw [h2]; exact b) (by rw [h3]; exact c)
  | asked ts a b c d => exact .asked ts (h3.trans a) b (h1.trans c) (h2.trans d)
  | answered a b c => exact .answered (h3.trans a) (h1.trans b) (by rw [h2]; exact c)
  | lost a b c d => exact .lost (h3.trans a) (h1.trans b) (by rw [h2]; exact c) (h4 d)
  | saving ts a b c d e f => exact .saving ts (h3.trans a) (h4 b) (h1.trans c) d (h2.trans e) fun h => f (h5 a h)

theorem handle_zero {s : Sys} (h : Waits s) {m : Msg} {rest : List Msg} (hp : s.pipe 0 = m :: rest) (hc : s.poller = .committed 0)
    (raises : Bool) : Waits (s.handle 0 m rest raises) := by
  have hpipe : (s.handle 0 m rest raises).pipe 0 = rest := by
    unfold Sys.handle
    split <;> simp
  have hproc : (s.handle 0 m rest raises).proc = s.proc := by
    unfold Sys.handle
    split <;> rfl
  have hans : (s.handle 0 m rest raises).answers = s.answers + (if raises = false ∧ m.answered = true then 1 else 0) := by
    unfold Sys.handle
    cases raises <;> simp
  have hexc : (s.exc = true ∨ raises = true) → (s.handle 0 m rest raises).exc = true := by
    intro h
    unfold Sys.handle
    cases raises <;> simp_all
  have hnc : (s.handle 0 m rest raises).poller ≠ .committed 0 := by
    unfold Sys.handle
    split <;> simp
  cases h with
  | free a b c =>
    rw [hp] at b
    have hm : m = .transition := b m (List.mem_cons_self ..)
    refine .free ?_ ?_ (by rw [hproc]; exact c)
    · rw [hans, a, hm]; simp [Msg.answered]
    · rw [hpipe]; exact fun x hx => b x (List.mem_cons_of_mem _ hx)
  | asked ts a b c d =>
    rw [hp] at d
    cases ts with
    | nil =>
      rw [List.nil_append, List.cons.injEq] at d
      obtain ⟨rfl, rfl⟩ := d
      cases raises with
      | false => exact .answered (hproc.trans a) (by rw [hans, c]; simp [Msg.answered]) (by rw [hpipe]; simp)
      | true => exact .lost (hproc.trans a) (by rw [hans, c]; simp) (by rw [hpipe]; simp) (hexc (Or.inr rfl))
    | cons t ts =>
      rw [List.cons_append, List.cons.injEq] at d
      obtain ⟨rfl, rfl⟩ := d
      have hm : m = .transition := b m (List.mem_cons_self ..)
      exact .asked ts (hproc.trans a) (fun x hx => b x (List.mem_cons_of_mem _ hx)) (by rw [hans, c, hm]; simp [Msg.answered]) hpipe
  | answered a b c =>
    rw [hp] at c
    have hm : m = .transition := c m (List.mem_cons_self ..)
    exact .answered (hproc.trans a) (by rw [hans, b, hm]; simp [Msg.answered]) (by rw [hpipe]; exact fun x hx => c x (List.mem_cons_of_mem _ hx))
  | lost a b c d =>
    rw [hp] at c
    have hm : m = .transition := c m (List.mem_cons_self ..)
    exact .lost (hproc.trans a) (by rw [hans, b, hm]; simp [Msg.answered]) (by rw [hpipe]; exact fun x hx => c x (List.mem_cons_of_mem _ hx))
      (hexc (Or.inl d))
  | saving ts a b c d e f =>
    have hts := f hc
    rw [hp] at e
    cases ts with
    | nil => exact absurd rfl hts
    | cons t ts =>
      rw [List.cons_append, List.cons.injEq] at e
      obtain ⟨rfl, rfl⟩ := e
      have hm : m = .transition := d m (List.mem_cons_self ..)
      exact .saving ts (hproc.trans a) (hexc (Or.inl b)) (by rw [hans, c, hm]; simp [Msg.answered])
        (fun x hx => d x (List.mem_cons_of_mem _ hx)) hpipe fun h => absurd h hnc

theorem poll_inv {n : Nat} {s : Sys} (h : Inv s) (raises : Bool) : Inv (s.pollOnce n raises) := by
  unfold Sys.pollOnce
  split
  · split
    · exact ⟨waits_congr h.waits rfl rfl rfl (fun x => x) (fun _ hh => by simp at hh), fun i hi => by simp at hi, h.notSaved⟩
    · exact ⟨waits_congr h.waits rfl rfl rfl (fun x => x) (fun _ hh => by simp at hh), fun i hi => by simp at hi, h.notSaved⟩
  · rename_i i hp
    split
    · exact ⟨waits_congr h.waits rfl rfl rfl (fun x => x) (fun _ hh => by simp at hh), fun i hi => by simp at hi, h.notSaved⟩
    · split
      · exact ⟨waits_congr h.waits rfl rfl rfl (fun x => x) (fun _ hh => by simp at hh), fun i hi => by simp at hi, h.notSaved⟩
      · rename_i hne
        refine ⟨waits_congr h.waits rfl rfl rfl (fun x => x) (fun _ hh => by simp at hh), fun j hj => ?_, h.notSaved⟩
        have : i = j := by simpa using hj
        subst this
        exact hne
  · rename_i i hp
    split
    · exact ⟨waits_congr h.waits rfl rfl rfl (fun x => x) (fun _ hh => by simp at hh), fun i hi => by simp at hi, h.notSaved⟩
    · rename_i hexc
      refine ⟨waits_congr h.waits rfl rfl rfl (fun x => x) (fun hs _ => ?_), fun j hj => ?_, h.notSaved⟩
      · exfalso
        cases h.waits with
        | free a b c => rw [hs] at c; simp at c
        | asked ts a => rw [hs] at a; simp at a
        | answered a => rw [hs] at a; simp at a
        | lost a => rw [hs] at a; simp at a
        | saving ts a b => exact hexc b
      · have : i = j := by simpa using hj
        subst this
        exact h.held i (Or.inl hp)
  · rename_i i hp
    split
    · exact h
    · rename_i m rest hpipe
      refine ⟨?_, ?_, ?_⟩
      · by_cases hi : i = 0
        · subst hi
          exact handle_zero h.waits hpipe hp raises
        · refine waits_congr h.waits ?_ ?_ ?_ ?_ ?_
          · unfold Sys.handle; split <;> simp [hi]
          · unfold Sys.handle; split <;> simp [Function.update_of_ne (Ne.symm hi)]
          · unfold Sys.handle; split <;> rfl
          · intro he; unfold Sys.handle; split <;> simp [he]
          · intro _ hh
            exfalso
            revert hh
            unfold Sys.handle
            split <;> simp
      · intro j hj
        exfalso
        revert hj
        unfold Sys.handle
        split <;> simp
      · unfold Sys.handle
        split <;> exact h.notSaved
  · exact h

theorem move_inv {n : Nat} {s : Sys} (h : Inv s) (m : Move) : Inv (s.move n true m) := by
  have happ : ∀ {i : Nat} {j : Nat} {x : Msg}, s.pipe i ≠ [] → Function.update s.pipe j (s.pipe j ++ [x]) i ≠ [] := by
    intro i j x hne
    rw [Function.update_apply]
    split
    · simp
    · exact hne
  cases m with
  | transition =>
    simp only [Sys.move]
    split
    · rename_i hc
      refine ⟨?_, fun i hi => happ (h.held i hi), h.notSaved⟩
      cases h.waits with
      | free a b c =>
        refine .free a ?_ (Or.inl rfl)
        simp only [Sys.send, Function.update_self, List.mem_append, List.mem_singleton]
        rintro x (hx | hx)
        · exact b x hx
        · exact hx
      | asked ts a => rw [hc.1] at a; simp at a
      | answered a => rw [hc.1] at a; simp at a
      | lost a => rw [hc.1] at a; simp at a
      | saving ts a => rw [hc.1] at a; simp at a
    · exact h
  | ask =>
    simp only [Sys.move]
    split
    · rename_i hc
      refine ⟨?_, fun i hi => happ (h.held i hi), h.notSaved⟩
      cases h.waits with
      | free a b c => exact .asked (s.pipe 0) rfl b a (by simp [Sys.send])
      | asked ts a => rw [hc.1] at a; simp at a
      | answered a => rw [hc.1] at a; simp at a
      | lost a => rw [hc.1] at a; simp at a
      | saving ts a => rw [hc.1] at a; simp at a
    · exact h
  | recv =>
    simp only [Sys.move]
    split
    · exact h
    · rename_i ha
      cases h.waits with
      | free a => exact absurd a ha
      | asked ts a b c => exact absurd c ha
      | lost a b => exact absurd b ha
      | saving ts a b c => exact absurd c ha
      | answered a b c =>
        rw [a]
        exact ⟨.free (by simp [b]) c (Or.inl rfl), h.held, h.notSaved⟩
  | endStep =>
    simp only [Sys.move]
    split
    · rename_i hc
      refine ⟨?_, h.held, h.notSaved⟩
      cases h.waits with
      | free a b c => exact .free a b (Or.inr (Or.inl rfl))
      | asked ts a => rw [hc] at a; simp at a
      | answered a => rw [hc] at a; simp at a
      | lost a => rw [hc] at a; simp at a
      | saving ts a => rw [hc] at a; simp at a
    · exact h
  | finish =>
    simp only [Sys.move]
    split
    · rename_i hc
      refine ⟨?_, h.held, h.notSaved⟩
      cases h.waits with
      | free a b c => exact .free a b (Or.inr (Or.inr rfl))
      | asked ts a => rw [hc] at a; simp at a
      | answered a => rw [hc] at a; simp at a
      | lost a => rw [hc] at a; simp at a
      | saving ts a => rw [hc] at a; simp at a
    · exact h
  | check =>
    simp only [Sys.move]
    split
    · rename_i hc
      unfold Sys.check
      have hw : s.answers = 0 ∧ ∀ m ∈ s.pipe 0, m = .transition := by
        cases h.waits with
        | free a b c => exact ⟨a, b⟩
        | asked ts a => rw [hc] at a; simp at a
        | answered a => rw [hc] at a; simp at a
        | lost a => rw [hc] at a; simp at a
        | saving ts a => rw [hc] at a; simp at a
      split
      · rename_i he
        rw [if_pos rfl]
        refine ⟨?_, fun i hi => happ (h.held i hi), h.notSaved⟩
        refine .saving (s.pipe 0) rfl he hw.1 hw.2 (by simp) ?_
        intro hcm
        exact h.held 0 (Or.inr hcm)
      · exact ⟨.free hw.1 hw.2 (Or.inl rfl), h.held, h.notSaved⟩
    · exact h
  | learnerFails => exact ⟨waits_congr h.waits rfl rfl rfl (fun _ => rfl) (fun _ x => x), h.held, h.notSaved⟩
  | stopPoller => exact ⟨waits_congr h.waits rfl rfl rfl (fun x => x) (fun _ x => x), h.held, h.notSaved⟩
  | other j m =>
    simp only [Sys.move]
    split
    · exact h
    · rename_i hj
      exact ⟨waits_congr h.waits rfl (by simp [Function.update_of_ne (Ne.symm hj)]) rfl (fun x => x) (fun _ x => x),
        fun i hi => happ (h.held i hi), h.notSaved⟩
  | poll raises => exact poll_inv h raises

theorem run_inv {n : Nat} : ∀ (ms : List Move) {s : Sys}, Inv s → Inv (s.run n true ms)
  | [], _, h => h
  | m :: ms, s, h => by
    have : s.run n true (m :: ms) = (s.move n true m).run n true ms := rfl
    rw [this]
    exact run_inv ms (move_inv h m)

theorem saving_stays {n : Nat} : ∀ (ms : List Move) {s : Sys}, Inv s → s.proc = .saving → (s.run n true ms).proc = .saving
  | [], _, _, h => h
  | m :: ms, s, hI, h => by
    have : s.run n true (m :: ms) = (s.move n true m).run n true ms := rfl
    rw [this]
    refine saving_stays ms (move_inv hI m) ?_
    have ha : s.answers = 0 := by
      cases hI.waits with
      | free a b c => exact a
      | asked ts a => rw [h] at a; simp at a
      | answered a => rw [h] at a; simp at a
      | lost a => rw [h] at a; simp at a
      | saving ts a b c => exact c
    cases m with
    | poll raises =>
      simp only [Sys.move, Sys.pollOnce]
      split
      · split <;> exact h
      · split
        · exact h
        · split <;> exact h
      · split <;> exact h
      · split
        · exact h
        · unfold Sys.handle; split <;> exact h
      · exact h
    | other j m => simp only [Sys.move]; split <;> exact h
    | learnerFails => exact h
    | stopPoller => exact h
    | transition => simp [Sys.move, h]
    | ask => simp [Sys.move, h]
    | recv => simp [Sys.move, h, ha]
    | endStep => simp [Sys.move, h]
    | finish => simp [Sys.move, h]
    | check => simp [Sys.move, h]

/-! ## C118 -/

/-- **C118 fails for actor-learner training.** Whatever the actors, the learner and the poller do, and whenever the learner or the poller
raises an exception: process 0 never gets to kill the processes, nor is the agent saved because of the exception; and once process 0
has found `exception_event` set, it waits for the answer to its request to save for ever. -/
theorem actor_failure_hangs (n : Nat) (ms : List Move) :
    (start.run n true ms).proc ≠ .killed ∧ (start.run n true ms).saved = false ∧
    ((start.run n true ms).exc = true → (start.run n true ms).proc = .checking →
      ∀ ms', (start.run n true (ms ++ .check :: ms')).proc = .saving) := by
  have hI := run_inv (n := n) ms start_inv
  refine ⟨?_, hI.notSaved, ?_⟩
  · intro h
    cases hI.waits with
    | free a b c => rw [h] at c; simp at c
    | asked ts a => rw [h] at a; simp at a
    | answered a => rw [h] at a; simp at a
    | lost a => rw [h] at a; simp at a
    | saving ts a => rw [h] at a; simp at a
  · intro he hc ms'
    have hr : start.run n true (ms ++ .check :: ms') = ((start.run n true ms).move n true .check).run n true ms' := by
      unfold Sys.run
      rw [List.foldl_append]
      rfl
    rw [hr]
    refine saving_stays ms' (move_inv hI .check) ?_
    simp [Sys.move, hc, Sys.check, he]

/-- **C118 (partial).** For agents that save by themselves: when `exception_event` is set and process 0 comes to the end of a step, it saves
the agent and kills the processes at its next move, whatever else happens in between.

What is missing: actors; see `actor_failure_hangs`. -/
theorem failure_terminates_partial (n : Nat) (s : Sys) (he : s.exc = true) (hc : s.proc = .checking) (ms : List Move)
    (hm : Move.check ∈ ms) : (s.run n false ms).proc = .killed ∧ (s.run n false ms).saved = true := by
  have killed : ∀ (ms : List Move) (s : Sys), s.proc = .killed → s.saved = true →
      (s.run n false ms).proc = .killed ∧ (s.run n false ms).saved = true := by
    intro ms
    induction ms with
    | nil => exact fun s h1 h2 => ⟨h1, h2⟩
    | cons m ms ih =>
      intro s h1 h2
      refine ih (s.move n false m) ?_ ?_
      · cases m <;> simp only [Sys.move, h1] <;> try (first | exact h1 | (split <;> exact h1) | (split <;> simp [h1]))
        rename_i raises
        unfold Sys.pollOnce Sys.handle
        split <;> (try split) <;> (try split) <;> exact h1
      · cases m <;> simp only [Sys.move, h1] <;> try (first | exact h2 | (split <;> exact h2) | (split <;> simp [h2]))
        rename_i raises
        unfold Sys.pollOnce Sys.handle
        split <;> (try split) <;> (try split) <;> exact h2
  induction ms generalizing s with
  | nil => simp at hm
  | cons m ms ih =>
    show ((s.move n false m).run n false ms).proc = .killed ∧ ((s.move n false m).run n false ms).saved = true
    by_cases hmc : m = .check
    · subst hmc
      have : s.move n false .check = { s with saved := true, proc := .killed } := by simp [Sys.move, hc, Sys.check, he]
      rw [this]
      exact killed ms _ rfl rfl
    · have hm' : Move.check ∈ ms := by
        rcases List.mem_cons.mp hm with h | h
        · exact absurd h.symm hmc
        · exact h
      refine ih (s.move n false m) ?_ ?_ hm'
      · cases m with
        | poll raises =>
          simp only [Sys.move]
          unfold Sys.pollOnce Sys.handle
          split <;> (try split) <;> (try split) <;> first | exact he | rfl
        | check => exact absurd rfl hmc
        | _ => simp only [Sys.move, hc] <;> first | rfl | exact he | (split <;> exact he) | (split <;> simp [he])
      · cases m with
        | poll raises =>
          simp only [Sys.move]
          unfold Sys.pollOnce Sys.handle
          split <;> (try split) <;> (try split) <;> exact hc
        | check => exact absurd rfl hmc
        | _ => simp only [Sys.move, hc] <;> first | exact hc | (split <;> exact hc) | (split <;> simp [hc])

/-- How many moves the poller makes at most before it ends, when an exception has been signalled. -/
def rank (n : Nat) : Poller → Nat
  | .ended => 0
  | .outer => 1
  | .sweep i => 2 * (n - i) + 2
  | .polled i => 2 * (n - i - 1) + 3
  | .committed i => 2 * (n - i) + 3

theorem exc_stays {n : Nat} {remote : Bool} {s : Sys} (m : Move) (h : s.exc = true) : (s.move n remote m).exc = true := by
  cases m with
  | poll raises =>
    simp only [Sys.move]
    unfold Sys.pollOnce Sys.handle
    split <;> (try split) <;> (try split) <;> first | exact h | rfl
  | recv =>
    simp only [Sys.move]
    split
    · exact h
    · split <;> exact h
  | check =>
    simp only [Sys.move, Sys.check]
    split
    · cases remote <;> simp [h]
    · exact h
  | learnerFails => rfl
  | stopPoller => exact h
  | _ => simp only [Sys.move, Sys.send] <;> split <;> exact h

theorem poller_rank {n : Nat} {s : Sys} (hI : Inv s) (he : s.exc = true) (raises : Bool) :
    rank n (s.pollOnce n raises).poller ≤ rank n s.poller - 1 := by
  unfold Sys.pollOnce
  split
  · rename_i hp
    rw [hp]
    simp [he, rank]
  · rename_i i hp
    rw [hp]
    split
    · simp only [rank]; omega
    · split
      · simp only [rank]; omega
      · simp only [rank]; omega
  · rename_i i hp
    rw [hp, if_pos he]
    simp only [rank]; omega
  · rename_i i hp
    rw [hp]
    have := hI.held i (Or.inr hp)
    split
    · exact absurd (by assumption) this
    · unfold Sys.handle
      cases raises <;> simp [rank] <;> omega
  · rename_i hp
    rw [hp]
    simp [rank]

theorem other_poller {n : Nat} {s : Sys} {m : Move} (hm : ∀ r, m ≠ .poll r) : (s.move n true m).poller = s.poller := by
  cases m with
  | poll r => exact absurd rfl (hm r)
  | recv =>
    simp only [Sys.move]
    split
    · rfl
    · split <;> rfl
  | check =>
    simp only [Sys.move, Sys.check]
    split
    · split <;> simp
    · rfl
  | learnerFails => rfl
  | stopPoller => rfl
  | _ => simp only [Sys.move, Sys.send] <;> split <;> rfl

theorem run_rank {n : Nat} : ∀ (ms : List Move) {s : Sys}, Inv s → s.exc = true →
    rank n (s.run n true ms).poller ≤ rank n s.poller - Spec.pollerMoves ms
  | [], _, _, _ => by simp [Sys.run, Spec.pollerMoves]
  | m :: ms, s, hI, he => by
    have : s.run n true (m :: ms) = (s.move n true m).run n true ms := rfl
    rw [this]
    have ih := run_rank (n := n) ms (move_inv (n := n) hI m) (exc_stays (n := n) m he)
    cases m with
    | poll r =>
      have h1 := poller_rank (n := n) hI he r
      have h2 : Spec.pollerMoves (.poll r :: ms) = Spec.pollerMoves ms + 1 := by simp [Spec.pollerMoves]
      rw [h2]
      have h3 : (s.move n true (.poll r)) = s.pollOnce n r := rfl
      rw [h3] at ih ⊢
      omega
    | _ =>
      rw [other_poller (by simp)] at ih
      simpa [Spec.pollerMoves] using ih

/-- **C118.** In actor-learner training the poller ends once an exception has been signalled: for every schedule, at the latest after
`2 n + 3` moves of its own, whatever the actors go on sending. -/
theorem poller_ends (n : Nat) (ms ms' : List Move) (he : (start.run n true ms).exc = true) (hk : 2 * n + 3 ≤ Spec.pollerMoves ms') :
    (start.run n true (ms ++ ms')).poller = .ended := by
  have h := run_rank (n := n) ms' (run_inv (n := n) ms start_inv) he
  have hr : start.run n true (ms ++ ms') = (start.run n true ms).run n true ms' := by
    unfold Sys.run
    rw [List.foldl_append]
  rw [hr]
  have hb : rank n (start.run n true ms).poller ≤ 2 * n + 3 := by
    cases (start.run n true ms).poller <;> simp only [rank] <;> omega
  have h0 : rank n ((start.run n true ms).run n true ms').poller = 0 := by omega
  revert h0
  cases ((start.run n true ms).run n true ms').poller <;> simp [rank]

/-! ## Non-vacuity -/

/-- A training with two actors: process 0 sends a transition and the end of an episode, which the poller answers; then the learner fails,
process 0 finishes a step, tests the event, and asks for a save nobody answers. -/
def sample : List Move :=
  [.transition, .other 1 .transition, .ask, .poll false, .poll false, .poll false, .poll false, .poll false, .poll false, .poll false, .recv,
    .learnerFails, .transition, .endStep]

example : (start.run 2 true sample).exc = true ∧ (start.run 2 true sample).proc = .checking ∧
    (start.run 2 true sample).pipe 0 = [.transition] := by decide +kernel

example : (start.run 2 true (sample ++ [.check] ++ List.replicate 9 (.poll false) ++ [.recv])).poller = .ended ∧
    (start.run 2 true (sample ++ [.check] ++ List.replicate 9 (.poll false) ++ [.recv])).proc = .saving ∧
    (start.run 2 true (sample ++ [.check] ++ List.replicate 9 (.poll false) ++ [.recv])).pipe 0 = [.transition, .save] := by decide +kernel

/-- The same with an agent that saves by itself. -/
example : (start.run 2 false [.learnerFails, .endStep]).proc = .checking ∧ (start.run 2 false [.learnerFails, .endStep, .check]).proc = .killed := by
  decide +kernel

/-- Without failure the same requests are answered and the training goes on. -/
example : (start.run 2 true [.ask, .poll false, .poll false, .poll false, .poll false, .recv, .endStep, .check]).proc = .stepping := by
  decide +kernel

end Pfrl.Train.Failure
