import Mathlib.Data.List.Perm.Basic
import Mathlib.Data.List.FinRange
import Mathlib.Data.Fintype.Pi
import Mathlib.Logic.Function.Basic

/-!
# Tensorboard records of asynchronous training (C114)

The worker processes of `train_agent_async` put the statistics of their evaluations into a queue, and a thread of the
main process takes them from there.  The thread ends with an event that is also the one that ends the training.
-/

namespace Pfrl.Train.Tensorboard

/-! ## Model -/

/-- What a worker does, as far as the records and the event are concerned: it puts the statistics of an evaluation into the
queue, `pfrl/experiments/evaluator.py:626-627`, or it sets the event because the score is high enough,
`pfrl/experiments/train_agent_async.py:101-106`. -/
inductive Op (V : Type) where
  | put (x : V)
  | stop
  deriving DecidableEq, Repr

/-- A worker process: what it has still to do, the items that it has put into the queue but which its feeder thread has not
written to the pipe yet, and whether the process has exited. -/
structure Worker (V : Type) where
  todo : List (Op V)
  buffer : List V
  exited : Bool
  deriving DecidableEq, Repr

/-- Where the thread is in `record_tb_stats_loop`, `evaluator.py:360-366`: before `stop_event.wait`, before the first
`queue.empty()`, before the second, before `queue.get()`, or behind the loop. -/
inductive Pc where
  | wait
  | empty
  | body
  | get
  | done
  deriving DecidableEq, Repr

/-- Where the main process is: in `run_async`, `train_agent_async.py:321`; behind `stop_event.set()`, line 323; or behind
`join_tensorboard_writer()`, line 326. -/
inductive Main where
  | running
  | stopped
  | returned
  deriving DecidableEq, Repr

/-- The state of all processes.  The items in the pipe are tagged with the worker they come from. -/
structure St (n : Nat) (V : Type) where
  worker : Fin n → Worker V
  pipe : List (Fin n × V)
  written : List (Fin n × V)
  stop : Bool
  pc : Pc
  main : Main

variable {n : Nat} {V : Type}

/-- At the start, with what each worker is going to do. -/
def init (prog : Fin n → List (Op V)) : St n V :=
  { worker := fun i => ⟨prog i, [], false⟩, pipe := [], written := [], stop := false, pc := .wait, main := .running }

/-- Who moves next: a worker, the feeder thread of its queue, the thread in the main process, or the main process. -/
inductive Move (n : Nat) where
  | work (i : Fin n)
  | feed (i : Fin n)
  | writer
  | main
  deriving DecidableEq, Repr

/-- A worker goes on.  It exits when it is through and its feeder has written everything (`multiprocessing` joins the feeder
thread of a queue at the exit of a process).  Simplified: a process that is killed by a signal is not modelled. -/
def work (s : St n V) (i : Fin n) : Option (St n V) :=
  match (s.worker i).todo with
  | .put x :: l => some { s with worker := Function.update s.worker i ⟨l, (s.worker i).buffer ++ [x], (s.worker i).exited⟩ }
  | .stop :: l => some { s with worker := Function.update s.worker i ⟨l, (s.worker i).buffer, (s.worker i).exited⟩, stop := true }
  | [] =>
    if (s.worker i).buffer.isEmpty && !(s.worker i).exited then
      some { s with worker := Function.update s.worker i ⟨[], [], true⟩ }
    else none

/-- The feeder thread of a worker writes an item to the pipe. -/
def feed (s : St n V) (i : Fin n) : Option (St n V) :=
  match (s.worker i).buffer with
  | x :: l => some { s with worker := Function.update s.worker i ⟨(s.worker i).todo, l, (s.worker i).exited⟩, pipe := s.pipe ++ [(i, x)] }
  | [] => none

/-- The thread goes on, `evaluator.py:363-366`: `while not (stop_event.wait(1e-6) and queue.empty())` and, in the loop, `if not
queue.empty()`, `queue.get()` and `record_tb_stats`. -/
def writer (s : St n V) : Option (St n V) :=
  match s.pc with
  | .wait => some { s with pc := if s.stop then .empty else .body }
  | .empty => some { s with pc := if s.pipe.isEmpty then .done else .body }
  | .body => some { s with pc := if s.pipe.isEmpty then .wait else .get }
  | .get =>
    match s.pipe with
    | x :: l => some { s with pipe := l, written := s.written ++ [x], pc := .wait }
    | [] => none
  | .done => none

/-- The main process goes on: `run_async` joins all processes, `pfrl/utils/async_.py:28-29`; then the event is set; then
the thread is joined. -/
def main (s : St n V) : Option (St n V) :=
  match s.main with
  | .running => if ∀ i, (s.worker i).exited = true then some { s with stop := true, main := .stopped } else none
  | .stopped => if s.pc = .done then some { s with main := .returned } else none
  | .returned => none

/-- A move; nothing if it is not possible. -/
def step (s : St n V) : Move n → Option (St n V)
  | .work i => work s i
  | .feed i => feed s i
  | .writer => writer s
  | .main => main s

/-- A schedule: any sequence of possible moves. -/
def run (s : St n V) : List (Move n) → Option (St n V)
  | [] => some s
  | m :: ms => (step s m).bind fun s' => run s' ms

/-! ## Specification -/

/-- The statistics that a worker records. -/
def Spec.puts : List (Op V) → List V
  | [] => []
  | .put x :: l => x :: Spec.puts l
  | .stop :: l => Spec.puts l

/-- The statistics of one worker in a list. -/
def Spec.of (i : Fin n) (l : List (Fin n × V)) : List V := (l.filter fun y => decide (y.1 = i)).map (·.2)

/-- Everything that reached the queue. -/
def Spec.reached (s : St n V) : List (Fin n × V) := s.written ++ s.pipe

/-! ## Lemmas -/

theorem of_append (i : Fin n) (l l' : List (Fin n × V)) : Spec.of i (l ++ l') = Spec.of i l ++ Spec.of i l' := by
  unfold Spec.of; rw [List.filter_append, List.map_append]

theorem of_single (i j : Fin n) (x : V) : Spec.of i [(j, x)] = if j = i then [x] else [] := by
  unfold Spec.of
  by_cases h : j = i <;> simp [h]

structure Inv (prog : Fin n → List (Op V)) (s : St n V) : Prop where
  data : ∀ i, Spec.of i (Spec.reached s) ++ (s.worker i).buffer ++ Spec.puts (s.worker i).todo = Spec.puts (prog i)
  todo : ∀ i, (s.worker i).todo <:+ prog i
  exited : ∀ i, (s.worker i).exited = true → (s.worker i).todo = [] ∧ (s.worker i).buffer = []
  main : s.main ≠ .running → ∀ i, (s.worker i).exited = true
  returned : s.main = .returned → s.pc = .done
  get : s.pc = .get → s.pipe ≠ []
  quiet : (∀ i, Op.stop ∉ prog i) → s.stop = true → s.main ≠ .running
  drained : (∀ i, Op.stop ∉ prog i) → s.pc = .done → s.main ≠ .running ∧ s.pipe = []
  empty : (∀ i, Op.stop ∉ prog i) → s.pc = .empty → s.main ≠ .running

theorem Inv.init (prog : Fin n → List (Op V)) : Inv prog (init prog) := by
  refine ⟨fun i => ?_, fun i => List.suffix_rfl, ?_, ?_, ?_, ?_, ?_, ?_, ?_⟩ <;>
    simp [Tensorboard.init, Spec.reached, Spec.of]

theorem puts_tail {o : Op V} {l l' : List (Op V)} (h : o :: l <:+ l') : l <:+ l' :=
  (List.suffix_cons o l).trans h

theorem Inv.work {prog : Fin n → List (Op V)} {s s' : St n V} {j : Fin n} (h : Inv prog s)
    (hs : work s j = some s') : Inv prog s' := by
  unfold Tensorboard.work at hs
  split at hs
  · next x l hl =>
    rw [← Option.some.inj hs]
    have hne : (s.worker j).exited ≠ true := fun he => by
      have := (h.exited j he).1; rw [hl] at this; exact absurd this (by simp)
    refine ⟨fun i => ?_, fun i => ?_, fun i => ?_, fun hm i => ?_, h.returned, h.get, h.quiet, h.drained, h.empty⟩
    · by_cases e : i = j
      · subst e
        have := h.data i
        rw [hl] at this
        simp only [Function.update_self]
        rw [← this]
        simp [Spec.puts, Spec.reached]
      · simp only [Function.update_of_ne e]
        exact h.data i
    · by_cases e : i = j
      · subst e
        simp only [Function.update_self]
        have := h.todo i
        rw [hl] at this
        exact puts_tail this
      · simp only [Function.update_of_ne e]
        exact h.todo i
    · by_cases e : i = j
      · subst e
        simp only [Function.update_self]
        intro he; exact absurd he hne
      · simp only [Function.update_of_ne e]
        exact h.exited i
    · exact absurd (h.main hm j) hne
  · next l hl =>
    rw [← Option.some.inj hs]
    have hne : (s.worker j).exited ≠ true := fun he => by
      have := (h.exited j he).1; rw [hl] at this; exact absurd this (by simp)
    have hmem : Op.stop ∈ prog j := by
      have := h.todo j
      rw [hl] at this
      exact this.subset List.mem_cons_self
    refine ⟨fun i => ?_, fun i => ?_, fun i => ?_, fun hm i => ?_, h.returned, h.get, fun hq => absurd hmem (hq j),
      fun hq => absurd hmem (hq j), fun hq => absurd hmem (hq j)⟩
    · by_cases e : i = j
      · subst e
        have := h.data i
        rw [hl] at this
        simp only [Function.update_self]
        rw [← this]
        simp [Spec.puts, Spec.reached]
      · simp only [Function.update_of_ne e]
        exact h.data i
    · by_cases e : i = j
      · subst e
        simp only [Function.update_self]
        have := h.todo i
        rw [hl] at this
        exact puts_tail this
      · simp only [Function.update_of_ne e]
        exact h.todo i
    · by_cases e : i = j
      · subst e
        simp only [Function.update_self]
        intro he; exact absurd he hne
      · simp only [Function.update_of_ne e]
        exact h.exited i
    · exact absurd (h.main hm j) hne
  · next hl =>
    split at hs
    · next hb =>
      rw [← Option.some.inj hs]
      have hbuf : (s.worker j).buffer = [] := by
        have := (Bool.and_eq_true _ _ ▸ hb : _ ∧ _).1
        simpa using this
      refine ⟨fun i => ?_, fun i => ?_, fun i => ?_, fun hm i => ?_, h.returned, h.get, h.quiet, h.drained, h.empty⟩
      · by_cases e : i = j
        · subst e
          have := h.data i
          rw [hl, hbuf] at this
          simp only [Function.update_self]
          rw [← this]
          rfl
        · simp only [Function.update_of_ne e]
          exact h.data i
      · by_cases e : i = j
        · subst e
          simp only [Function.update_self]
          exact List.nil_suffix
        · simp only [Function.update_of_ne e]
          exact h.todo i
      · by_cases e : i = j
        · subst e
          simp only [Function.update_self]
          simp
        · simp only [Function.update_of_ne e]
          exact h.exited i
      · by_cases e : i = j
        · subst e
          simp only [Function.update_self]
        · simp only [Function.update_of_ne e]
          exact h.main hm i
    · exact absurd hs (by simp)

theorem Inv.feed {prog : Fin n → List (Op V)} {s s' : St n V} {j : Fin n} (h : Inv prog s)
    (hs : feed s j = some s') : Inv prog s' := by
  unfold Tensorboard.feed at hs
  split at hs
  · next x l hl =>
    rw [← Option.some.inj hs]
    have hne : (s.worker j).exited ≠ true := fun he => by
      have := (h.exited j he).2; rw [hl] at this; exact absurd this (by simp)
    refine ⟨fun i => ?_, fun i => ?_, fun i => ?_, fun hm i => ?_, h.returned, fun _ => by simp, h.quiet, fun hq hd => ?_, h.empty⟩
    · have := h.data i
      unfold Spec.reached at this ⊢
      simp only
      rw [← List.append_assoc, of_append, of_single]
      by_cases e : i = j
      · subst e
        rw [hl] at this
        simp only [Function.update_self, if_true]
        rw [← this]
        simp
      · have e' : ¬ j = i := fun h => e h.symm
        simp only [Function.update_of_ne e, e', if_false, List.append_nil]
        exact this
    · by_cases e : i = j
      · subst e
        simp only [Function.update_self]
        exact h.todo i
      · simp only [Function.update_of_ne e]
        exact h.todo i
    · by_cases e : i = j
      · subst e
        simp only [Function.update_self]
        intro he; exact absurd he hne
      · simp only [Function.update_of_ne e]
        exact h.exited i
    · exact absurd (h.main hm j) hne
    · exact absurd (h.main (h.drained hq hd).1 j) hne
  · exact absurd hs (by simp)

theorem Inv.writer {prog : Fin n → List (Op V)} {s s' : St n V} (h : Inv prog s)
    (hs : writer s = some s') : Inv prog s' := by
  unfold Tensorboard.writer at hs
  split at hs
  · next hp =>
    rw [← Option.some.inj hs]
    refine ⟨h.data, h.todo, h.exited, h.main, fun hr => ?_, ?_, h.quiet, ?_, fun hq he => ?_⟩
    · have := h.returned hr; rw [hp] at this; exact absurd this (by simp)
    · simp only; split <;> simp
    · simp only; split <;> simp
    · by_cases hst : s.stop = true
      · exact h.quiet hq hst
      · simp [hst] at he
  · next hp =>
    rw [← Option.some.inj hs]
    refine ⟨h.data, h.todo, h.exited, h.main, fun hr => ?_, ?_, h.quiet, fun hq hd => ?_, ?_⟩
    · have := h.returned hr; rw [hp] at this; exact absurd this (by simp)
    · simp only; split <;> simp
    · refine ⟨h.empty hq hp, ?_⟩
      by_cases hpe : s.pipe.isEmpty = true
      · simpa using hpe
      · simp [hpe] at hd
    · simp only; split <;> simp
  · next hp =>
    rw [← Option.some.inj hs]
    refine ⟨h.data, h.todo, h.exited, h.main, fun hr => ?_, fun hg => ?_, h.quiet, ?_, ?_⟩
    · have := h.returned hr; rw [hp] at this; exact absurd this (by simp)
    · intro hpe
      have hpe : s.pipe = [] := hpe
      simp [hpe] at hg
    · simp only; split <;> simp
    · simp only; split <;> simp
  · next hp =>
    split at hs
    · next x l hl =>
      rw [← Option.some.inj hs]
      refine ⟨fun i => ?_, h.todo, h.exited, h.main, fun hr => ?_, ?_, h.quiet, ?_, ?_⟩
      · have := h.data i
        unfold Spec.reached at this ⊢
        rw [hl] at this
        simpa using this
      · have := h.returned hr; rw [hp] at this; exact absurd this (by simp)
      · simp
      · simp
      · simp
    · exact absurd hs (by simp)
  · exact absurd hs (by simp)

theorem Inv.main' {prog : Fin n → List (Op V)} {s s' : St n V} (h : Inv prog s)
    (hs : Tensorboard.main s = some s') : Inv prog s' := by
  unfold Tensorboard.main at hs
  split at hs
  · next hm =>
    split at hs
    · next he =>
      rw [← Option.some.inj hs]
      refine ⟨h.data, h.todo, h.exited, fun _ => he, ?_, h.get, ?_, fun hq hd => ?_, ?_⟩
      · simp
      · simp
      · exact absurd hm (h.drained hq hd).1
      · simp
    · exact absurd hs (by simp)
  · next hm =>
    split at hs
    · next hd =>
      rw [← Option.some.inj hs]
      have hr : s.main ≠ .running := by rw [hm]; simp
      refine ⟨h.data, h.todo, h.exited, fun _ => h.main hr, fun _ => hd, h.get, ?_, fun hq hd => ?_, ?_⟩
      · simp
      · exact ⟨by simp, (h.drained hq hd).2⟩
      · simp
    · exact absurd hs (by simp)
  · exact absurd hs (by simp)

theorem Inv.step {prog : Fin n → List (Op V)} {s s' : St n V} (h : Inv prog s) (m : Move n)
    (hs : step s m = some s') : Inv prog s' := by
  cases m with
  | work i => exact h.work hs
  | feed i => exact h.feed hs
  | writer => exact h.writer hs
  | main => exact h.main' hs

theorem Inv.run {prog : Fin n → List (Op V)} : ∀ {s s' : St n V} (ms : List (Move n)), Inv prog s →
    run s ms = some s' → Inv prog s'
  | s, s', [], h, hs => by
    rw [← Option.some.inj hs]; exact h
  | s, s', m :: ms, h, hs => by
    rw [Tensorboard.run] at hs
    obtain ⟨s1, h1, h2⟩ := Option.bind_eq_some_iff.mp hs
    exact (h.step m h1).run ms h2

/-- Progress from one state to a later one. -/
structure Later (s s' : St n V) : Prop where
  reached : Spec.reached s <+: Spec.reached s'
  done : s.pc = .done → s'.pc = .done ∧ s'.written = s.written
  mono : s.pc ≠ .done → s'.pc = .done → Spec.reached s <+: s'.written
  stop : s.stop = true → s'.stop = true

theorem step_later {s s' : St n V} (m : Move n) (hs : step s m = some s') : Later s s' := by
  have same : ∀ t : St n V, t.pipe = s.pipe → t.written = s.written → t.pc = s.pc → (s.stop = true → t.stop = true) → Later s t := by
    intro t h1 h2 h3 h4
    refine ⟨?_, fun h => ⟨h3.trans h, h2⟩, fun h h' => absurd (h3.symm.trans h') h, h4⟩
    unfold Spec.reached
    rw [h1, h2]
  cases m with
  | work i =>
    change work s i = some s' at hs
    unfold work at hs
    split at hs
    · rw [← Option.some.inj hs]; exact same _ rfl rfl rfl fun h => h
    · rw [← Option.some.inj hs]; exact same _ rfl rfl rfl fun _ => rfl
    · split at hs
      · rw [← Option.some.inj hs]; exact same _ rfl rfl rfl fun h => h
      · exact absurd hs (by simp)
  | feed i =>
    change feed s i = some s' at hs
    unfold feed at hs
    split at hs
    · rw [← Option.some.inj hs]
      refine ⟨?_, fun h => ⟨h, rfl⟩, fun h h' => absurd h' h, fun h => h⟩
      unfold Spec.reached
      rw [← List.append_assoc]
      exact List.prefix_append _ _
    · exact absurd hs (by simp)
  | writer =>
    change writer s = some s' at hs
    unfold writer at hs
    split at hs
    · next hp =>
      rw [← Option.some.inj hs]
      refine ⟨List.prefix_rfl, fun h => ?_, fun _ h' => ?_, fun h => h⟩
      · rw [hp] at h; exact absurd h (by simp)
      · simp only at h'; split at h' <;> exact absurd h' (by simp)
    · next hp =>
      rw [← Option.some.inj hs]
      refine ⟨List.prefix_rfl, fun h => ?_, fun _ h' => ?_, fun h => h⟩
      · rw [hp] at h; exact absurd h (by simp)
      · by_cases hpe : s.pipe.isEmpty = true
        · have : s.pipe = [] := by simpa using hpe
          unfold Spec.reached
          rw [this, List.append_nil]
        · simp [hpe] at h'
    · next hp =>
      rw [← Option.some.inj hs]
      refine ⟨List.prefix_rfl, fun h => ?_, fun _ h' => ?_, fun h => h⟩
      · rw [hp] at h; exact absurd h (by simp)
      · simp only at h'; split at h' <;> exact absurd h' (by simp)
    · next hp =>
      split at hs
      · next x l hl =>
        rw [← Option.some.inj hs]
        refine ⟨?_, fun h => ?_, fun _ h' => ?_, fun h => h⟩
        · unfold Spec.reached
          rw [hl]
          simp
        · rw [hp] at h; exact absurd h (by simp)
        · exact absurd h' (by simp)
      · exact absurd hs (by simp)
    · exact absurd hs (by simp)
  | main =>
    change main s = some s' at hs
    unfold main at hs
    split at hs
    · split at hs
      · rw [← Option.some.inj hs]; exact same _ rfl rfl rfl fun _ => rfl
      · exact absurd hs (by simp)
    · split at hs
      · rw [← Option.some.inj hs]; exact same _ rfl rfl rfl fun h => h
      · exact absurd hs (by simp)
    · exact absurd hs (by simp)

theorem Later.refl (s : St n V) : Later s s :=
  ⟨List.prefix_rfl, fun h => ⟨h, rfl⟩, fun h h' => absurd h' h, fun h => h⟩

theorem Later.trans {s s' s'' : St n V} (h : Later s s') (h' : Later s' s'') : Later s s'' := by
  refine ⟨h.reached.trans h'.reached, fun hd => ?_, fun hd hd' => ?_, fun hs => h'.stop (h.stop hs)⟩
  · obtain ⟨a, b⟩ := h.done hd
    obtain ⟨c, d⟩ := h'.done a
    exact ⟨c, d.trans b⟩
  · by_cases e : s'.pc = .done
    · rw [(h'.done e).2]
      exact h.mono hd e
    · exact h.reached.trans (h'.mono e hd')

theorem run_later : ∀ {s s' : St n V} (ms : List (Move n)), run s ms = some s' → Later s s'
  | s, s', [], hs => by
    rw [← Option.some.inj hs]; exact Later.refl s
  | s, s', m :: ms, hs => by
    rw [run] at hs
    obtain ⟨s1, h1, h2⟩ := Option.bind_eq_some_iff.mp hs
    exact (step_later m h1).trans (run_later ms h2)

theorem running_not_done {prog : Fin n → List (Op V)} : ∀ {s s' : St n V} (ms : List (Move n)),
    run s ms = some s' → (s.stop = false → s.pc ≠ .done ∧ s.pc ≠ .empty) → s'.stop = false → s'.pc ≠ .done ∧ s'.pc ≠ .empty
  | s, s', [], hs, h, h' => by
    rw [← Option.some.inj hs] at h' ⊢; exact h h'
  | s, s', m :: ms, hs, h, h' => by
    rw [run] at hs
    obtain ⟨s1, h1, h2⟩ := Option.bind_eq_some_iff.mp hs
    refine running_not_done (prog := prog) ms h2 (fun hf => ?_) h'
    have hf0 : s.stop = false := by
      by_contra hc
      have := (step_later m h1).stop (by simpa using hc)
      rw [hf] at this; exact absurd this (by simp)
    obtain ⟨g1, g2⟩ := h hf0
    cases m with
    | work i =>
      change work s i = some s1 at h1
      unfold work at h1
      split at h1
      · rw [← Option.some.inj h1]; exact ⟨g1, g2⟩
      · rw [← Option.some.inj h1]; exact ⟨g1, g2⟩
      · split at h1
        · rw [← Option.some.inj h1]; exact ⟨g1, g2⟩
        · exact absurd h1 (by simp)
    | feed i =>
      change feed s i = some s1 at h1
      unfold feed at h1
      split at h1
      · rw [← Option.some.inj h1]; exact ⟨g1, g2⟩
      · exact absurd h1 (by simp)
    | writer =>
      change writer s = some s1 at h1
      unfold writer at h1
      split at h1
      · rw [← Option.some.inj h1]; simp [hf0]
      · next hp => exact absurd hp g2
      · rw [← Option.some.inj h1]; simp only; split <;> simp
      · split at h1
        · rw [← Option.some.inj h1]; simp
        · exact absurd h1 (by simp)
      · exact absurd h1 (by simp)
    | main =>
      change main s = some s1 at h1
      unfold main at h1
      split at h1
      · split at h1
        · rw [← Option.some.inj h1]; exact ⟨g1, g2⟩
        · exact absurd h1 (by simp)
      · split at h1
        · rw [← Option.some.inj h1]; exact ⟨g1, g2⟩
        · exact absurd h1 (by simp)
      · exact absurd h1 (by simp)

theorem writer_keeps {s s' : St n V} (h : writer s = some s') : s'.main = s.main ∧ s'.stop = s.stop ∧ s'.worker = s.worker := by
  unfold writer at h
  split at h
  · rw [← Option.some.inj h]; exact ⟨rfl, rfl, rfl⟩
  · rw [← Option.some.inj h]; exact ⟨rfl, rfl, rfl⟩
  · rw [← Option.some.inj h]; exact ⟨rfl, rfl, rfl⟩
  · split at h
    · rw [← Option.some.inj h]; exact ⟨rfl, rfl, rfl⟩
    · exact absurd h (by simp)
  · exact absurd h (by simp)

theorem writers_keep : ∀ (k : Nat) {s s' : St n V}, run s (List.replicate k .writer) = some s' → s'.main = s.main
  | 0, s, s', h => by rw [← Option.some.inj h]
  | k + 1, s, s', h => by
    rw [List.replicate_succ, run] at h
    obtain ⟨s1, h1, h2⟩ := Option.bind_eq_some_iff.mp h
    exact (writers_keep k h2).trans (writer_keeps h1).1

theorem step_stops {s s' : St n V} (m : Move n) (hs : step s m = some s') (h : s.main ≠ .running → s.stop = true) :
    s'.main ≠ .running → s'.stop = true := by
  cases m with
  | work i =>
    change work s i = some s' at hs
    unfold work at hs
    split at hs
    · rw [← Option.some.inj hs]; exact h
    · rw [← Option.some.inj hs]; exact fun _ => rfl
    · split at hs
      · rw [← Option.some.inj hs]; exact h
      · exact absurd hs (by simp)
  | feed i =>
    change feed s i = some s' at hs
    unfold feed at hs
    split at hs
    · rw [← Option.some.inj hs]; exact h
    · exact absurd hs (by simp)
  | writer =>
    obtain ⟨h1, h2, -⟩ := writer_keeps hs
    rw [h1, h2]; exact h
  | main =>
    change main s = some s' at hs
    unfold main at hs
    split at hs
    · split at hs
      · rw [← Option.some.inj hs]; exact fun _ => rfl
      · exact absurd hs (by simp)
    · next hm =>
      split at hs
      · rw [← Option.some.inj hs]; exact fun _ => h (by rw [hm]; simp)
      · exact absurd hs (by simp)
    · exact absurd hs (by simp)

theorem run_stops : ∀ {s s' : St n V} (ms : List (Move n)), run s ms = some s' → (s.main ≠ .running → s.stop = true) →
    s'.main ≠ .running → s'.stop = true
  | s, s', [], hs, h => by
    rw [← Option.some.inj hs]; exact h
  | s, s', m :: ms, hs, h => by
    rw [run] at hs
    obtain ⟨s1, h1, h2⟩ := Option.bind_eq_some_iff.mp hs
    exact run_stops ms h2 (step_stops m h1 h)

theorem run_append : ∀ (ms ms' : List (Move n)) {s s' s'' : St n V}, run s ms = some s' → run s' ms' = some s'' →
    run s (ms ++ ms') = some s''
  | [], ms', s, s', s'', h, h' => by
    rw [← Option.some.inj h] at h'; exact h'
  | m :: ms, ms', s, s', s'', h, h' => by
    rw [run] at h
    obtain ⟨s1, h1, h2⟩ := Option.bind_eq_some_iff.mp h
    rw [List.cons_append, run, h1]
    exact run_append ms ms' h2 h'

/-! ## C114 -/

/-- **C114 (nothing is invented, repeated or reordered).** Under every schedule and at any time, the records of a worker that have been written
are, in order, the first of the statistics it records. -/
theorem tb_records_in_order (prog : Fin n → List (Op V)) (ms : List (Move n)) {s : St n V}
    (h : run (init prog) ms = some s) (i : Fin n) : Spec.of i s.written <+: Spec.puts (prog i) := by
  have := ((Inv.init prog).run ms h).data i
  unfold Spec.reached at this
  rw [of_append, List.append_assoc, List.append_assoc] at this
  exact ⟨_, this⟩

/-- **C114 (everything is written), when no score ends the training.** If no worker sets the event, then under every schedule, when
`train_agent_async` returns, all workers have exited and the statistics of all their evaluations have been written, once each and
those of each worker in order.  Missing: with `successful_score` this is false (`tb_record_lost`); what holds then is
`tb_written_before_stop`. -/
theorem tb_all_written_partial (prog : Fin n → List (Op V)) (hq : ∀ i, Op.stop ∉ prog i) (ms : List (Move n)) {s : St n V}
    (h : run (init prog) ms = some s) (hm : s.main = .returned) :
    (∀ i, (s.worker i).exited = true) ∧ ∀ i, Spec.of i s.written = Spec.puts (prog i) := by
  have hi := (Inv.init prog).run ms h
  have hr : s.main ≠ .running := by rw [hm]; simp
  refine ⟨hi.main hr, fun i => ?_⟩
  have hd := hi.drained hq (hi.returned hm)
  have := hi.data i
  obtain ⟨e1, e2⟩ := hi.exited i (hi.main hr i)
  unfold Spec.reached at this
  rw [hd.2, e1, e2, List.append_nil, List.append_nil] at this
  exact (List.append_nil _).symm.trans this

/-- **C114 (before the event).** In any case, what had reached the queue while the event was not set has been written when
`train_agent_async` returns. -/
theorem tb_written_before_stop (prog : Fin n → List (Op V)) (ms ms' : List (Move n)) {s s' : St n V}
    (h : run (init prog) ms = some s) (hs : s.stop = false) (h' : run s ms' = some s') (hm : s'.main = .returned) :
    Spec.reached s <+: s'.written ∧ ∀ i, (s'.worker i).exited = true := by
  have hn := running_not_done (prog := prog) ms h (fun _ => ⟨by simp [init], by simp [init]⟩) hs
  have hi := ((Inv.init prog).run ms h).run ms' h'
  exact ⟨(run_later ms' h').mono hn.1 (hi.returned hm), hi.main (by rw [hm]; simp)⟩

/-- **C114 (the thread ends).** Once the event is set and no more statistics come, the thread ends, so that it can be joined. -/
theorem tb_writer_ends (prog : Fin n → List (Op V)) (ms : List (Move n)) {s : St n V} (h : run (init prog) ms = some s)
    (hs : s.stop = true) : ∃ k s', run s (List.replicate k .writer) = some s' ∧ s'.pc = .done := by
  have hg := ((Inv.init prog).run ms h).get
  have hw : ∀ (l : Nat) (s : St n V), s.pipe.length = l → s.stop = true → s.pc = .wait →
      ∃ k s', run s (List.replicate k .writer) = some s' ∧ s'.pc = .done := by
    intro l
    induction l with
    | zero =>
      intro s hl hs hp
      have hl : s.pipe = [] := List.length_eq_zero_iff.mp hl
      refine ⟨2, { s with pc := .done }, ?_, rfl⟩
      simp [List.replicate, run, step, writer, hp, hs, hl]
    | succ l ih =>
      intro s hl hs hp
      obtain ⟨x, p, hx⟩ : ∃ x p, s.pipe = x :: p := by
        cases hh : s.pipe with
        | nil => rw [hh] at hl; exact absurd hl (by simp)
        | cons x p => exact ⟨x, p, rfl⟩
      obtain ⟨k, s', h1, h2⟩ := ih { s with pipe := p, written := s.written ++ [x], pc := .wait }
        (by rw [hx] at hl; simpa using hl) hs rfl
      refine ⟨k + 4, s', ?_, h2⟩
      rw [List.replicate_succ, List.replicate_succ, List.replicate_succ, List.replicate_succ]
      simp only [run, step, writer, hp, hs, hx, Option.bind_some, if_true, List.isEmpty_cons, Bool.false_eq_true, if_false]
      rw [hs] at h1
      exact h1
  cases hp : s.pc with
  | wait => exact hw _ s rfl hs hp
  | done => exact ⟨0, s, rfl, hp⟩
  | empty =>
    cases hx : s.pipe with
    | nil =>
      refine ⟨1, { s with pc := .done }, ?_, rfl⟩
      simp [List.replicate, run, step, writer, hp, hx]
    | cons x p =>
      obtain ⟨k, s', h1, h2⟩ := hw _ { s with pipe := p, written := s.written ++ [x], pc := .wait } rfl hs rfl
      refine ⟨k + 3, s', ?_, h2⟩
      rw [List.replicate_succ, List.replicate_succ, List.replicate_succ]
      simp only [run, step, writer, hp, hx, Option.bind_some, List.isEmpty_cons, Bool.false_eq_true, if_false]
      exact h1
  | body =>
    cases hx : s.pipe with
    | nil =>
      obtain ⟨k, s', h1, h2⟩ := hw _ { s with pc := .wait } rfl hs rfl
      refine ⟨k + 1, s', ?_, h2⟩
      rw [List.replicate_succ]
      simp only [run, step, writer, hp, hx, Option.bind_some, List.isEmpty_nil, if_true]
      rw [hx] at h1
      exact h1
    | cons x p =>
      obtain ⟨k, s', h1, h2⟩ := hw _ { s with pipe := p, written := s.written ++ [x], pc := .wait } rfl hs rfl
      refine ⟨k + 2, s', ?_, h2⟩
      rw [List.replicate_succ, List.replicate_succ]
      simp only [run, step, writer, hp, hx, Option.bind_some, List.isEmpty_cons, Bool.false_eq_true, if_false]
      exact h1
  | get =>
    cases hx : s.pipe with
    | nil => exact absurd hx (hg hp)
    | cons x p =>
      obtain ⟨k, s', h1, h2⟩ := hw _ { s with pipe := p, written := s.written ++ [x], pc := .wait } rfl hs rfl
      refine ⟨k + 1, s', ?_, h2⟩
      rw [List.replicate_succ]
      simp only [run, step, writer, hp, hx, Option.bind_some]
      exact h1

/-- **C114 (the function returns).** Once all workers have exited, the main process and the thread come to the end by themselves. -/
theorem tb_returns (prog : Fin n → List (Op V)) (ms : List (Move n)) {s : St n V} (h : run (init prog) ms = some s)
    (he : ∀ i, (s.worker i).exited = true) : ∃ ms' s', (∀ m ∈ ms', m = .writer ∨ m = .main) ∧ run s ms' = some s' ∧
      s'.main = .returned := by
  have hst : ∀ (ms : List (Move n)) {s : St n V}, run (init prog) ms = some s → s.main = .stopped →
      ∃ ms' s', (∀ m ∈ ms', m = .writer ∨ m = .main) ∧ run s ms' = some s' ∧ s'.main = .returned := by
    intro ms s h hm
    obtain ⟨k, s1, h1, h2⟩ := tb_writer_ends prog ms h (run_stops ms h (by simp [init]) (by rw [hm]; simp))
    have hm1 := (writers_keep k h1).trans hm
    refine ⟨List.replicate k .writer ++ [.main], { s1 with main := .returned }, ?_, run_append _ _ h1 ?_, rfl⟩
    · intro m hm
      rcases List.mem_append.mp hm with hm | hm
      · exact Or.inl (List.eq_of_mem_replicate hm)
      · exact Or.inr (by simpa using hm)
    · simp [run, step, main, hm1, h2]
  cases hm : s.main with
  | stopped => exact hst ms h hm
  | returned => exact ⟨[], s, by simp, rfl, hm⟩
  | running =>
    have h1 : run s [.main] = some { s with stop := true, main := .stopped } := by
      simp only [run, step, main, hm]
      rw [if_pos he]
      rfl
    obtain ⟨ms', s', g1, g2, g3⟩ := hst (ms ++ [.main]) (run_append _ _ h h1) rfl
    refine ⟨.main :: ms', s', ?_, run_append [.main] ms' h1 g2, g3⟩
    intro m hm
    rcases List.mem_cons.mp hm with hm | hm
    · exact Or.inr hm
    · exact g1 m hm

/-- Two workers, the first of which reaches the score that ends the training. -/
def lossyProg : Fin 2 → List (Op Nat)
  | 0 => [.put 10, .stop]
  | 1 => [.put 20]

def lossySchedule : List (Move 2) :=
  [.work 0, .feed 0, .writer, .writer, .writer, .work 0, .writer, .writer, .work 1, .feed 1, .work 0, .work 1, .main, .main]

/-- **C114 (with a successful score).** The claim is false: a worker sets the event, the thread finds the queue empty and ends, and the statistics that
another worker puts into the queue after that are never written, although `train_agent_async` waits for this worker and
returns. -/
theorem tb_record_lost : ∃ s, run (init lossyProg) lossySchedule = some s ∧ s.main = .returned ∧
    (∀ i, (s.worker i).exited = true) ∧ Spec.of 1 s.written = [] ∧ Spec.puts (lossyProg 1) = [20] := by
  refine ⟨(run (init lossyProg) lossySchedule).get (by decide +kernel), by simp, ?_, ?_, ?_, ?_⟩ <;> decide +kernel

/-! ### Non-vacuity -/

/-- Two workers and no successful score. -/
def exampleProg : Fin 2 → List (Op Nat)
  | 0 => [.put 10, .put 11]
  | 1 => [.put 20]

def exampleSchedule : List (Move 2) :=
  [.work 0, .writer, .feed 0, .writer, .work 1, .feed 1, .writer, .work 0, .writer, .work 1, .writer, .writer, .feed 0, .work 0,
    .writer, .main, .writer, .writer, .writer, .writer, .main]

example : (run (init exampleProg) exampleSchedule).map (fun s => (s.main, s.written)) =
    some (.returned, [(0, 10), (1, 20), (0, 11)]) := by decide +kernel

example : ∀ i, Op.stop ∉ exampleProg i := by decide

end Pfrl.Train.Tensorboard
