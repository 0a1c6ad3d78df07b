import Mathlib.Algebra.BigOperators.Group.List.Basic
import Mathlib.Data.Rat.Defs
import Mathlib.Tactic.Ring
import Verif.Basic

/-!
# Episode statistics of the monitor (C117)

`pfrl.wrappers.Monitor` replaces the statistics recorder of `gym.wrappers.Monitor`.  gym is not part of the repository; what is inherited from
its `StatsRecorder` is modelled as documented there (methods `before_step`, `after_step`, `after_reset`, `save_complete`, `close`), with
`autoreset=False`.  Times and files are not modelled.
-/

namespace Pfrl.Envs.Monitor

/-! ## Model -/

/-- The attributes of the recorder; `steps = none` before the first reset. -/
structure Recorder where
  lengths : List Nat
  rewards : List ℚ
  types : Nat
  steps : Option Nat
  total : ℚ
  totalSteps : Nat
  done : Option Bool
  closed : Bool
  saveCompleted : Bool

/-- `_StatsRecorder.__init__`, `pfrl/wrappers/monitor.py:76-86`. -/
def Recorder.new : Recorder := ⟨[], [], 0, none, 0, 0, none, false, true⟩

/-- gym's `StatsRecorder.save_complete`. -/
def Recorder.gymSaveComplete (s : Recorder) : Recorder :=
  match s.steps with
  | none => s
  | some n => { s with lengths := s.lengths ++ [n], rewards := s.rewards ++ [s.total] }

/-- `save_complete`, `monitor.py:106-109`. -/
def Recorder.saveComplete (s : Recorder) : Recorder :=
  if s.saveCompleted then s else { s.gymSaveComplete with saveCompleted := true }

/-- The condition of `before_reset`, `monitor.py:91`. -/
def Recorder.unfinished (s : Recorder) : Bool := s.done == some false && (s.steps.getD 0 != 0)

/-- `before_reset`, `monitor.py:88-100`. -/
def Recorder.beforeReset (s : Recorder) : Except PyErr Recorder :=
  if s.closed then .error .assertionError
  else .ok { (if s.unfinished then s.saveComplete else s) with done := some false }

/-- gym's `after_reset`. -/
def Recorder.afterReset (s : Recorder) : Recorder := { s with steps := some 0, total := 0, types := s.types + 1 }

/-- gym's `before_step`: stepping a closed, finished or never reset environment is refused. -/
def Recorder.beforeStep (s : Recorder) : Except PyErr Unit :=
  if s.closed then .error .assertionError
  else if s.done = some true then .error .runtimeError
  else if s.steps = none then .error .runtimeError
  else .ok ()

/-- gym's `after_step`. -/
def Recorder.gymAfterStep (s : Recorder) (reward : ℚ) (done : Bool) : Recorder :=
  let s := { s with steps := s.steps.map (· + 1), totalSteps := s.totalSteps + 1, total := s.total + reward, done := some done }
  if done then s.saveComplete else s

/-- `after_step`, `monitor.py:102-104`. -/
def Recorder.afterStep (s : Recorder) (reward : ℚ) (done : Bool) : Recorder :=
  { s with saveCompleted := false }.gymAfterStep reward done

/-- `close`, `monitor.py:111-113`. -/
def Recorder.close (s : Recorder) : Recorder := { s.saveComplete with closed := true }

/-- What is done to the monitored environment. -/
inductive Op where
  | reset
  | step (reward : ℚ) (done : Bool)
  deriving DecidableEq, Repr

/-- `Monitor.reset` and `Monitor.step` of gym, as far as the recorder is concerned. -/
def Recorder.apply (s : Recorder) : Op → Except PyErr Recorder
  | .reset => do
    let s ← s.beforeReset
    return s.afterReset
  | .step r d => do
    s.beforeStep
    return s.afterStep r d

def Recorder.run (s : Recorder) : List Op → Except PyErr Recorder
  | [] => .ok s
  | o :: os => do
    let s ← s.apply o
    s.run os

/-! ## Specification -/

/-- The rewards of the steps, divided at the resets; `cur` are those since the last reset. -/
def Spec.divide (cur : List ℚ) : List Op → List (List ℚ)
  | [] => [cur]
  | .reset :: os => cur :: Spec.divide [] os
  | .step r _ :: os => Spec.divide (cur ++ [r]) os

/-- The episodes: what lies between resets, if there is a step at all. -/
def Spec.episodes (ops : List Op) : List (List ℚ) := (Spec.divide [] ops).filter (· ≠ [])

/-- A step needs an episode that has been begun by a reset and has not been ended by `done`; a reset is always possible. -/
def Spec.legal : Bool → List Op → Bool
  | _, [] => true
  | _, .reset :: os => Spec.legal true os
  | active, .step _ d :: os => active && Spec.legal (!d) os

/-! ## Lemmas -/

/-- What has been recorded: `past` are the episodes before the current one, whose rewards so far are `cur`. -/
structure Recorded (s : Recorder) (eps : List (List ℚ)) : Prop where
  lengths : s.lengths = (eps.filter (· ≠ [])).map List.length
  rewards : s.rewards = (eps.filter (· ≠ [])).map List.sum

inductive Inv : Recorder → List (List ℚ) → List ℚ → Bool → Prop
  | fresh {s past} : s.closed = false → s.saveCompleted = true → s.steps = none → s.done = none → Recorded s past → Inv s past [] false
  | begun {s past} : s.closed = false → s.saveCompleted = true → s.steps = some 0 → s.total = 0 → s.done = some false → Recorded s past →
      Inv s past [] true
  | under {s past cur} : s.closed = false → s.saveCompleted = false → s.steps = some cur.length → s.total = cur.sum → s.done = some false →
      cur ≠ [] → Recorded s past → Inv s past cur true
  | ended {s past cur} : s.closed = false → s.saveCompleted = true → s.steps = some cur.length → s.done = some true → cur ≠ [] →
      Recorded s (past ++ [cur]) → Inv s past cur false

theorem Recorded.nil {s : Recorder} {past : List (List ℚ)} (h : Recorded s past) : Recorded s (past ++ [[]]) := by
  constructor
  · rw [h.lengths]; simp
  · rw [h.rewards]; simp

theorem inv_close {s : Recorder} {past : List (List ℚ)} {cur : List ℚ} {a : Bool} (h : Inv s past cur a) :
    Recorded s.close (past ++ [cur]) := by
  cases h with
  | fresh h1 h2 h3 h4 h5 =>
    have : s.saveComplete = s := by unfold Recorder.saveComplete; rw [if_pos h2]
    unfold Recorder.close
    rw [this]
    exact ⟨h5.nil.lengths, h5.nil.rewards⟩
  | begun h1 h2 h3 h4 h5 h6 =>
    have : s.saveComplete = s := by unfold Recorder.saveComplete; rw [if_pos h2]
    unfold Recorder.close
    rw [this]
    exact ⟨h6.nil.lengths, h6.nil.rewards⟩
  | under h1 h2 h3 h4 h5 h6 h7 =>
    constructor
    · simp [Recorder.close, Recorder.saveComplete, Recorder.gymSaveComplete, h2, h3, h7.lengths, h6]
    · simp [Recorder.close, Recorder.saveComplete, Recorder.gymSaveComplete, h2, h3, h4, h7.rewards, h6]
  | ended h1 h2 h3 h4 h5 h6 =>
    have : s.saveComplete = s := by unfold Recorder.saveComplete; rw [if_pos h2]
    unfold Recorder.close
    rw [this]
    exact ⟨h6.lengths, h6.rewards⟩

theorem inv_reset {s : Recorder} {past : List (List ℚ)} {cur : List ℚ} {a : Bool} (h : Inv s past cur a) :
    ∃ s', s.apply .reset = .ok s' ∧ Inv s' (past ++ [cur]) [] true := by
  have hok : s.closed = false → s.apply .reset = .ok { (if s.unfinished then s.saveComplete else s) with done := some false }.afterReset := by
    intro hc
    simp [Recorder.apply, Recorder.beforeReset, hc, bind, Except.bind, pure, Except.pure]
  cases h with
  | fresh h1 h2 h3 h4 h5 =>
    refine ⟨_, hok h1, .begun ?_ ?_ rfl rfl rfl ?_⟩ <;> simp only [Recorder.unfinished, h4, Recorder.afterReset]
    · exact h1
    · exact h2
    · exact ⟨h5.nil.lengths, h5.nil.rewards⟩
  | begun h1 h2 h3 h4 h5 h6 =>
    have hu : s.unfinished = false := by simp [Recorder.unfinished, h3]
    refine ⟨_, hok h1, .begun ?_ ?_ rfl rfl rfl ?_⟩ <;> simp only [hu, Recorder.afterReset]
    · exact h1
    · exact h2
    · exact ⟨h6.nil.lengths, h6.nil.rewards⟩
  | under h1 h2 h3 h4 h5 h6 h7 =>
    have hu : s.unfinished = true := by simp [Recorder.unfinished, h5, h3, h6]
    have hs : s.saveComplete = { s with lengths := s.lengths ++ [cur.length], rewards := s.rewards ++ [s.total], saveCompleted := true } := by
      simp [Recorder.saveComplete, Recorder.gymSaveComplete, h2, h3]
    refine ⟨_, hok h1, .begun ?_ ?_ rfl rfl rfl ?_⟩ <;> simp only [hu, hs, if_true, Recorder.afterReset]
    · exact h1
    · constructor
      · simp [h7.lengths, h6]
      · simp [h7.rewards, h6, h4]
  | ended h1 h2 h3 h4 h5 h6 =>
    have hu : s.unfinished = false := by simp [Recorder.unfinished, h4]
    refine ⟨_, hok h1, .begun ?_ ?_ rfl rfl rfl ?_⟩ <;> simp only [hu, Recorder.afterReset]
    · exact h1
    · exact h2
    · exact ⟨h6.lengths, h6.rewards⟩

theorem inv_step {s : Recorder} {past : List (List ℚ)} {cur : List ℚ} {r : ℚ} {d : Bool} (h : Inv s past cur true) :
    ∃ s', s.apply (.step r d) = .ok s' ∧ Inv s' past (cur ++ [r]) (!d) := by
  have key : s.closed = false → s.steps = some cur.length → s.total = cur.sum → s.done = some false → Recorded s past →
      ∃ s', s.apply (.step r d) = .ok s' ∧ Inv s' past (cur ++ [r]) (!d) := by
    intro h1 h3 h4 h5 h7
    refine ⟨s.afterStep r d, by simp [Recorder.apply, Recorder.beforeStep, h1, h5, h3, bind, Except.bind, pure, Except.pure], ?_⟩
    cases d with
    | false =>
      refine .under ?_ ?_ ?_ ?_ ?_ (by simp) ?_ <;>
        simp only [Recorder.afterStep, Recorder.gymAfterStep, Bool.false_eq_true, if_false, h1, h3, h4]
      · simp
      · simp
      · exact ⟨h7.lengths, h7.rewards⟩
    | true =>
      have hs : s.afterStep r true = { s with steps := some (cur.length + 1), totalSteps := s.totalSteps + 1, total := s.total + r, done := some true, lengths := s.lengths ++ [cur.length + 1], rewards := s.rewards ++ [s.total + r], saveCompleted := true } := by
        simp [Recorder.afterStep, Recorder.gymAfterStep, Recorder.saveComplete, Recorder.gymSaveComplete, h3]
      rw [hs]
      refine .ended h1 rfl (by simp) rfl (by simp) ?_
      constructor
      · simp [h7.lengths]
      · simp [h7.rewards, h4]
  cases h with
  | begun h1 h2 h3 h4 h5 h6 => exact key h1 h3 (by simpa using h4) h5 h6
  | under h1 h2 h3 h4 h5 h6 h7 => exact key h1 h3 h4 h5 h7

theorem inv_step_refused {s : Recorder} {past : List (List ℚ)} {cur : List ℚ} {r : ℚ} {d : Bool} (h : Inv s past cur false) :
    s.apply (.step r d) = .error .runtimeError := by
  cases h with
  | fresh h1 h2 h3 h4 h5 => simp [Recorder.apply, Recorder.beforeStep, h1, h4, h3, bind, Except.bind]
  | ended h1 h2 h3 h4 h5 h6 => simp [Recorder.apply, Recorder.beforeStep, h1, h4, bind, Except.bind]

theorem run_spec : ∀ (ops : List Op) (s : Recorder) (past : List (List ℚ)) (cur : List ℚ) (a : Bool), Inv s past cur a →
    (Spec.legal a ops = true → ∃ s', s.run ops = .ok s' ∧ Recorded s'.close (past ++ Spec.divide cur ops)) ∧
    (Spec.legal a ops = false → s.run ops = .error .runtimeError)
  | [], s, past, cur, a, h => ⟨fun _ => ⟨s, rfl, inv_close h⟩, fun hf => by simp [Spec.legal] at hf⟩
  | .reset :: os, s, past, cur, a, h => by
    obtain ⟨s', h1, h2⟩ := inv_reset h
    have ih := run_spec os s' (past ++ [cur]) [] true h2
    have hr : s.run (.reset :: os) = s'.run os := by simp [Recorder.run, h1, bind, Except.bind]
    rw [hr]
    simp only [Spec.legal, Spec.divide]
    rw [List.append_assoc] at ih
    exact ih
  | .step r d :: os, s, past, cur, true, h => by
    obtain ⟨s', h1, h2⟩ := inv_step (r := r) (d := d) h
    have ih := run_spec os s' past (cur ++ [r]) (!d) h2
    have hr : s.run (.step r d :: os) = s'.run os := by simp [Recorder.run, h1, bind, Except.bind]
    rw [hr]
    simp only [Spec.legal, Spec.divide, Bool.true_and]
    exact ih
  | .step r d :: os, s, past, cur, false, h => by
    have h1 := inv_step_refused (r := r) (d := d) h
    refine ⟨fun hf => by simp [Spec.legal] at hf, fun _ => ?_⟩
    simp [Recorder.run, h1, bind, Except.bind]

/-! ## C117 -/

/-- **C117.** Whatever resets and steps are made, also resets in the middle of an episode: as long as steps are only made in an episode that
has been begun and is not over, nothing is refused, and after `close` the recorder holds the length and the sum of the rewards of each
episode of at least one step, once and in order, the last one included. -/
theorem monitor_episodes (ops : List Op) (h : Spec.legal false ops = true) :
    ∃ s, Recorder.new.run ops = .ok s ∧ s.close.lengths = (Spec.episodes ops).map List.length ∧
      s.close.rewards = (Spec.episodes ops).map List.sum := by
  obtain ⟨s, h1, h2⟩ := (run_spec ops Recorder.new [] [] false (.fresh rfl rfl rfl rfl ⟨rfl, rfl⟩)).1 h
  exact ⟨s, h1, h2.lengths, h2.rewards⟩

/-- **C117 (refused).** A step before the first reset, or after `done` without a reset, is refused. -/
theorem monitor_refuses (ops : List Op) (h : Spec.legal false ops = false) : Recorder.new.run ops = .error .runtimeError :=
  (run_spec ops Recorder.new [] [] false (.fresh rfl rfl rfl rfl ⟨rfl, rfl⟩)).2 h

/-! ## Non-vacuity -/

/-- An episode cut by a reset, a reset without steps, an episode that ends, and one that is under way at the end. -/
example : Spec.legal false [.reset, .step 1 false, .step 2 false, .reset, .reset, .step 3 true, .reset, .step 4 false] = true ∧
    Spec.episodes [.reset, .step 1 false, .step 2 false, .reset, .reset, .step 3 true, .reset, .step 4 false] = [[1, 2], [3], [4]] := by
  decide +kernel

end Pfrl.Envs.Monitor
