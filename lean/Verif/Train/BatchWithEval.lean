import Verif.Train.WithEval
import Verif.Eval.BatchEpisodes
import Mathlib.Data.Fintype.Pi
import Mathlib.Data.List.FinRange

/-!
# Batch training with evaluation (C113)

`train_agent_batch_with_evaluation` on a vector of environments, each a state machine.  As in
`train_agent_with_evaluation`, by default the evaluation uses the environments of the training; but here it may be due
in the middle of their episodes.
-/

namespace Pfrl.Train.BatchWithEval

open Pfrl.Eval (Goal)
open Pfrl.Train.WithEval (Env Ret Who EnvCall Verdict Outcome lowest mean)

variable {N : Nat} {σ α A O : Type}

/-! ## Model -/

/-- An agent that acts on batches: any state machine with the two calls of `pfrl/agent.py:97-143`, whose behaviour may
depend on the mode. -/
structure Agent (N : Nat) (α A O : Type) where
  act : Who → α → (Fin N → O) → α × (Fin N → A)
  observe : Who → α → (Fin N → O) → (Fin N → ℚ) → (Fin N → Bool) → (Fin N → Bool) → α

/-- What happens during a training, in order. -/
inductive Event (N : Nat) (A O : Type) where
  /-- a call on one of the environments of the training -/
  | env (who : Who) (i : Fin N) (c : EnvCall A O)
  /-- a call on a separate environment for evaluation -/
  | evalEnv (i : Fin N) (c : EnvCall A O)
  | act (who : Who) (o : Fin N → O) (a : Fin N → A)
  | observe (who : Who) (o : Fin N → O) (r : Fin N → ℚ) (done reset : Fin N → Bool)
  /-- a line in `scores.txt` -/
  | scores (t episodes : Nat) (mean : ℚ)
  | saveBest
  | save (t : Nat) (suffix : Suffix)
  deriving DecidableEq

/-- The arguments of `train_agent_batch_with_evaluation`, `pfrl/experiments/train_agent_batch.py:156-177`.  `shared` says
that `eval_env` is `None`.  `evaluator = false` is a call of `train_agent_batch` without an evaluator.  Checkpoints, step
hooks and the log are left out here, see C43, and so are evaluation hooks, see C112. -/
structure Cfg where
  steps : Nat
  offset : Nat
  maxLen : Option Nat
  evalMaxLen : Option Nat
  goal : Goal
  evalInterval : Nat
  successful : Option ℚ
  shared : Bool
  saveBest : Bool
  evaluator : Bool

/-- `if eval_max_episode_len is None: eval_max_episode_len = max_episode_len`, `train_agent_batch.py:229-230`. -/
def Cfg.evalLen (c : Cfg) : Option Nat :=
  match c.evalMaxLen with
  | none => c.maxLen
  | some m => some m

/-- Everything that is passed to the training. -/
structure Setup (N : Nat) (σ α A O : Type) where
  env : Fin N → Env σ A O
  evalEnv : Fin N → Env σ A O
  agent : Agent N α A O
  c : Cfg

/-- A vector environment: the states of its environments, and `self.last_obs`,
`pfrl/envs/serial_vector_env.py:16-18`, which is `None` before the first reset. -/
structure Vec (N : Nat) (σ O : Type) where
  state : Fin N → σ
  last : Fin N → Option O

/-- The state of the world during a training. -/
structure St (N : Nat) (σ α A O : Type) where
  env : Vec N σ O
  evalEnv : Vec N σ O
  agent : α
  prevEval : Nat
  maxScore : ℚ
  log : List (Event N A O)

/-- `SerialVectorEnv.reset`, `serial_vector_env.py:27-36`: those environments are reset for which the mask is false, and
the last observation of the others is returned again.  `MultiprocessVectorEnv.reset` does the same,
`pfrl/envs/multiprocess_vector_env.py:101-116`.  The last value gives the calls made. -/
def Vec.reset (e : Fin N → Env σ A O) (v : Vec N σ O) (mask : Fin N → Bool) :
    Vec N σ O × (Fin N → Option O) × List (Fin N × EnvCall A O) :=
  let o := fun i => if mask i then v.last i else some ((e i).reset (v.state i)).2
  ({ state := fun i => if mask i then v.state i else ((e i).reset (v.state i)).1, last := o }, o,
    ((List.finRange N).filter fun i => !mask i).map fun i => (i, .reset ((e i).reset (v.state i)).2))

/-- `SerialVectorEnv.step`, `serial_vector_env.py:22-25`. -/
def Vec.step (e : Fin N → Env σ A O) (v : Vec N σ O) (a : Fin N → A) :
    Vec N σ O × (Fin N → Ret σ O) × List (Fin N × EnvCall A O) :=
  let r := fun i => (e i).step (v.state i) (a i)
  ({ state := fun i => (r i).state, last := fun i => some (r i).obs }, r,
    (List.finRange N).map fun i => (i, .step (a i) (r i).obs (r i).reward (r i).done (r i).needsReset))

/-- Does this loop use the separate environments?  `train_agent_batch.py:226-227`. -/
def Setup.separate (S : Setup N σ α A O) (w : Who) : Bool := decide (w = .eval) && !S.c.shared

/-- `env.reset(mask)` on the vector environment that the caller uses. -/
def St.reset (S : Setup N σ α A O) (w : Who) (s : St N σ α A O) (mask : Fin N → Bool) :
    St N σ α A O × (Fin N → Option O) :=
  if S.separate w then
    let x := s.evalEnv.reset S.evalEnv mask
    ({ s with evalEnv := x.1, log := s.log ++ x.2.2.map fun y => .evalEnv y.1 y.2 }, x.2.1)
  else
    let x := s.env.reset S.env mask
    ({ s with env := x.1, log := s.log ++ x.2.2.map fun y => .env w y.1 y.2 }, x.2.1)

/-- `env.step(actions)` on the vector environment that the caller uses. -/
def St.step (S : Setup N σ α A O) (w : Who) (s : St N σ α A O) (a : Fin N → A) :
    St N σ α A O × (Fin N → Ret σ O) :=
  if S.separate w then
    let x := s.evalEnv.step S.evalEnv a
    ({ s with evalEnv := x.1, log := s.log ++ x.2.2.map fun y => .evalEnv y.1 y.2 }, x.2.1)
  else
    let x := s.env.step S.env a
    ({ s with env := x.1, log := s.log ++ x.2.2.map fun y => .env w y.1 y.2 }, x.2.1)

/-- `actions = agent.batch_act(obss)`. -/
def St.act (S : Setup N σ α A O) (w : Who) (s : St N σ α A O) (o : Fin N → O) : St N σ α A O × (Fin N → A) :=
  let b := S.agent.act w s.agent o
  ({ s with agent := b.1, log := s.log ++ [.act w o b.2] }, b.2)

/-- `agent.batch_observe(obss, rs, dones, resets)`. -/
def St.observe (S : Setup N σ α A O) (w : Who) (s : St N σ α A O) (r : Fin N → Ret σ O) (reset : Fin N → Bool) :
    St N σ α A O :=
  { s with agent := S.agent.observe w s.agent (fun i => (r i).obs) (fun i => (r i).reward) (fun i => (r i).done) reset,
           log := s.log ++ [.observe w (fun i => (r i).obs) (fun i => (r i).reward) (fun i => (r i).done) reset] }

/-- What an evaluation keeps of the results of a step, for the loop of C45. -/
def outs (r : Fin N → Ret σ O) (i : Nat) : Eval.Out ℚ :=
  if h : i < N then ⟨(r ⟨i, h⟩).reward, (r ⟨i, h⟩).done, (r ⟨i, h⟩).needsReset⟩ else ⟨0, false, false⟩

/-- The loop of `_batch_run_episodes`, `pfrl/experiments/evaluator.py:129-211`: the final state and the scores, or no scores if
it is still running after so many steps.  The bookkeeping is that of C45. -/
def evalLoop (S : Setup N σ α A O) :
    Nat → St N σ α A O → (Fin N → O) → Eval.Batch.Loop ℚ → St N σ α A O × Option (List ℚ)
  | 0, s, _, _ => (s, none)
  | fuel + 1, s, o, l =>
    let x := s.act S .eval o
    let y := x.1.step S .eval x.2
    let r := y.2
    let resets := fun i : Fin N => decide (some (l.len i + 1) = S.c.evalLen) || (r i).needsReset
    let l := l.advance N S.c.evalLen (outs r)
    match Eval.Batch.terminate N S.c.goal l with
    | some res => (y.1.observe S .eval r (fun _ => true), some (res.map (·.1)))
    | none =>
      let z := (y.1.observe S .eval r resets).reset S .eval (fun i => !(resets i || (r i).done))
      evalLoop S fuel z.1 (fun i => (z.2 i).getD (o i)) l

/-- `Evaluator.evaluate_and_update_max_score`, `evaluator.py:463-514`, for a vector environment. -/
def evaluate (S : Setup N σ α A O) (fuel : Nat) (s : St N σ α A O) (o : Fin N → O) (t episodes : Nat) :
    St N σ α A O × Verdict :=
  let x := s.reset S .eval (fun _ => false)
  let y := evalLoop S fuel x.1 (fun i => (x.2 i).getD (o i)) (.init N)
  match y.2 with
  | none => (y.1, .stuck)
  | some scores =>
    let m := mean scores
    let s := { y.1 with log := y.1.log ++ [.scores t episodes m] }
    if m > s.maxScore then
      ({ s with maxScore := m, log := if S.c.saveBest then s.log ++ [.saveBest] else s.log }, .scored m)
    else (s, .scored m)

/-- `Evaluator.evaluate_if_necessary`, `evaluator.py:516-521`. -/
def evaluateIfNecessary (S : Setup N σ α A O) (fuel : Nat) (s : St N σ α A O) (o : Fin N → O) (t episodes : Nat) :
    St N σ α A O × Verdict :=
  if t ≥ s.prevEval + S.c.evalInterval then
    let x := evaluate S fuel s o t episodes
    match x.2 with
    | .scored m => ({ x.1 with prevEval := t - t % S.c.evalInterval }, .scored m)
    | v => (x.1, v)
  else (s, .notDue)

/-- `save_agent`, `evaluator.py:369-372`. -/
def St.save (s : St N σ α A O) (t : Nat) (x : Suffix) : St N σ α A O :=
  { s with log := s.log ++ [.save t x] }

/-- `successful_score is not None and evaluator.max_score >= successful_score`, after an evaluation,
`train_agent_batch.py:128-132`. -/
def St.successful (S : Setup N σ α A O) (s : St N σ α A O) (v : Verdict) : Bool :=
  match v, S.c.successful with
  | .scored _, some x => decide (s.maxScore ≥ x)
  | _, _ => false

/-- The part of an iteration up to the evaluation, `train_agent_batch.py:64-93`: the state, the results of the step, and
the mask `end`. -/
def St.advance (S : Setup N σ α A O) (s : St N σ α A O) (o : Fin N → O) (len : Fin N → Nat) :
    St N σ α A O × (Fin N → Ret σ O) × (Fin N → Bool) :=
  let x := s.act S .train o
  let y := x.1.step S .train x.2
  let resets := fun i => some (len i + 1) == S.c.maxLen || (y.2 i).needsReset
  (y.1.observe S .train y.2 resets, y.2, fun i => resets i || (y.2 i).done)

/-- The loop of `train_agent_batch` with what follows it, `train_agent_batch.py:62-153`.  The first number bounds the steps of
each evaluation, the second the number of iterations; with at least one environment, `steps - step_offset` and one more
are enough. -/
def trainLoop (S : Setup N σ α A O) (fuelE : Nat) :
    Nat → St N σ α A O → (Fin N → O) → (Fin N → Nat) → Nat → Nat → List ℚ → St N σ α A O × Outcome
  | 0, s, _, _, _, _, _ => (s, .stuck)
  | fuel + 1, s, o, len, idx, t, history =>
    let x := s.advance S o len
    let ended := x.2.2
    let idx := idx + ((List.finRange N).filter fun i => ended i).length
    let y := if S.c.evaluator then evaluateIfNecessary S fuelE x.1 o (t + N) idx else (x.1, .notDue)
    match y.2 with
    | .stuck => (y.1, .stuck)
    | v =>
      let history := match v with
        | .scored m => history ++ [m]
        | _ => history
      if y.1.successful S v then (y.1.save (t + N) .finish, .finished history)
      else if t + N ≥ S.c.steps then (y.1.save (t + N) .finish, .finished history)
      else
        let z := y.1.reset S .train (fun i => !ended i)
        trainLoop S fuelE fuel z.1 (fun i => (z.2 i).getD (o i)) (fun i => if ended i then 0 else len i + 1)
          idx (t + N) history

/-- `train_agent_batch_with_evaluation`, `train_agent_batch.py:156-263`, and `train_agent_batch`,
`train_agent_batch.py:10-60`.  The observations `o` stand for those that are missing before the first reset; nothing depends
on them. -/
def train (S : Setup N σ α A O) (fuelE fuel : Nat) (env evalEnv : Fin N → σ) (agent : α) (o : Fin N → O) :
    Except PyErr (St N σ α A O × Outcome) :=
  if S.c.evaluator && S.c.evalInterval == 0 then .error .zeroDivision
  else
    let s : St N σ α A O :=
      { env := ⟨env, fun _ => none⟩, evalEnv := ⟨evalEnv, fun _ => none⟩, agent := agent,
        prevEval := S.c.offset - S.c.offset % S.c.evalInterval, maxScore := lowest, log := [] }
    let x := s.reset S .train (fun _ => false)
    .ok (trainLoop S fuelE fuel x.1 (fun i => (x.2 i).getD (o i)) (fun _ => 0) 0 S.c.offset [])

/-! ## Specification -/

/-- The last call on one of the environments of the training. -/
def Spec.lastCall (i : Fin N) (l : List (Event N A O)) : Option (Who × EnvCall A O) :=
  l.foldl (fun x e => match e with
    | .env w j c => if j = i then some (w, c) else x
    | _ => x) none

/-- The number of steps of one of the environments of the training since its last reset. -/
def Spec.sinceReset (i : Fin N) (l : List (Event N A O)) : Nat :=
  l.foldl (fun n e => match e with
    | .env _ j (.reset _) => if j = i then 0 else n
    | .env _ j (.step ..) => if j = i then n + 1 else n
    | _ => n) 0

/-- The actions chosen last, unless the environment has got its action already. -/
def Spec.chosen (i : Fin N) (l : List (Event N A O)) : Option (Fin N → A) :=
  l.foldl (fun x e => match e with
    | .act .train _ a => some a
    | .env _ j _ => if j = i then none else x
    | _ => x) none

/-- Has the episode of this environment ended with its last call, or been cut? -/
def Spec.over (maxLen : Option Nat) (i : Fin N) (l : List (Event N A O)) (c : EnvCall A O) : Prop :=
  WithEval.Spec.goesOn c = false ∨ maxLen = some (Spec.sinceReset i l) ∧ ∃ a o r d n, c = .step a o r d n

/-- What must be true of the past when something happens:
* the agent acts, in training, on the observations that the environments returned last, these were returned to the training
  and not to an evaluation, and none of the episodes is over;
* each environment is stepped with the action just chosen for it, once;
* the agent observes what these steps returned, and which episodes were cut;
* an environment is reset by the training at the beginning and when its episode is over, and not otherwise. -/
def Spec.Fits (c : Cfg) (past : List (Event N A O)) : Event N A O → Prop
  | .act .train o _ => ∀ i, ∃ k, Spec.lastCall i past = some (.train, k) ∧ WithEval.Spec.obsOf k = o i ∧
      ¬ Spec.over c.maxLen i past k
  | .env .train i (.step a _ _ _ _) => ∃ as, Spec.chosen i past = some as ∧ as i = a
  | .observe .train o r done reset => ∀ i, ∃ a n, Spec.lastCall i past = some (.train, .step a (o i) (r i) (done i) n) ∧
      (reset i = true ↔ c.maxLen = some (Spec.sinceReset i past) ∨ n = true)
  | .env .train i (.reset _) => Spec.lastCall i past = none ∨
      ∃ k, Spec.lastCall i past = some (.train, k) ∧ Spec.over c.maxLen i past k
  | _ => True

/-- Nothing interferes with the training. -/
def Spec.Intact (c : Cfg) (log : List (Event N A O)) : Prop :=
  ∀ past e rest, log = past ++ e :: rest → Spec.Fits c past e

/-- The calls on one of the environments of the training. -/
def Spec.calls (i : Fin N) : List (Event N A O) → List (EnvCall A O)
  | [] => []
  | .env _ j c :: l => if j = i then c :: Spec.calls i l else Spec.calls i l
  | _ :: l => Spec.calls i l

/-- The agent, started in a state, gets these calls, answers with these actions and is then in that state. -/
def Spec.Behaves (ag : Agent N α A O) : α → List (Event N A O) → α → Prop
  | a, [], b => a = b
  | a, .act w o x :: l, b => (ag.act w a o).2 = x ∧ Spec.Behaves ag (ag.act w a o).1 l b
  | a, .observe w o r d x :: l, b => Spec.Behaves ag (ag.observe w a o r d x) l b
  | a, _ :: l, b => Spec.Behaves ag a l b

/-- Is this something that happens in training? -/
def Spec.ofTraining : Event N A O → Bool
  | .env .train _ _ => true
  | .act .train _ _ => true
  | .observe .train _ _ _ _ => true
  | _ => false

/-- What happens in training. -/
def Spec.training (l : List (Event N A O)) : List (Event N A O) := l.filter Spec.ofTraining

/-- The same without an evaluator. -/
def Spec.without (S : Setup N σ α A O) : Setup N σ α A O := { S with c := { S.c with evaluator := false } }

/-- Evaluation does not touch the part of the agent that its training depends on. -/
structure Spec.Separate {τ : Type} (ag : Agent N α A O) (view : α → τ) : Prop where
  eval_act : ∀ a o, view (ag.act .eval a o).1 = view a
  eval_observe : ∀ a o r d x, view (ag.observe .eval a o r d x) = view a
  train_act : ∀ a b o, view a = view b →
    (ag.act .train a o).2 = (ag.act .train b o).2 ∧ view (ag.act .train a o).1 = view (ag.act .train b o).1
  train_observe : ∀ a b o r d x, view a = view b →
    view (ag.observe .train a o r d x) = view (ag.observe .train b o r d x)

/-! ## Lemmas -/

/-- An event that has nothing to do with the environments of the training or with training. -/
def Quiet : Event N A O → Prop
  | .env .. => False
  | .act .train _ _ => False
  | .observe .train _ _ _ _ => False
  | _ => True

theorem intact_nil (c : Cfg) : Spec.Intact c ([] : List (Event N A O)) := by
  intro past e rest h
  exact absurd h (by simp)

theorem intact_snoc {c : Cfg} {l : List (Event N A O)} {e : Event N A O} (h : Spec.Intact c l)
    (he : Spec.Fits c l e) : Spec.Intact c (l ++ [e]) := by
  intro past e' rest hh
  rcases List.eq_nil_or_concat rest with rfl | ⟨r, x, rfl⟩
  · obtain ⟨h1, h2⟩ := List.append_inj' hh rfl
    rw [← h1, ← List.singleton_inj.mp h2]; exact he
  · rw [List.concat_eq_append, ← List.cons_append, ← List.append_assoc] at hh
    obtain ⟨h1, -⟩ := List.append_inj' hh rfl
    exact h past e' r h1

theorem lastCall_snoc_env (i j : Fin N) (l : List (Event N A O)) (w : Who) (c : EnvCall A O) :
    Spec.lastCall i (l ++ [.env w j c]) = if j = i then some (w, c) else Spec.lastCall i l := by
  unfold Spec.lastCall; rw [List.foldl_append]; rfl

theorem sinceReset_snoc_step (i j : Fin N) (l : List (Event N A O)) (w : Who) (a : A) (o : O) (r : ℚ) (d n : Bool) :
    Spec.sinceReset i (l ++ [.env w j (.step a o r d n)]) =
      if j = i then Spec.sinceReset i l + 1 else Spec.sinceReset i l := by
  unfold Spec.sinceReset; rw [List.foldl_append]; rfl

theorem sinceReset_snoc_reset (i j : Fin N) (l : List (Event N A O)) (w : Who) (o : O) :
    Spec.sinceReset i (l ++ [.env w j (.reset o)]) = if j = i then 0 else Spec.sinceReset i l := by
  unfold Spec.sinceReset; rw [List.foldl_append]; rfl

theorem chosen_snoc_env (i j : Fin N) (l : List (Event N A O)) (w : Who) (c : EnvCall A O) :
    Spec.chosen i (l ++ [.env w j c]) = if j = i then none else Spec.chosen i l := by
  unfold Spec.chosen; rw [List.foldl_append]; rfl

theorem lastCall_act (i : Fin N) (l : List (Event N A O)) (w : Who) (o : Fin N → O) (a : Fin N → A) :
    Spec.lastCall i (l ++ [.act w o a]) = Spec.lastCall i l := by
  unfold Spec.lastCall; rw [List.foldl_append]; rfl

theorem sinceReset_act (i : Fin N) (l : List (Event N A O)) (w : Who) (o : Fin N → O) (a : Fin N → A) :
    Spec.sinceReset i (l ++ [.act w o a]) = Spec.sinceReset i l := by
  unfold Spec.sinceReset; rw [List.foldl_append]; rfl

theorem chosen_act (i : Fin N) (l : List (Event N A O)) (o : Fin N → O) (a : Fin N → A) :
    Spec.chosen i (l ++ [.act .train o a]) = some a := by
  unfold Spec.chosen; rw [List.foldl_append]; rfl

theorem lastCall_observe (i : Fin N) (l : List (Event N A O)) (w : Who) (o : Fin N → O) (r : Fin N → ℚ)
    (d x : Fin N → Bool) : Spec.lastCall i (l ++ [.observe w o r d x]) = Spec.lastCall i l := by
  unfold Spec.lastCall; rw [List.foldl_append]; rfl

theorem sinceReset_observe (i : Fin N) (l : List (Event N A O)) (w : Who) (o : Fin N → O) (r : Fin N → ℚ)
    (d x : Fin N → Bool) : Spec.sinceReset i (l ++ [.observe w o r d x]) = Spec.sinceReset i l := by
  unfold Spec.sinceReset; rw [List.foldl_append]; rfl

theorem quiet_lastCall (i : Fin N) (l : List (Event N A O)) (e : Event N A O) (h : Quiet e) :
    Spec.lastCall i (l ++ [e]) = Spec.lastCall i l := by
  unfold Spec.lastCall; rw [List.foldl_append]
  cases e <;> first | rfl | exact absurd h (by simp [Quiet])

theorem quiet_sinceReset (i : Fin N) (l : List (Event N A O)) (e : Event N A O) (h : Quiet e) :
    Spec.sinceReset i (l ++ [e]) = Spec.sinceReset i l := by
  unfold Spec.sinceReset; rw [List.foldl_append]
  cases e <;> first | rfl | exact absurd h (by simp [Quiet])

theorem quiet_fits (c : Cfg) (l : List (Event N A O)) (e : Event N A O) (h : Quiet e) : Spec.Fits c l e := by
  cases e with
  | env w i k => exact absurd h (by simp [Quiet])
  | evalEnv i k => trivial
  | act w o a => cases w with
    | train => exact absurd h (by simp [Quiet])
    | eval => trivial
  | observe w o r d x => cases w with
    | train => exact absurd h (by simp [Quiet])
    | eval => trivial
  | scores t e m => trivial
  | saveBest => trivial
  | save t x => trivial

theorem quiet_calls (i : Fin N) : ∀ (le : List (Event N A O)), (∀ e ∈ le, Quiet e) → Spec.calls i le = []
  | [], _ => rfl
  | e :: le, h => by
    have ih := quiet_calls i le fun x hx => h x (List.mem_cons_of_mem _ hx)
    have he := h e List.mem_cons_self
    cases e <;> first | exact ih | exact absurd he (by simp [Quiet])

theorem quiet_training (le : List (Event N A O)) (h : ∀ e ∈ le, Quiet e) : Spec.training le = [] := by
  unfold Spec.training
  rw [List.filter_eq_nil_iff]
  intro e he
  have := h e he
  cases e with
  | env w i k => exact absurd this (by simp [Quiet])
  | act w o a => cases w with
    | train => exact absurd this (by simp [Quiet])
    | eval => simp [Spec.ofTraining]
  | observe w o r d x => cases w with
    | train => exact absurd this (by simp [Quiet])
    | eval => simp [Spec.ofTraining]
  | _ => simp [Spec.ofTraining]

theorem quiet_append (c : Cfg) : ∀ (le l : List (Event N A O)), (∀ e ∈ le, Quiet e) →
    (Spec.Intact c l → Spec.Intact c (l ++ le)) ∧ ∀ i, Spec.lastCall i (l ++ le) = Spec.lastCall i l ∧
      Spec.sinceReset i (l ++ le) = Spec.sinceReset i l
  | [], l, _ => by simp
  | e :: le, l, h => by
    have he := h e List.mem_cons_self
    obtain ⟨h1, h2⟩ := quiet_append c le (l ++ [e]) fun x hx => h x (List.mem_cons_of_mem _ hx)
    rw [List.append_assoc, List.singleton_append] at h1 h2
    refine ⟨fun hl => h1 (intact_snoc hl (quiet_fits c l e he)), fun i => ?_⟩
    rw [(h2 i).1, (h2 i).2, quiet_lastCall i l e he, quiet_sinceReset i l e he]
    exact ⟨rfl, rfl⟩

/-- Stepping some of the environments. -/
theorem steps_append (c : Cfg) (as : Fin N → A) (o : Fin N → O) (r : Fin N → ℚ) (d n : Fin N → Bool) :
    ∀ (js : List (Fin N)) (l : List (Event N A O)), js.Nodup → (∀ j ∈ js, Spec.chosen j l = some as) →
      (Spec.Intact c l → Spec.Intact c (l ++ js.map fun j => .env .train j (.step (as j) (o j) (r j) (d j) (n j)))) ∧
      ∀ i, Spec.lastCall i (l ++ js.map fun j => .env .train j (.step (as j) (o j) (r j) (d j) (n j))) =
          (if i ∈ js then some (.train, .step (as i) (o i) (r i) (d i) (n i)) else Spec.lastCall i l) ∧
        Spec.sinceReset i (l ++ js.map fun j => .env .train j (.step (as j) (o j) (r j) (d j) (n j))) =
          if i ∈ js then Spec.sinceReset i l + 1 else Spec.sinceReset i l
  | [], l, _, _ => by simp
  | j :: js, l, hn, hc => by
    obtain ⟨hj, hn⟩ := List.nodup_cons.mp hn
    have hjs : ∀ k ∈ js, Spec.chosen k (l ++ [.env .train j (.step (as j) (o j) (r j) (d j) (n j))]) = some as := by
      intro k hk
      have : j ≠ k := fun e => hj (e ▸ hk)
      rw [chosen_snoc_env, if_neg this]
      exact hc k (List.mem_cons_of_mem _ hk)
    obtain ⟨h1, h2⟩ := steps_append c as o r d n js _ hn hjs
    rw [List.append_assoc, List.singleton_append] at h1
    refine ⟨fun hl => h1 (intact_snoc hl ⟨as, hc j List.mem_cons_self, rfl⟩), fun i => ?_⟩
    have := h2 i
    rw [List.append_assoc, List.singleton_append, lastCall_snoc_env, sinceReset_snoc_step] at this
    rw [List.map_cons, this.1, this.2]
    by_cases e : j = i
    · subst e; simp [hj]
    · have e' : ¬ i = j := fun h => e h.symm
      simp [e, e']

/-- Resetting some of the environments. -/
theorem resets_append (c : Cfg) (o : Fin N → O) :
    ∀ (js : List (Fin N)) (l : List (Event N A O)), js.Nodup →
      (∀ j ∈ js, Spec.lastCall j l = none ∨ ∃ k, Spec.lastCall j l = some (.train, k) ∧ Spec.over c.maxLen j l k) →
      (Spec.Intact c l → Spec.Intact c (l ++ js.map fun j => .env .train j (.reset (o j)))) ∧
      ∀ i, Spec.lastCall i (l ++ js.map fun j => .env .train j (.reset (o j))) =
          (if i ∈ js then some (.train, .reset (o i)) else Spec.lastCall i l) ∧
        Spec.sinceReset i (l ++ js.map fun j => .env .train j (.reset (o j))) =
          if i ∈ js then 0 else Spec.sinceReset i l
  | [], l, _, _ => by simp
  | j :: js, l, hn, hc => by
    obtain ⟨hj, hn⟩ := List.nodup_cons.mp hn
    have hjs : ∀ k ∈ js, Spec.lastCall k (l ++ [.env .train j (.reset (o j))]) = none ∨
        ∃ x, Spec.lastCall k (l ++ [.env .train j (.reset (o j))]) = some (.train, x) ∧
          Spec.over c.maxLen k (l ++ [.env .train j (.reset (o j))]) x := by
      intro k hk
      have : j ≠ k := fun e => hj (e ▸ hk)
      unfold Spec.over
      rw [lastCall_snoc_env, if_neg this, sinceReset_snoc_reset, if_neg this]
      exact hc k (List.mem_cons_of_mem _ hk)
    obtain ⟨h1, h2⟩ := resets_append c o js _ hn hjs
    rw [List.append_assoc, List.singleton_append] at h1
    refine ⟨fun hl => h1 (intact_snoc hl (hc j List.mem_cons_self)), fun i => ?_⟩
    have := h2 i
    rw [List.append_assoc, List.singleton_append, lastCall_snoc_env, sinceReset_snoc_reset] at this
    rw [List.map_cons, this.1, this.2]
    by_cases e : j = i
    · subst e; simp
    · have e' : ¬ i = j := fun h => e h.symm
      simp [e, e']

/-! ### The two kinds of environments -/

theorem separate_train (S : Setup N σ α A O) : S.separate .train = false := rfl

theorem separate_eval {S : Setup N σ α A O} (h : S.c.shared = false) : S.separate .eval = true := by
  simp [Setup.separate, h]

theorem train_reset (S : Setup N σ α A O) (s : St N σ α A O) (mask : Fin N → Bool) :
    s.reset S .train mask = ({ s with
      env := (s.env.reset S.env mask).1,
      log := s.log ++ ((List.finRange N).filter fun i => !mask i).map fun i =>
        .env .train i (.reset ((S.env i).reset (s.env.state i)).2) }, (s.env.reset S.env mask).2.1) := by
  unfold St.reset
  rw [separate_train]
  simp only [Bool.false_eq_true, if_false, Vec.reset, List.map_map]
  rfl

theorem train_step (S : Setup N σ α A O) (s : St N σ α A O) (a : Fin N → A) :
    s.step S .train a = ({ s with
      env := (s.env.step S.env a).1,
      log := s.log ++ (List.finRange N).map fun i =>
        .env .train i (.step (a i) ((S.env i).step (s.env.state i) (a i)).obs ((S.env i).step (s.env.state i) (a i)).reward
          ((S.env i).step (s.env.state i) (a i)).done ((S.env i).step (s.env.state i) (a i)).needsReset) },
      fun i => (S.env i).step (s.env.state i) (a i)) := by
  unfold St.step
  rw [separate_train]
  simp only [Bool.false_eq_true, if_false, Vec.step, List.map_map]
  rfl

/-- What an evaluation on separate environments does. -/
structure Evaluated (S : Setup N σ α A O) (s s' : St N σ α A O) : Prop where
  env : s'.env = s.env
  log : ∃ le, s'.log = s.log ++ le ∧ ∀ e ∈ le, Quiet e
  view : ∀ {τ : Type} (view : α → τ), Spec.Separate S.agent view → view s'.agent = view s.agent

theorem Evaluated.refl (S : Setup N σ α A O) (s : St N σ α A O) : Evaluated S s s :=
  ⟨rfl, ⟨[], by simp, by simp⟩, fun _ _ => rfl⟩

theorem Evaluated.trans {S : Setup N σ α A O} {s s' s'' : St N σ α A O} (h : Evaluated S s s') (h' : Evaluated S s' s'') :
    Evaluated S s s'' := by
  obtain ⟨l, hl, hq⟩ := h.log
  obtain ⟨l', hl', hq'⟩ := h'.log
  refine ⟨h'.env.trans h.env, ⟨l ++ l', by rw [hl', hl, List.append_assoc], ?_⟩,
    fun v hv => (h'.view v hv).trans (h.view v hv)⟩
  intro e he
  rcases List.mem_append.mp he with h | h
  · exact hq e h
  · exact hq' e h

theorem eval_reset {S : Setup N σ α A O} (hs : S.c.shared = false) (s : St N σ α A O) (mask : Fin N → Bool) :
    Evaluated S s (s.reset S .eval mask).1 := by
  unfold St.reset
  rw [separate_eval hs]
  refine ⟨rfl, ⟨_, rfl, ?_⟩, fun _ _ => rfl⟩
  intro e he
  obtain ⟨y, -, rfl⟩ := List.mem_map.mp he
  trivial

theorem eval_step {S : Setup N σ α A O} (hs : S.c.shared = false) (s : St N σ α A O) (a : Fin N → A) :
    Evaluated S s (s.step S .eval a).1 := by
  unfold St.step
  rw [separate_eval hs]
  refine ⟨rfl, ⟨_, rfl, ?_⟩, fun _ _ => rfl⟩
  intro e he
  obtain ⟨y, -, rfl⟩ := List.mem_map.mp he
  trivial

theorem eval_act (S : Setup N σ α A O) (s : St N σ α A O) (o : Fin N → O) : Evaluated S s (s.act S .eval o).1 :=
  ⟨rfl, ⟨_, rfl, fun e he => by rw [List.mem_singleton.mp he]; trivial⟩, fun _ hv => hv.eval_act _ _⟩

theorem eval_observe (S : Setup N σ α A O) (s : St N σ α A O) (r : Fin N → Ret σ O) (x : Fin N → Bool) :
    Evaluated S s (s.observe S .eval r x) :=
  ⟨rfl, ⟨_, rfl, fun e he => by rw [List.mem_singleton.mp he]; trivial⟩, fun _ hv => hv.eval_observe _ _ _ _ _⟩

theorem evalLoop_evaluated {S : Setup N σ α A O} (hs : S.c.shared = false) : ∀ (fuel : Nat) (s : St N σ α A O)
    (o : Fin N → O) (l : Eval.Batch.Loop ℚ), Evaluated S s (evalLoop S fuel s o l).1
  | 0, s, _, _ => Evaluated.refl S s
  | fuel + 1, s, o, l => by
    have h1 := (eval_act S s o).trans (eval_step hs (s.act S .eval o).1 (s.act S .eval o).2)
    rw [evalLoop]
    simp only
    split
    · exact h1.trans (eval_observe S _ _ _)
    · exact ((h1.trans (eval_observe S _ _ _)).trans (eval_reset hs _ _)).trans (evalLoop_evaluated hs fuel _ _ _)

theorem evaluate_evaluated {S : Setup N σ α A O} (hs : S.c.shared = false) (fuel : Nat) (s : St N σ α A O)
    (o : Fin N → O) (t e : Nat) : Evaluated S s (evaluate S fuel s o t e).1 := by
  unfold evaluate
  have h1 := (eval_reset hs s fun _ => false).trans (evalLoop_evaluated hs fuel (s.reset S .eval fun _ => false).1
    (fun i => ((s.reset S .eval fun _ => false).2 i).getD (o i)) (.init N))
  simp only
  split
  · exact h1
  · next scores _ =>
    have h2 : ∀ x : St N σ α A O, Evaluated S x { x with log := x.log ++ [.scores t e (mean scores)] } := fun x =>
      ⟨rfl, ⟨_, rfl, fun e he => by rw [List.mem_singleton.mp he]; trivial⟩, fun _ _ => rfl⟩
    have h3 := h1.trans (h2 _)
    split
    · refine h3.trans ⟨rfl, ?_, fun _ _ => rfl⟩
      cases S.c.saveBest with
      | true => exact ⟨[.saveBest], rfl, fun e he => by rw [List.mem_singleton.mp he]; trivial⟩
      | false => exact ⟨[], by simp, by simp⟩
    · exact h3

theorem evaluateIfNecessary_evaluated {S : Setup N σ α A O} (hs : S.c.shared = false) (fuel : Nat) (s : St N σ α A O)
    (o : Fin N → O) (t e : Nat) : Evaluated S s (evaluateIfNecessary S fuel s o t e).1 := by
  unfold evaluateIfNecessary
  have h := evaluate_evaluated hs fuel s o t e
  split
  · simp only
    split
    · exact ⟨h.env, h.log, h.view⟩
    · exact h
  · exact Evaluated.refl S s

/-! ### The training is intact -/

/-- The training is about to act. -/
structure Fresh (S : Setup N σ α A O) (s : St N σ α A O) (o : Fin N → O) (len : Fin N → Nat) : Prop where
  intact : Spec.Intact S.c s.log
  call : ∀ i, ∃ k, Spec.lastCall i s.log = some (.train, k) ∧ WithEval.Spec.obsOf k = o i ∧ ¬ Spec.over S.c.maxLen i s.log k
  len : ∀ i, Spec.sinceReset i s.log = len i

/-- The environments have been stepped and the agent has observed the results. -/
structure Mid (S : Setup N σ α A O) (s : St N σ α A O) (r : Fin N → Ret σ O) (ended : Fin N → Bool)
    (len : Fin N → Nat) : Prop where
  intact : Spec.Intact S.c s.log
  call : ∀ i, ∃ k, Spec.lastCall i s.log = some (.train, k) ∧ WithEval.Spec.obsOf k = (r i).obs ∧
    (ended i = true ↔ Spec.over S.c.maxLen i s.log k)
  len : ∀ i, Spec.sinceReset i s.log = len i + 1
  last : ∀ i, s.env.last i = some (r i).obs

theorem advance_mid {S : Setup N σ α A O} {s : St N σ α A O} {o : Fin N → O} {len : Fin N → Nat}
    (h : Fresh S s o len) : Mid S (s.advance S o len).1 (s.advance S o len).2.1 (s.advance S o len).2.2 len := by
  unfold St.advance
  simp only
  rw [train_step]
  set a := (s.act S .train o).2 with ha
  set s1 := (s.act S .train o).1 with hs1
  have hlog1 : s1.log = s.log ++ [.act .train o a] := rfl
  have hi1 : Spec.Intact S.c s1.log := by
    rw [hlog1]; exact intact_snoc h.intact h.call
  set r : Fin N → Ret σ O := fun i => (S.env i).step (s1.env.state i) (a i) with hr
  have hst := steps_append S.c a (fun i => (r i).obs) (fun i => (r i).reward) (fun i => (r i).done)
    (fun i => (r i).needsReset) (List.finRange N) s1.log (List.nodup_finRange N)
    (fun j _ => by rw [hlog1]; exact chosen_act j s.log o a)
  obtain ⟨hi2, hall⟩ := hst
  have hi2 := hi2 hi1
  set l2 := s1.log ++ (List.finRange N).map fun j =>
    (Event.env .train j (.step (a j) (r j).obs (r j).reward (r j).done (r j).needsReset) : Event N A O) with hl2
  have hlast : ∀ i, Spec.lastCall i l2 = some (.train, .step (a i) (r i).obs (r i).reward (r i).done (r i).needsReset) := by
    intro i
    have := (hall i).1
    rw [if_pos (List.mem_finRange i)] at this
    exact this
  have hlen : ∀ i, Spec.sinceReset i l2 = len i + 1 := by
    intro i
    have := (hall i).2
    rw [if_pos (List.mem_finRange i), hlog1, sinceReset_act, h.len i] at this
    exact this
  have hobs : Spec.Fits S.c l2 (.observe .train (fun i => (r i).obs) (fun i => (r i).reward) (fun i => (r i).done)
      (fun i => some (len i + 1) == S.c.maxLen || (r i).needsReset)) := by
    intro i
    refine ⟨a i, (r i).needsReset, hlast i, ?_⟩
    rw [hlen i]
    simp only [Bool.or_eq_true, beq_iff_eq]
    exact or_congr_left eq_comm
  refine ⟨intact_snoc hi2 hobs, fun i => ?_, fun i => ?_, fun i => rfl⟩
  · refine ⟨.step (a i) (r i).obs (r i).reward (r i).done (r i).needsReset, ?_, rfl, ?_⟩
    · exact (lastCall_observe i l2 _ _ _ _ _).trans (hlast i)
    · have e : Spec.over S.c.maxLen i (l2 ++ [.observe .train (fun i => (r i).obs) (fun i => (r i).reward)
          (fun i => (r i).done) (fun i => some (len i + 1) == S.c.maxLen || (r i).needsReset)])
          (.step (a i) (r i).obs (r i).reward (r i).done (r i).needsReset) ↔
          ((r i).done = true ∨ (r i).needsReset = true) ∨ S.c.maxLen = some (len i + 1) := by
        unfold Spec.over
        rw [sinceReset_observe, hlen i]
        constructor
        · rintro (h | ⟨h, -⟩)
          · left
            simp only [WithEval.Spec.goesOn] at h
            cases hd : (r i).done with
            | true => exact Or.inl rfl
            | false => right; simpa [hd] using h
          · exact Or.inr h
        · rintro ((h | h) | h)
          · left; simp [WithEval.Spec.goesOn, h]
          · left; simp [WithEval.Spec.goesOn, h]
          · exact Or.inr ⟨h, _, _, _, _, _, rfl⟩
      refine Iff.trans ?_ e.symm
      simp only [Bool.or_eq_true, beq_iff_eq]
      constructor
      · rintro ((h | h) | h)
        · exact Or.inr h.symm
        · exact Or.inl (Or.inr h)
        · exact Or.inl (Or.inl h)
      · rintro ((h | h) | h)
        · exact Or.inr h
        · exact Or.inl (Or.inr h)
        · exact Or.inl (Or.inl h.symm)
  · exact (sinceReset_observe i l2 _ _ _ _ _).trans (hlen i)

theorem Mid.evaluated {S : Setup N σ α A O} {s s' : St N σ α A O} {r : Fin N → Ret σ O} {ended : Fin N → Bool}
    {len : Fin N → Nat} (h : Mid S s r ended len) (he : Evaluated S s s') : Mid S s' r ended len := by
  obtain ⟨le, hl, hq⟩ := he.log
  obtain ⟨h1, h2⟩ := quiet_append S.c le s.log hq
  refine ⟨hl ▸ h1 h.intact, fun i => ?_, fun i => ?_, fun i => ?_⟩
  · obtain ⟨k, c1, c2, c3⟩ := h.call i
    refine ⟨k, ?_, c2, ?_⟩
    · rw [hl, (h2 i).1, c1]
    · unfold Spec.over at c3 ⊢
      rw [hl, (h2 i).2]; exact c3
  · rw [hl, (h2 i).2, h.len i]
  · rw [he.env, h.last i]

theorem Mid.reset {S : Setup N σ α A O} {s : St N σ α A O} {r : Fin N → Ret σ O} {ended : Fin N → Bool}
    {len : Fin N → Nat} (h : Mid S s r ended len) (o : Fin N → O) :
    Fresh S (s.reset S .train fun i => !ended i).1 (fun i => ((s.reset S .train fun i => !ended i).2 i).getD (o i))
      (fun i => if ended i then 0 else len i + 1) := by
  rw [train_reset]
  obtain ⟨h1, h2⟩ := resets_append S.c (fun i => ((S.env i).reset (s.env.state i)).2)
    ((List.finRange N).filter fun i => !!ended i) s.log ((List.nodup_finRange N).filter _) (by
      intro j hj
      have hj : ended j = true := by simpa using (List.mem_filter.mp hj).2
      obtain ⟨k, c1, -, c3⟩ := h.call j
      exact Or.inr ⟨k, c1, c3.mp hj⟩)
  have hmem : ∀ i, i ∈ (List.finRange N).filter (fun i => !!ended i) ↔ ended i = true := by
    intro i; simp
  refine ⟨h1 h.intact, fun i => ?_, fun i => ?_⟩
  · obtain ⟨k, c1, c2, c3⟩ := h.call i
    have hh := h2 i
    simp only [hmem] at hh
    by_cases he : ended i = true
    · rw [if_pos he, if_pos he] at hh
      refine ⟨_, hh.1, ?_, ?_⟩
      · simp [Vec.reset, he, WithEval.Spec.obsOf]
      · rintro (h | ⟨-, a, o, r, d, n, h⟩)
        · simp [WithEval.Spec.goesOn] at h
        · cases h
    · rw [if_neg he, if_neg he] at hh
      refine ⟨k, hh.1.trans c1, ?_, ?_⟩
      · have he' : ended i = false := by simpa using he
        simp only [Vec.reset, he', Bool.not_false, if_true]
        rw [h.last i]; exact c2
      · intro ho
        unfold Spec.over at ho c3
        rw [hh.2] at ho
        exact he (c3.mpr ho)
  · have hh := (h2 i).2
    simp only [hmem] at hh
    refine hh.trans ?_
    by_cases he : ended i = true
    · rw [if_pos he, if_pos he]
    · rw [if_neg he, if_neg he, h.len i]

theorem fresh_start (S : Setup N σ α A O) (s : St N σ α A O) (hl : s.log = []) (o : Fin N → O) :
    Fresh S (s.reset S .train fun _ => false).1 (fun i => ((s.reset S .train fun _ => false).2 i).getD (o i))
      (fun _ => 0) := by
  rw [train_reset]
  obtain ⟨h1, h2⟩ := resets_append S.c (fun i => ((S.env i).reset (s.env.state i)).2)
    ((List.finRange N).filter fun _ => !false) s.log ((List.nodup_finRange N).filter _) (by
      intro j _
      rw [hl]
      exact Or.inl rfl)
  have hmem : ∀ i, i ∈ (List.finRange N).filter (fun _ => !false) := by
    intro i; simp
  refine ⟨h1 (hl ▸ intact_nil _), fun i => ?_, fun i => ?_⟩
  · have hh := h2 i
    rw [if_pos (hmem i), if_pos (hmem i)] at hh
    refine ⟨_, hh.1, ?_, ?_⟩
    · simp [Vec.reset, WithEval.Spec.obsOf]
    · rintro (h | ⟨-, a, o, r, d, n, h⟩)
      · simp [WithEval.Spec.goesOn] at h
      · cases h
  · have hh := h2 i
    rw [if_pos (hmem i), if_pos (hmem i)] at hh
    exact hh.2

theorem save_intact {c : Cfg} {s : St N σ α A O} (h : Spec.Intact c s.log) (t : Nat) (x : Suffix) :
    Spec.Intact c (s.save t x).log := intact_snoc h trivial

theorem trainLoop_intact {S : Setup N σ α A O} (hs : S.c.evaluator = true → S.c.shared = false) (fuelE : Nat) :
    ∀ (fuel : Nat) (s : St N σ α A O) (o : Fin N → O) (len : Fin N → Nat) (idx t : Nat) (history : List ℚ),
      Fresh S s o len → Spec.Intact S.c (trainLoop S fuelE fuel s o len idx t history).1.log
  | 0, s, _, _, _, _, _, h => h.intact
  | fuel + 1, s, o, len, idx, t, history, h => by
    have hm := advance_mid h
    rw [trainLoop]
    simp only
    set x := s.advance S o len with hx
    set idx' := idx + ((List.finRange N).filter fun i => x.2.2 i).length with hidx
    have hm' : Mid S (if S.c.evaluator = true then evaluateIfNecessary S fuelE x.1 o (t + N) idx' else (x.1, .notDue)).1
        x.2.1 x.2.2 len := by
      split
      · next he => exact hm.evaluated (evaluateIfNecessary_evaluated (hs he) fuelE x.1 o (t + N) idx')
      · exact hm
    generalize (if S.c.evaluator = true then evaluateIfNecessary S fuelE x.1 o (t + N) idx' else (x.1, .notDue)) = y at hm' ⊢
    split
    · exact hm'.intact
    · split
      · exact save_intact hm'.intact _ _
      · split
        · exact save_intact hm'.intact _ _
        · exact trainLoop_intact hs fuelE fuel _ _ _ _ _ _ (hm'.reset o)

/-! ### The calls on the environments -/

theorem calls_append (i : Fin N) : ∀ l l' : List (Event N A O), Spec.calls i (l ++ l') = Spec.calls i l ++ Spec.calls i l'
  | [], _ => rfl
  | e :: l, l' => by
    have ih := calls_append i l l'
    cases e with
    | env w j c =>
      simp only [List.cons_append, Spec.calls]
      split
      · rw [ih]; rfl
      · exact ih
    | _ => exact ih

theorem calls_env (i : Fin N) (w : Who) (c : Fin N → EnvCall A O) : ∀ js : List (Fin N), js.Nodup →
    Spec.calls i (js.map fun j => (.env w j (c j) : Event N A O)) = if i ∈ js then [c i] else []
  | [], _ => rfl
  | j :: js, h => by
    obtain ⟨hj, hn⟩ := List.nodup_cons.mp h
    have ih := calls_env i w c js hn
    simp only [List.map_cons, Spec.calls]
    by_cases e : j = i
    · subst e; rw [if_pos rfl, ih]; simp [hj]
    · have e' : ¬ i = j := fun h => e h.symm
      rw [if_neg e, ih]; simp [e']

theorem calls_none (i : Fin N) : ∀ (l : List (Event N A O)), (∀ e ∈ l, ∀ w j c, e ≠ .env w j c) → Spec.calls i l = []
  | [], _ => rfl
  | e :: l, h => by
    have ih := calls_none i l fun x hx => h x (List.mem_cons_of_mem _ hx)
    cases e with
    | env w j c => exact absurd rfl (h _ List.mem_cons_self w j c)
    | _ => exact ih

/-- The log has all calls on the environments, with their answers. -/
def Faithful (S : Setup N σ α A O) (env : Fin N → σ) (s : St N σ α A O) : Prop :=
  ∀ i, WithEval.Spec.Answers (S.env i) (env i) (Spec.calls i s.log) (s.env.state i)

theorem Faithful.more {S : Setup N σ α A O} {env : Fin N → σ} {s s' : St N σ α A O} (h : Faithful S env s)
    (he : s'.env = s.env) (le : List (Event N A O)) (hl : s'.log = s.log ++ le)
    (hle : ∀ e ∈ le, ∀ w j c, e ≠ .env w j c) : Faithful S env s' := by
  intro i
  rw [hl, calls_append, calls_none i le hle, List.append_nil, he]
  exact h i

theorem faithful_reset {S : Setup N σ α A O} {env : Fin N → σ} {s : St N σ α A O} (h : Faithful S env s) (w : Who)
    (mask : Fin N → Bool) : Faithful S env (s.reset S w mask).1 := by
  unfold St.reset
  split
  · refine h.more rfl _ rfl ?_
    intro e he
    obtain ⟨y, -, rfl⟩ := List.mem_map.mp he
    intros; simp
  · intro i
    simp only [Vec.reset, List.map_map]
    have := calls_env i w (fun j => (.reset ((S.env j).reset (s.env.state j)).2 : EnvCall A O))
      ((List.finRange N).filter fun i => !mask i) ((List.nodup_finRange N).filter _)
    rw [calls_append]
    change WithEval.Spec.Answers _ _ (_ ++ Spec.calls i (((List.finRange N).filter fun i => !mask i).map fun j =>
      (.env w j (.reset ((S.env j).reset (s.env.state j)).2) : Event N A O))) _
    rw [this]
    cases hm : mask i with
    | true =>
      rw [if_neg (by simp [hm]), List.append_nil, if_pos rfl]
      exact h i
    | false =>
      rw [if_pos (by simp [hm]), if_neg (by simp)]
      exact .reset (h i)

theorem faithful_step {S : Setup N σ α A O} {env : Fin N → σ} {s : St N σ α A O} (h : Faithful S env s) (w : Who)
    (a : Fin N → A) : Faithful S env (s.step S w a).1 := by
  unfold St.step
  split
  · refine h.more rfl _ rfl ?_
    intro e he
    obtain ⟨y, -, rfl⟩ := List.mem_map.mp he
    intros; simp
  · intro i
    simp only [Vec.step, List.map_map]
    have := calls_env i w (fun j => (.step (a j) ((S.env j).step (s.env.state j) (a j)).obs
      ((S.env j).step (s.env.state j) (a j)).reward ((S.env j).step (s.env.state j) (a j)).done
      ((S.env j).step (s.env.state j) (a j)).needsReset : EnvCall A O)) (List.finRange N) (List.nodup_finRange N)
    rw [calls_append]
    change WithEval.Spec.Answers _ _ (_ ++ Spec.calls i ((List.finRange N).map fun j =>
      (.env w j (.step (a j) ((S.env j).step (s.env.state j) (a j)).obs
      ((S.env j).step (s.env.state j) (a j)).reward ((S.env j).step (s.env.state j) (a j)).done
      ((S.env j).step (s.env.state j) (a j)).needsReset) : Event N A O))) _
    rw [this, if_pos (List.mem_finRange i)]
    exact .step (a i) (h i)

theorem faithful_act {S : Setup N σ α A O} {env : Fin N → σ} {s : St N σ α A O} (h : Faithful S env s) (w : Who)
    (o : Fin N → O) : Faithful S env (s.act S w o).1 :=
  h.more rfl _ rfl fun e he => by rw [List.mem_singleton.mp he]; intros; simp

theorem faithful_observe {S : Setup N σ α A O} {env : Fin N → σ} {s : St N σ α A O} (h : Faithful S env s) (w : Who)
    (r : Fin N → Ret σ O) (x : Fin N → Bool) : Faithful S env (s.observe S w r x) :=
  h.more rfl _ rfl fun e he => by rw [List.mem_singleton.mp he]; intros; simp

theorem faithful_save {S : Setup N σ α A O} {env : Fin N → σ} {s : St N σ α A O} (h : Faithful S env s) (t : Nat)
    (x : Suffix) : Faithful S env (s.save t x) :=
  h.more rfl _ rfl fun e he => by rw [List.mem_singleton.mp he]; intros; simp

theorem faithful_evalLoop {S : Setup N σ α A O} {env : Fin N → σ} : ∀ (fuel : Nat) {s : St N σ α A O}
    (_ : Faithful S env s) (o : Fin N → O) (l : Eval.Batch.Loop ℚ), Faithful S env (evalLoop S fuel s o l).1
  | 0, _, h, _, _ => h
  | fuel + 1, s, h, o, l => by
    have h1 := faithful_step (faithful_act h .eval o) .eval (s.act S .eval o).2
    rw [evalLoop]
    simp only
    split
    · exact faithful_observe h1 _ _ _
    · exact faithful_evalLoop fuel (faithful_reset (faithful_observe h1 _ _ _) _ _) _ _

theorem faithful_evaluateIfNecessary {S : Setup N σ α A O} {env : Fin N → σ} (fuel : Nat) {s : St N σ α A O}
    (h : Faithful S env s) (o : Fin N → O) (t e : Nat) : Faithful S env (evaluateIfNecessary S fuel s o t e).1 := by
  have h0 : Faithful S env (evaluate S fuel s o t e).1 := by
    unfold evaluate
    have h1 := faithful_evalLoop fuel (faithful_reset h .eval fun _ => false)
      (fun i => ((s.reset S .eval fun _ => false).2 i).getD (o i)) (.init N)
    simp only
    split
    · exact h1
    · next scores _ =>
      split
      · refine h1.more (s' := _) rfl (if S.c.saveBest then [.scores t e (mean scores), .saveBest] else [.scores t e (mean scores)]) ?_ ?_
        · cases S.c.saveBest <;> simp
        · cases S.c.saveBest <;> simp
      · refine h1.more rfl _ rfl ?_
        intro e he
        rw [List.mem_singleton.mp he]; intros; simp
  unfold evaluateIfNecessary
  split
  · simp only
    split
    · exact h0
    · exact h0
  · exact h

theorem faithful_trainLoop {S : Setup N σ α A O} {env : Fin N → σ} (fuelE : Nat) :
    ∀ (fuel : Nat) {s : St N σ α A O} (_ : Faithful S env s) (o : Fin N → O) (len : Fin N → Nat) (idx t : Nat)
      (history : List ℚ), Faithful S env (trainLoop S fuelE fuel s o len idx t history).1
  | 0, _, h, _, _, _, _, _ => h
  | fuel + 1, s, h, o, len, idx, t, history => by
    have hm : Faithful S env (s.advance S o len).1 :=
      faithful_observe (faithful_step (faithful_act h .train o) .train _) _ _ _
    rw [trainLoop]
    simp only
    set x := s.advance S o len with hx
    set idx' := idx + ((List.finRange N).filter fun i => x.2.2 i).length with hidx
    have hm' : Faithful S env (if S.c.evaluator = true then evaluateIfNecessary S fuelE x.1 o (t + N) idx' else (x.1, .notDue)).1 := by
      split
      · exact faithful_evaluateIfNecessary fuelE hm o (t + N) idx'
      · exact hm
    generalize (if S.c.evaluator = true then evaluateIfNecessary S fuelE x.1 o (t + N) idx' else (x.1, .notDue)) = y at hm' ⊢
    split
    · exact hm'
    · split
      · exact faithful_save hm' _ _
      · split
        · exact faithful_save hm' _ _
        · exact faithful_trainLoop fuelE fuel (faithful_reset hm' _ _) _ _ _ _ _

/-! ### The calls on the agent -/

theorem behaves_append (ag : Agent N α A O) : ∀ (l l' : List (Event N A O)) (a b c : α), Spec.Behaves ag a l b →
    Spec.Behaves ag b l' c → Spec.Behaves ag a (l ++ l') c
  | [], l', a, b, c, h, h' => by
    have : a = b := h
    rw [this]; exact h'
  | e :: l, l', a, b, c, h, h' => by
    cases e with
    | act w o x => exact ⟨h.1, behaves_append ag l l' _ b c h.2 h'⟩
    | observe w o r d x => exact behaves_append ag l l' (ag.observe w a o r d x) b c h h'
    | _ => exact behaves_append ag l l' a b c h h'

theorem behaves_env (ag : Agent N α A O) (a : α) (w : Who) : ∀ l : List (Fin N × EnvCall A O),
    Spec.Behaves ag a (l.map fun y => .env w y.1 y.2) a
  | [] => rfl
  | _ :: l => behaves_env ag a w l

theorem behaves_evalEnv (ag : Agent N α A O) (a : α) : ∀ l : List (Fin N × EnvCall A O),
    Spec.Behaves ag a (l.map fun y => .evalEnv y.1 y.2) a
  | [] => rfl
  | _ :: l => behaves_evalEnv ag a l

theorem reset_behaves {S : Setup N σ α A O} {a : α} {s : St N σ α A O} (h : Spec.Behaves S.agent a s.log s.agent)
    (w : Who) (mask : Fin N → Bool) : Spec.Behaves S.agent a (s.reset S w mask).1.log (s.reset S w mask).1.agent := by
  unfold St.reset
  split
  · exact behaves_append _ _ _ _ _ _ h (behaves_evalEnv _ _ _)
  · exact behaves_append _ _ _ _ _ _ h (behaves_env _ _ _ _)

theorem step_behaves {S : Setup N σ α A O} {a : α} {s : St N σ α A O} (h : Spec.Behaves S.agent a s.log s.agent)
    (w : Who) (x : Fin N → A) : Spec.Behaves S.agent a (s.step S w x).1.log (s.step S w x).1.agent := by
  unfold St.step
  split
  · exact behaves_append _ _ _ _ _ _ h (behaves_evalEnv _ _ _)
  · exact behaves_append _ _ _ _ _ _ h (behaves_env _ _ _ _)

theorem act_behaves {S : Setup N σ α A O} {a : α} {s : St N σ α A O} (h : Spec.Behaves S.agent a s.log s.agent)
    (w : Who) (o : Fin N → O) : Spec.Behaves S.agent a (s.act S w o).1.log (s.act S w o).1.agent :=
  behaves_append _ _ _ _ _ _ h ⟨rfl, rfl⟩

theorem observe_behaves {S : Setup N σ α A O} {a : α} {s : St N σ α A O} (h : Spec.Behaves S.agent a s.log s.agent)
    (w : Who) (r : Fin N → Ret σ O) (x : Fin N → Bool) :
    Spec.Behaves S.agent a (s.observe S w r x).log (s.observe S w r x).agent :=
  behaves_append _ _ _ _ _ _ h rfl

theorem save_behaves {ag : Agent N α A O} {a : α} {s : St N σ α A O} (h : Spec.Behaves ag a s.log s.agent) (t : Nat)
    (x : Suffix) : Spec.Behaves ag a (s.save t x).log (s.save t x).agent := behaves_append _ _ _ _ _ _ h rfl

theorem evalLoop_behaves {S : Setup N σ α A O} {a : α} : ∀ (fuel : Nat) {s : St N σ α A O}
    (_ : Spec.Behaves S.agent a s.log s.agent) (o : Fin N → O) (l : Eval.Batch.Loop ℚ),
    Spec.Behaves S.agent a (evalLoop S fuel s o l).1.log (evalLoop S fuel s o l).1.agent
  | 0, _, h, _, _ => h
  | fuel + 1, s, h, o, l => by
    have h1 := step_behaves (act_behaves h .eval o) .eval (s.act S .eval o).2
    rw [evalLoop]
    simp only
    split
    · exact observe_behaves h1 _ _ _
    · exact evalLoop_behaves fuel (reset_behaves (observe_behaves h1 _ _ _) _ _) _ _

theorem evaluateIfNecessary_behaves {S : Setup N σ α A O} {a : α} (fuel : Nat) {s : St N σ α A O}
    (h : Spec.Behaves S.agent a s.log s.agent) (o : Fin N → O) (t e : Nat) :
    Spec.Behaves S.agent a (evaluateIfNecessary S fuel s o t e).1.log (evaluateIfNecessary S fuel s o t e).1.agent := by
  have h0 : Spec.Behaves S.agent a (evaluate S fuel s o t e).1.log (evaluate S fuel s o t e).1.agent := by
    unfold evaluate
    have h1 := evalLoop_behaves fuel (reset_behaves h .eval fun _ => false)
      (fun i => ((s.reset S .eval fun _ => false).2 i).getD (o i)) (.init N)
    simp only
    split
    · exact h1
    · next scores _ =>
      have h2 : ∀ x : St N σ α A O, Spec.Behaves S.agent a x.log x.agent →
          Spec.Behaves S.agent a (x.log ++ [.scores t e (mean scores)]) x.agent :=
        fun x hx => behaves_append _ _ _ _ _ _ hx rfl
      split
      · cases S.c.saveBest with
        | true => exact behaves_append _ _ _ _ _ _ (h2 _ h1) rfl
        | false => exact h2 _ h1
      · exact h2 _ h1
  unfold evaluateIfNecessary
  split
  · simp only
    split
    · exact h0
    · exact h0
  · exact h

theorem trainLoop_behaves {S : Setup N σ α A O} {a : α} (fuelE : Nat) : ∀ (fuel : Nat) {s : St N σ α A O}
    (_ : Spec.Behaves S.agent a s.log s.agent) (o : Fin N → O) (len : Fin N → Nat) (idx t : Nat) (history : List ℚ),
    Spec.Behaves S.agent a (trainLoop S fuelE fuel s o len idx t history).1.log
      (trainLoop S fuelE fuel s o len idx t history).1.agent
  | 0, _, h, _, _, _, _, _ => h
  | fuel + 1, s, h, o, len, idx, t, history => by
    have hm : Spec.Behaves S.agent a (s.advance S o len).1.log (s.advance S o len).1.agent :=
      observe_behaves (step_behaves (act_behaves h .train o) .train _) _ _ _
    rw [trainLoop]
    simp only
    set x := s.advance S o len with hx
    set idx' := idx + ((List.finRange N).filter fun i => x.2.2 i).length with hidx
    have hm' : Spec.Behaves S.agent a
        (if S.c.evaluator = true then evaluateIfNecessary S fuelE x.1 o (t + N) idx' else (x.1, .notDue)).1.log
        (if S.c.evaluator = true then evaluateIfNecessary S fuelE x.1 o (t + N) idx' else (x.1, .notDue)).1.agent := by
      split
      · exact evaluateIfNecessary_behaves fuelE hm o (t + N) idx'
      · exact hm
    generalize (if S.c.evaluator = true then evaluateIfNecessary S fuelE x.1 o (t + N) idx' else (x.1, .notDue)) = y at hm' ⊢
    split
    · exact hm'
    · split
      · exact save_behaves hm' _ _
      · split
        · exact save_behaves hm' _ _
        · exact trainLoop_behaves fuelE fuel (reset_behaves hm' _ _) _ _ _ _ _

/-! ### With and without evaluator -/

theorem training_append (l l' : List (Event N A O)) : Spec.training (l ++ l') = Spec.training l ++ Spec.training l' :=
  List.filter_append l l'

/-- Two trainings are in corresponding states. -/
structure Sim {τ : Type} (view : α → τ) (s s' : St N σ α A O) : Prop where
  env : s.env = s'.env
  view : view s.agent = view s'.agent
  log : Spec.training s.log = Spec.training s'.log

theorem Sim.advance {τ : Type} {view : α → τ} {S : Setup N σ α A O} (hv : Spec.Separate S.agent view)
    {s s' : St N σ α A O} (h : Sim view s s') (o : Fin N → O) (len : Fin N → Nat) :
    Sim view (s.advance S o len).1 (s'.advance (Spec.without S) o len).1 ∧
      (s.advance S o len).2 = (s'.advance (Spec.without S) o len).2 := by
  obtain ⟨h1, h2⟩ := hv.train_act s.agent s'.agent o h.view
  unfold St.advance
  simp only
  rw [train_step, train_step]
  have ha : (s.act S .train o).2 = (s'.act (Spec.without S) .train o).2 := h1
  have he : (s.act S .train o).1.env = (s'.act (Spec.without S) .train o).1.env := h.env
  rw [ha, he, show (Spec.without S).env = S.env from rfl, show (Spec.without S).c.maxLen = S.c.maxLen from rfl]
  refine ⟨⟨rfl, ?_, ?_⟩, rfl⟩
  · exact hv.train_observe _ _ _ _ _ _ h2
  · change Spec.training (((s.log ++ [.act .train o (s.act S .train o).2]) ++ _) ++ _) =
      Spec.training (((s'.log ++ [.act .train o (s'.act (Spec.without S) .train o).2]) ++ _) ++ _)
    simp only [training_append]
    rw [h.log, ha]

theorem Sim.evaluated {τ : Type} {view : α → τ} {S : Setup N σ α A O} (hv : Spec.Separate S.agent view)
    {s s' s2 : St N σ α A O} (h : Sim view s s') (he : Evaluated S s s2) : Sim view s2 s' := by
  obtain ⟨le, hl, hq⟩ := he.log
  refine ⟨he.env.trans h.env, (he.view view hv).trans h.view, ?_⟩
  rw [hl, training_append, quiet_training le hq, List.append_nil, h.log]

theorem Sim.reset {τ : Type} {view : α → τ} {S : Setup N σ α A O}
    {s s' : St N σ α A O} (h : Sim view s s') (mask : Fin N → Bool) :
    Sim view (s.reset S .train mask).1 (s'.reset (Spec.without S) .train mask).1 ∧
      (s.reset S .train mask).2 = (s'.reset (Spec.without S) .train mask).2 := by
  rw [train_reset, train_reset, show (Spec.without S).env = S.env from rfl, h.env]
  refine ⟨⟨rfl, h.view, ?_⟩, rfl⟩
  exact (training_append _ _).trans ((congrArg (· ++ _) h.log).trans (training_append _ _).symm)

theorem Sim.save {τ : Type} {view : α → τ} {s s' : St N σ α A O} (h : Sim view s s') (t : Nat) (x : Suffix) :
    Sim view (s.save t x) s' := by
  refine ⟨h.env, h.view, ?_⟩
  unfold St.save
  rw [training_append, h.log]
  exact List.append_nil _

theorem Sim.symm {τ : Type} {view : α → τ} {s s' : St N σ α A O} (h : Sim view s s') : Sim view s' s :=
  ⟨h.env.symm, h.view.symm, h.log.symm⟩

/-- Without an evaluator, the log of the training only grows. -/
theorem without_grows {S : Setup N σ α A O} (hS : S.c.evaluator = false) (fuelE : Nat) :
    ∀ (fuel : Nat) (s : St N σ α A O) (o : Fin N → O) (len : Fin N → Nat) (idx t : Nat) (history : List ℚ),
      s.log <+: (trainLoop S fuelE fuel s o len idx t history).1.log
  | 0, _, _, _, _, _, _ => List.prefix_rfl
  | fuel + 1, s, o, len, idx, t, history => by
    have h1 : s.log <+: (s.advance S o len).1.log := by
      unfold St.advance
      simp only
      rw [train_step]
      unfold St.observe St.act
      simp only
      refine List.IsPrefix.trans ?_ (List.prefix_append _ _)
      refine List.IsPrefix.trans ?_ (List.prefix_append _ _)
      exact List.prefix_append _ _
    rw [trainLoop]
    simp only [hS, Bool.false_eq_true, if_false]
    split
    · exact h1.trans (List.prefix_append _ _)
    · split
      · exact h1.trans (List.prefix_append _ _)
      · refine List.IsPrefix.trans ?_ (without_grows hS fuelE fuel _ _ _ _ _ _)
        rw [train_reset]
        exact h1.trans (List.prefix_append _ _)

theorem trainLoop_sim {τ : Type} {view : α → τ} {S : Setup N σ α A O} (hv : Spec.Separate S.agent view)
    (hs : S.c.shared = false) (fuelE : Nat) :
    ∀ (fuel : Nat) (s s' : St N σ α A O) (o : Fin N → O) (len : Fin N → Nat) (idx t : Nat) (history history' : List ℚ),
      Sim view s s' →
      Spec.training (trainLoop S fuelE fuel s o len idx t history).1.log <+:
        Spec.training (trainLoop (Spec.without S) fuelE fuel s' o len idx t history').1.log ∧
      (∀ hist, (trainLoop S fuelE fuel s o len idx t history).2 = .finished hist →
        (∀ x, S.c.successful = some x → (trainLoop S fuelE fuel s o len idx t history).1.maxScore < x) →
        Sim view (trainLoop S fuelE fuel s o len idx t history).1
          (trainLoop (Spec.without S) fuelE fuel s' o len idx t history').1 ∧
        ∃ h', (trainLoop (Spec.without S) fuelE fuel s' o len idx t history').2 = .finished h')
  | 0, s, s', _, _, _, _, _, _, h => by
    refine ⟨?_, ?_⟩
    · change Spec.training s.log <+: Spec.training s'.log
      rw [h.log]
    · intro hist hh; exact absurd hh (by simp [trainLoop])
  | fuel + 1, s, s', o, len, idx, t, history, history', h => by
    obtain ⟨g1, g2⟩ := h.advance hv o len
    have hmono : Spec.training (s'.advance (Spec.without S) o len).1.log <+:
        Spec.training (trainLoop (Spec.without S) fuelE (fuel + 1) s' o len idx t history').1.log := by
      rw [trainLoop]
      simp only [show (Spec.without S).c.evaluator = false from rfl, Bool.false_eq_true, if_false]
      have key : (s'.advance (Spec.without S) o len).1.log <+:
        (if ((s'.advance (Spec.without S) o len).1.successful (Spec.without S) .notDue) = true then
          ((s'.advance (Spec.without S) o len).1.save (t + N) .finish, Outcome.finished history')
        else if t + N ≥ (Spec.without S).c.steps then
          ((s'.advance (Spec.without S) o len).1.save (t + N) .finish, Outcome.finished history')
        else trainLoop (Spec.without S) fuelE fuel
          ((s'.advance (Spec.without S) o len).1.reset (Spec.without S) .train fun i => !(s'.advance (Spec.without S) o len).2.2 i).1
          (fun i => (((s'.advance (Spec.without S) o len).1.reset (Spec.without S) .train fun i => !(s'.advance (Spec.without S) o len).2.2 i).2 i).getD (o i))
          (fun i => if (s'.advance (Spec.without S) o len).2.2 i then 0 else len i + 1)
          (idx + ((List.finRange N).filter fun i => (s'.advance (Spec.without S) o len).2.2 i).length) (t + N) history').1.log := by
        split
        · exact List.prefix_append _ _
        · split
          · exact List.prefix_append _ _
          · refine List.IsPrefix.trans ?_ (without_grows rfl fuelE fuel _ _ _ _ _ _)
            rw [train_reset]
            exact List.prefix_append _ _
      exact key.filter _
    revert hmono
    rw [trainLoop, trainLoop]
    simp only [show (Spec.without S).c.evaluator = false from rfl, Bool.false_eq_true, if_false,
      show (Spec.without S).c.steps = S.c.steps from rfl]
    rw [← g2]
    set x := s.advance S o len with hx
    set x' := (s'.advance (Spec.without S) o len).1 with hx'
    set idx' := idx + ((List.finRange N).filter fun i => x.2.2 i).length with hidx
    have hns : x'.successful (Spec.without S) .notDue = false := by
      unfold St.successful
      rfl
    simp only [hns, Bool.false_eq_true, if_false]
    intro hmono
    have hy : Sim view (if S.c.evaluator = true then evaluateIfNecessary S fuelE x.1 o (t + N) idx' else (x.1, .notDue)).1 x' := by
      split
      · exact g1.evaluated hv (evaluateIfNecessary_evaluated hs fuelE x.1 o (t + N) idx')
      · exact g1
    generalize (if S.c.evaluator = true then evaluateIfNecessary S fuelE x.1 o (t + N) idx' else (x.1, .notDue)) = y at hy ⊢
    split
    · refine ⟨?_, ?_⟩
      · rw [hy.log]; exact hmono
      · intro hist hh; exact absurd hh (by simp)
    · split
      · next hsucc =>
        refine ⟨?_, ?_⟩
        · rw [(hy.save _ _).log]; exact hmono
        · intro hist _ hlt
          exfalso
          unfold St.successful at hsucc
          cases hS : S.c.successful with
          | none => rw [hS] at hsucc; split at hsucc <;> simp_all
          | some z =>
            have := hlt z hS
            rw [hS] at hsucc
            split at hsucc
            · next _ _ hz =>
              rw [Option.some.inj hz] at this
              exact absurd (of_decide_eq_true hsucc) (not_le.mpr this)
            · exact absurd hsucc (by simp)
      · split
        · refine ⟨?_, ?_⟩
          · rw [((hy.save (t + N) .finish).symm.save (t + N) .finish).log]
          · intro hist _ _
            exact ⟨((hy.save _ _).symm.save _ _).symm, _, rfl⟩
        · obtain ⟨d1, d2⟩ := hy.reset (S := S) fun i => !x.2.2 i
          rw [← d2]
          exact trainLoop_sim hv hs fuelE fuel _ _ _ _ _ _ _ _ d1

/-! ## C113 -/

/-- **C113 (the training is left alone), for separate environments.** However the environments and the agent behave, if the evaluations have
environments of their own, or there are none: whenever the agent acts in training, it acts on the observations that the
environments returned last, to the training, and none of the episodes is over; each environment gets its action once; the agent
observes what came of it and which episodes were cut; and the environments are reset at the beginning and when their
episodes are over, and not otherwise.  Missing: the default, where `eval_env` is `None`, for which this is false
(`batch_training_disturbed`). -/
theorem batch_training_intact_partial (S : Setup N σ α A O) (hs : S.c.evaluator = true → S.c.shared = false)
    (fuelE fuel : Nat) (env evalEnv : Fin N → σ) (agent : α) (o : Fin N → O) {r : St N σ α A O × Outcome}
    (h : train S fuelE fuel env evalEnv agent o = .ok r) : Spec.Intact S.c r.1.log := by
  unfold train at h
  split at h
  · exact absurd h (by simp)
  · rw [← Except.ok.inj h]
    exact trainLoop_intact hs fuelE fuel _ _ _ _ _ _ (fresh_start S _ rfl o)

/-- **C113 (the calls).** The calls logged are all the calls that each environment of the training got, with the answers it
gave, and all the calls that the agent got. -/
theorem batch_training_calls (S : Setup N σ α A O)
    (fuelE fuel : Nat) (env evalEnv : Fin N → σ) (agent : α) (o : Fin N → O) {r : St N σ α A O × Outcome}
    (h : train S fuelE fuel env evalEnv agent o = .ok r) :
    (∀ i, WithEval.Spec.Answers (S.env i) (env i) (Spec.calls i r.1.log) (r.1.env.state i)) ∧
      Spec.Behaves S.agent agent r.1.log r.1.agent := by
  unfold train at h
  split at h
  · exact absurd h (by simp)
  · rw [← Except.ok.inj h]
    refine ⟨faithful_trainLoop fuelE fuel (faithful_reset ?_ _ _) _ _ _ _ _,
      trainLoop_behaves fuelE fuel (reset_behaves ?_ _ _) _ _ _ _ _⟩
    · intro i
      exact .nil _
    · rfl

/-- **C113 (separate environments).** If evaluations use environments of their own and do not touch the part of the agent
that its training depends on, then the training goes exactly as without an evaluator, up to the point where it is stopped
by success. -/
theorem batch_evaluation_invisible {τ : Type} {view : α → τ} (S : Setup N σ α A O) (hv : Spec.Separate S.agent view)
    (hs : S.c.shared = false) (fuelE fuel : Nat) (env evalEnv : Fin N → σ) (agent : α) (o : Fin N → O)
    {r : St N σ α A O × Outcome} (h : train S fuelE fuel env evalEnv agent o = .ok r) :
    ∃ r', train (Spec.without S) fuelE fuel env evalEnv agent o = .ok r' ∧
      Spec.training r.1.log <+: Spec.training r'.1.log ∧
      (∀ hist, r.2 = .finished hist → (∀ x, S.c.successful = some x → r.1.maxScore < x) →
        Spec.training r.1.log = Spec.training r'.1.log ∧ view r.1.agent = view r'.1.agent ∧
        ∃ h', r'.2 = .finished h') := by
  unfold train at h
  split at h
  · exact absurd h (by simp)
  · unfold train
    simp only [show (Spec.without S).c.evaluator = false from rfl, Bool.false_and, Bool.false_eq_true, if_false]
    refine ⟨_, rfl, ?_⟩
    rw [← Except.ok.inj h]
    set s0 : St N σ α A O := { env := ⟨env, fun _ => none⟩, evalEnv := ⟨evalEnv, fun _ => none⟩, agent := agent, prevEval := S.c.offset - S.c.offset % S.c.evalInterval, maxScore := lowest, log := [] }
    have hs0 : Sim view s0 s0 := ⟨rfl, rfl, rfl⟩
    obtain ⟨d1, d2⟩ := hs0.reset (S := S) fun _ => false
    have hsim := trainLoop_sim hv hs fuelE fuel _ _
      (fun i => ((s0.reset S .train fun _ => false).2 i).getD (o i)) (fun _ => 0) 0 S.c.offset [] [] d1
    rw [d2] at hsim ⊢
    refine ⟨hsim.1, fun hist hh hsucc => ?_⟩
    obtain ⟨e1, e2⟩ := hsim.2 hist hh hsucc
    exact ⟨e1.log, e1.view, e2⟩

/-! ### The default arguments -/

/-- The environments of the examples: a counter, which the actions add to; an episode ends after five steps. -/
def exEnv : Env (Nat × Nat) Nat Nat where
  reset := fun _ => ((0, 0), 0)
  step := fun s a => { state := (s.1 + a, s.2 + 1), obs := s.1 + a, reward := a, done := decide (s.2 + 1 = 5), needsReset := false }

/-- An agent that learns: its action is the number of observations made in training. -/
def exAgent : Agent 2 Nat Nat Nat where
  act := fun _ n _ => (n, fun _ => n)
  observe := fun w n _ _ _ _ => if w = .train then n + 1 else n

def exSetup (shared : Bool) : Setup 2 (Nat × Nat) Nat Nat Nat where
  env := fun _ => exEnv
  evalEnv := fun _ => exEnv
  agent := exAgent
  c := { steps := 12, offset := 0, maxLen := none, evalMaxLen := none, goal := .episodes 1, evalInterval := 4, successful := none, shared := shared, saveBest := true, evaluator := true }

def exRun (shared : Bool) : St 2 (Nat × Nat) Nat Nat Nat × Outcome :=
  match train (exSetup shared) 10 10 (fun _ => (0, 0)) (fun _ => (0, 0)) 0 (fun _ => 0) with
  | .ok r => r
  | .error _ => ({ env := ⟨fun _ => (0, 0), fun _ => none⟩, evalEnv := ⟨fun _ => (0, 0), fun _ => none⟩, agent := 0, prevEval := 0, maxScore := 0, log := [] }, .stuck)

/-- **C113 (the default).** `train_agent_batch_with_evaluation` without `eval_env`: the claim is false.  There are two environments with
episodes of five steps, and an evaluation is due after two steps of each.  It resets the environments, plays them to
the end of an episode and leaves them there.  The training does not reset them, since its own episodes had not ended, and
the agent acts on the last observations of the evaluation, in episodes that are over. -/
theorem batch_training_disturbed : ∃ (S : Setup 2 (Nat × Nat) Nat Nat Nat) (r : St 2 (Nat × Nat) Nat Nat Nat × Outcome)
    (history : List ℚ) (past rest : List (Event 2 Nat Nat)) (o a : Fin 2 → Nat),
    S.c.shared = true ∧ S.c.evalMaxLen = none ∧
    train S 10 10 (fun _ => (0, 0)) (fun _ => (0, 0)) 0 (fun _ => 0) = .ok r ∧ r.2 = .finished history ∧
    r.1.log = past ++ .act .train o a :: rest ∧
    (∀ i, ∃ b x n, Spec.lastCall i past = some (.eval, .step b (o i) x true n)) ∧ ¬ Spec.Intact S.c r.1.log := by
  have hrun : train (exSetup true) 10 10 (fun _ => (0, 0)) (fun _ => (0, 0)) 0 (fun _ => 0) = .ok (exRun true) := rfl
  have hlog : (exRun true).1.log = (exRun true).1.log.take 34 ++
      .act .train (fun _ => 10) (fun _ => 2) :: (exRun true).1.log.drop 35 := by decide +kernel
  have hlast : ∀ i, Spec.lastCall i ((exRun true).1.log.take 34) = some (.eval, .step 2 10 2 true false) := by
    decide +kernel
  refine ⟨exSetup true, exRun true, [10, 20, 30], (exRun true).1.log.take 34, (exRun true).1.log.drop 35, fun _ => 10, fun _ => 2, rfl, rfl,
    hrun, by decide +kernel, hlog, fun i => ⟨2, 2, false, hlast i⟩, fun h => ?_⟩
  obtain ⟨k, h1, -⟩ := h _ _ _ hlog 0
  rw [hlast 0] at h1
  cases h1

/-! ### Non-vacuity -/

/-- A training with separate environments and three evaluations. -/
example : (exRun false).2 = .finished [10, 20, 30] := by decide +kernel

example : Spec.Intact (exSetup false).c (exRun false).1.log :=
  batch_training_intact_partial (exSetup false) (fun _ => rfl) 10 10 (fun _ => (0, 0)) (fun _ => (0, 0)) 0 (fun _ => 0) rfl

/-- The agent of the examples keeps the two modes apart. -/
example : Spec.Separate exAgent (fun n : Nat => n) := by
  refine ⟨?_, ?_, ?_, ?_⟩ <;> intros <;> simp_all [exAgent]

end Pfrl.Train.BatchWithEval
