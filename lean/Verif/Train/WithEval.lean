import Verif.Train.Serial
import Mathlib.Algebra.Order.Ring.Rat

/-!
# Training with evaluation (C112)

`train_agent_with_evaluation` puts together the training loop, the evaluator, its episodes and the evaluation
hooks.  Here the environment is a state machine, so that it matters who calls it: by default the evaluation
uses the very environment the training uses.
-/

namespace Pfrl.Train.WithEval

open Pfrl.Eval (Goal)

variable {σ α η A O : Type}

/-! ## Model -/

/-- What a call of `env.step` returns, and the state the environment is in afterwards. -/
structure Ret (σ O : Type) where
  state : σ
  obs : O
  reward : ℚ
  done : Bool
  needsReset : Bool

/-- An environment: any state machine. -/
structure Env (σ A O : Type) where
  reset : σ → σ × O
  step : σ → A → Ret σ O

/-- Whether the agent is in training or in evaluation mode, and so which loop is running. -/
inductive Who where
  | train
  | eval
  deriving DecidableEq, Repr

/-- An agent: any state machine with the two calls of `pfrl/agent.py:17-38`, whose behaviour may depend on the mode
(`agent.py:66-81`; that the mode is restored after an evaluation is C52). -/
structure Agent (α A O : Type) where
  act : Who → α → O → α × A
  observe : Who → α → O → ℚ → Bool → Bool → α

/-- The functions that take evaluation hooks: `train_agent_with_evaluation`, `train_agent_batch_with_evaluation` and
`train_agent_async`. -/
inductive Entry where
  | serial
  | batch
  | async
  deriving DecidableEq, Repr

/-- An evaluation hook, `pfrl/experiments/evaluation_hooks.py:12-51`: which functions it supports (lines 29-31),
and what a call does to the state the hooks live in, given the step and the mean
score, and whether it raises.  Of the arguments of a hook, the environment, the agent and the evaluator are left out: the
hooks considered do not act on them. -/
structure Hook (η : Type) where
  supports : Entry → Bool
  call : η → Nat → ℚ → η × Bool

/-- A call on an environment, with what it returned. -/
inductive EnvCall (A O : Type) where
  | reset (o : O)
  | step (a : A) (o : O) (r : ℚ) (done needsReset : Bool)
  deriving DecidableEq, Repr

/-- `for hook in evaluation_hooks: if not hook.support_…: raise ValueError`, `train_agent.py:173-177`,
`train_agent_batch.py:218-222` and `train_agent_async.py:218-220`. -/
def refuses (e : Entry) (hooks : List (Hook η)) : Bool := hooks.any fun h => !h.supports e

/-- `OptunaPrunerHook`, `evaluation_hooks.py:52-99`.  What the trial has been told is kept as a list of scores and
steps; `optuna` decides from it whether to prune, in any way. -/
def optunaHook (prune : List (ℚ × Nat) → Bool) : Hook (List (ℚ × Nat)) where
  supports := fun e => match e with
    | .serial => true
    | .batch => true
    | .async => false
  call := fun trial t mean => (trial ++ [(mean, t)], prune (trial ++ [(mean, t)]))

/-- What happens during a training, in order. -/
inductive Event (A O : Type) where
  /-- a call on the environment of the training -/
  | env (who : Who) (c : EnvCall A O)
  /-- a call on a separate environment for evaluation -/
  | evalEnv (c : EnvCall A O)
  | act (who : Who) (o : O) (a : A)
  | observe (who : Who) (o : O) (r : ℚ) (done reset : Bool)
  /-- a line in `scores.txt` -/
  | scores (t episodes : Nat) (mean : ℚ)
  | hook (i t : Nat) (mean : ℚ)
  | saveBest
  | save (t : Nat) (suffix : Suffix)
  deriving DecidableEq, Repr

/-- The arguments of `train_agent_with_evaluation`, `pfrl/experiments/train_agent.py:114-134`.  `shared` says
that `eval_env` is `None`.  `evaluator = false` is a call of `train_agent` without an evaluator.  Step hooks are left
out here, see C42. -/
structure Cfg where
  steps : Nat
  offset : Nat
  maxLen : Option Nat
  evalMaxLen : Option Nat
  goal : Goal
  evalInterval : Nat
  checkpointFreq : Nat
  successful : Option ℚ
  evalDuring : Bool
  shared : Bool
  saveBest : Bool
  evaluator : Bool

/-- `if eval_max_episode_len is None: eval_max_episode_len = train_max_episode_len`, `train_agent.py:188-189`. -/
def Cfg.evalLen (c : Cfg) : Option Nat :=
  match c.evalMaxLen with
  | none => c.maxLen
  | some m => some m

/-- Everything that is passed to the training. -/
structure Setup (σ α η A O : Type) where
  env : Env σ A O
  evalEnv : Env σ A O
  agent : Agent α A O
  hooks : List (Hook η)
  c : Cfg

/-- The state of the world during a training. -/
structure St (σ α η A O : Type) where
  env : σ
  evalEnv : σ
  agent : α
  hooks : η
  prevEval : Nat
  maxScore : ℚ
  log : List (Event A O)

/-- `np.finfo(np.float32).min`, `pfrl/experiments/evaluator.py:439`. -/
def lowest : ℚ := -(2 ^ 128 - 2 ^ 104)

/-- `env.reset()`, on the environment that the caller uses: `eval_env = env` if none is given,
`train_agent.py:181-186`. -/
def St.reset (S : Setup σ α η A O) (w : Who) (s : St σ α η A O) : St σ α η A O × O :=
  if w = .eval ∧ S.c.shared = false then
    let r := S.evalEnv.reset s.evalEnv
    ({ s with evalEnv := r.1, log := s.log ++ [.evalEnv (.reset r.2)] }, r.2)
  else
    let r := S.env.reset s.env
    ({ s with env := r.1, log := s.log ++ [.env w (.reset r.2)] }, r.2)

/-- `a = agent.act(obs)` and `env.step(a)`, `train_agent.py:55-57` and `evaluator.py:37-38`. -/
def St.actStep (S : Setup σ α η A O) (w : Who) (s : St σ α η A O) (o : O) : St σ α η A O × Ret σ O :=
  let b := S.agent.act w s.agent o
  if w = .eval ∧ S.c.shared = false then
    let r := S.evalEnv.step s.evalEnv b.2
    ({ s with agent := b.1, evalEnv := r.state,
              log := s.log ++ [.act w o b.2, .evalEnv (.step b.2 r.obs r.reward r.done r.needsReset)] }, r)
  else
    let r := S.env.step s.env b.2
    ({ s with agent := b.1, env := r.state,
              log := s.log ++ [.act w o b.2, .env w (.step b.2 r.obs r.reward r.done r.needsReset)] }, r)

/-- `agent.observe(obs, r, done, reset)`, `train_agent.py:62` and `evaluator.py:43`. -/
def St.observe (S : Setup σ α η A O) (w : Who) (s : St σ α η A O) (r : Ret σ O) (reset : Bool) :
    St σ α η A O :=
  { s with agent := S.agent.observe w s.agent r.obs r.reward r.done reset,
           log := s.log ++ [.observe w r.obs r.reward r.done reset] }

/-- `terminate`, `evaluator.py:52-55`. -/
def terminates (g : Goal) (scores : List ℚ) (timestep : Nat) : Bool :=
  match g with
  | .episodes n => decide (scores.length ≥ n)
  | .steps n => decide (timestep ≥ n)

/-- The loop of `_run_episodes`, `evaluator.py:29-63`: the final state and the scores, or no scores if it is still
running after so many steps.  The environment is reset by the caller before the first episode; the code does it at
the beginning of the iteration. -/
def evalLoop (S : Setup σ α η A O) :
    Nat → St σ α η A O → O → ℚ → Nat → Nat → List ℚ → St σ α η A O × Option (List ℚ)
  | 0, s, _, _, _, _, _ => (s, none)
  | fuel + 1, s, o, testR, len, timestep, scores =>
    let x := s.actStep S .eval o
    let r := x.2
    let reset := r.done || some (len + 1) == S.c.evalLen || r.needsReset
    let s := x.1.observe S .eval r reset
    let scores := if reset then scores ++ [testR + r.reward] else scores
    if terminates S.c.goal scores (timestep + 1) then (s, some (if scores = [] then [testR + r.reward] else scores))
    else if reset then
      let y := s.reset S .eval
      evalLoop S fuel y.1 y.2 0 0 (timestep + 1) scores
    else evalLoop S fuel s r.obs (testR + r.reward) (len + 1) (timestep + 1) scores

/-- `for hook in self.evaluation_hooks: hook(…)`, `evaluator.py:498-507`, up to the first one that raises. -/
def runHooks : List (Hook η) → Nat → St σ α η A O → Nat → ℚ → St σ α η A O × Bool
  | [], _, s, _, _ => (s, false)
  | h :: hs, i, s, t, mean =>
    let x := h.call s.hooks t mean
    let s := { s with hooks := x.1, log := s.log ++ [.hook i t mean] }
    if x.2 then (s, true) else runHooks hs (i + 1) s t mean

/-- How a request for an evaluation ends. -/
inductive Verdict where
  | notDue
  | scored (mean : ℚ)
  | raised
  | stuck
  deriving DecidableEq, Repr

/-- `statistics.mean`, `evaluator.py:295`. -/
def mean (l : List ℚ) : ℚ := l.sum / l.length

/-- `Evaluator.evaluate_and_update_max_score`, `evaluator.py:463-514`; what goes to tensorboard is left out. -/
def evaluate (S : Setup σ α η A O) (fuel : Nat) (s : St σ α η A O) (t episodes : Nat) :
    St σ α η A O × Verdict :=
  let x := s.reset S .eval
  let y := evalLoop S fuel x.1 x.2 0 0 0 []
  match y.2 with
  | none => (y.1, .stuck)
  | some scores =>
    let m := mean scores
    let s := { y.1 with log := y.1.log ++ [.scores t episodes m] }
    let z := runHooks S.hooks 0 s t m
    if z.2 then (z.1, .raised)
    else if m > z.1.maxScore then
      ({ z.1 with maxScore := m,
                  log := if S.c.saveBest then z.1.log ++ [.saveBest] else z.1.log }, .scored m)
    else (z.1, .scored m)

/-- `Evaluator.evaluate_if_necessary`, `evaluator.py:516-521`. -/
def evaluateIfNecessary (S : Setup σ α η A O) (fuel : Nat) (s : St σ α η A O) (t episodes : Nat) :
    St σ α η A O × Verdict :=
  if t ≥ s.prevEval + S.c.evalInterval then
    let x := evaluate S fuel s t episodes
    match x.2 with
    | .scored m => ({ x.1 with prevEval := t - t % S.c.evalInterval }, .scored m)
    | v => (x.1, v)
  else (s, .notDue)

/-- How a training ends: by returning `eval_stats_history`, of which only the scores are kept here; by an
exception of a hook; or not within the given number of steps of an evaluation. -/
inductive Outcome where
  | finished (history : List ℚ)
  | raised
  | stuck
  deriving DecidableEq, Repr

/-- `save_agent`, `evaluator.py:369-372`. -/
def St.save (s : St σ α η A O) (t : Nat) (x : Suffix) : St σ α η A O :=
  { s with log := s.log ++ [.save t x] }

/-- The part of an iteration of the loop of `train_agent` up to the evaluation, `train_agent.py:54-80`: the state, what
the environment returned, and whether the episode ends. -/
def St.advance (S : Setup σ α η A O) (s : St σ α η A O) (o : O) (len t : Nat) :
    St σ α η A O × Ret σ O × Bool :=
  let x := s.actStep S .train o
  let reset := some (len + 1) == S.c.maxLen || x.2.needsReset
  (x.1.observe S .train x.2 reset, x.2, x.2.done || reset || t + 1 == S.c.steps)

/-- `successful_score is not None and evaluator.max_score >= successful_score`, `train_agent.py:87-90`. -/
def St.successful (S : Setup σ α η A O) (s : St σ α η A O) : Bool :=
  match S.c.successful with
  | none => false
  | some x => decide (s.maxScore ≥ x)

/-- `if checkpoint_freq and t % checkpoint_freq == 0`, `train_agent.py:100-101`. -/
def St.checkpoint (S : Setup σ α η A O) (s : St σ α η A O) (t : Nat) : St σ α η A O :=
  if S.c.checkpointFreq ≠ 0 ∧ t % S.c.checkpointFreq = 0 then s.save t .checkpoint else s

/-- The loop of `train_agent` with what follows it, `train_agent.py:53-111`.  Its first argument bounds the number of
iterations and is given as `steps - step_offset`.  The second bounds the steps of each evaluation. -/
def trainLoop (S : Setup σ α η A O) (fuelE : Nat) :
    Nat → St σ α η A O → O → Nat → Nat → Nat → List ℚ → St σ α η A O × Outcome
  | 0, s, _, _, _, t, history => (s.save t .finish, .finished history)
  | fuel + 1, s, o, len, idx, t, history =>
    if t < S.c.steps then
      let x := s.advance S o len t
      let episodeEnd := x.2.2
      let idx := if episodeEnd then idx + 1 else idx
      let asks := S.c.evaluator && (episodeEnd || S.c.evalDuring)
      let y := if asks then evaluateIfNecessary S fuelE x.1 (t + 1) idx else (x.1, .notDue)
      match y.2 with
      | .stuck => (y.1, .stuck)
      | .raised => (y.1.save (t + 1) .except, .raised)
      | v =>
        let history := match v with
          | .scored m => history ++ [m]
          | _ => history
        if asks && y.1.successful S then (y.1.save (t + 1) .finish, .finished history)
        else if episodeEnd then
          if t + 1 = S.c.steps then (y.1.save (t + 1) .finish, .finished history)
          else
            let z := y.1.reset S .train
            trainLoop S fuelE fuel (z.1.checkpoint S (t + 1)) z.2 0 idx (t + 1) history
        else trainLoop S fuelE fuel (y.1.checkpoint S (t + 1)) x.2.1.obs (len + 1) idx (t + 1) history
    else (s.save t .finish, .finished history)

/-- `train_agent_with_evaluation`, `train_agent.py:114-222`, and `train_agent`, `train_agent.py:24-52`. -/
def train (S : Setup σ α η A O) (fuelE : Nat) (env evalEnv : σ) (agent : α) (hooks : η) :
    Except PyErr (St σ α η A O × Outcome) :=
  if refuses .serial S.hooks then .error .valueError
  else if S.c.shared && S.c.evalDuring then .error .assertionError
  else if S.c.evaluator && S.c.evalInterval == 0 then .error .zeroDivision
  else
    let s : St σ α η A O :=
      { env := env, evalEnv := evalEnv, agent := agent, hooks := hooks,
        prevEval := S.c.offset - S.c.offset % S.c.evalInterval, maxScore := lowest, log := [] }
    let x := s.reset S .train
    .ok (trainLoop S fuelE (S.c.steps - S.c.offset) x.1 x.2 0 0 S.c.offset [])

/-! ## Specification -/

/-- The last call on the environment of the training. -/
def Spec.lastCall (l : List (Event A O)) : Option (Who × EnvCall A O) :=
  l.foldl (fun x e => match e with
    | .env w c => some (w, c)
    | _ => x) none

/-- The number of steps since the last reset of the environment of the training. -/
def Spec.sinceReset (l : List (Event A O)) : Nat :=
  l.foldl (fun n e => match e with
    | .env _ (.reset _) => 0
    | .env _ (.step ..) => n + 1
    | _ => n) 0

def Spec.obsOf : EnvCall A O → O
  | .reset o => o
  | .step _ o _ _ _ => o

/-- Does the environment go on after this call? -/
def Spec.goesOn : EnvCall A O → Bool
  | .reset _ => true
  | .step _ _ _ done needsReset => !done && !needsReset

/-- Is this an event of the episodes of an evaluation? -/
def Spec.ofEvaluation (shared : Bool) : Event A O → Bool
  | .env .eval _ => shared
  | .evalEnv _ => !shared
  | .act .eval _ _ => true
  | .observe .eval _ _ _ _ => true
  | _ => false

/-- What the steps of an evaluation returned. -/
def Spec.evalSteps (l : List (Event A O)) : List (Eval.Out ℚ) :=
  l.filterMap fun e => match e with
    | .env .eval (.step _ _ r d n) => some ⟨r, d, n⟩
    | .evalEnv (.step _ _ r d n) => some ⟨r, d, n⟩
    | _ => none

/-- The mean score of an evaluation: its steps are complete episodes and possibly an unfinished one, as many as were
asked for, and the score is the mean return of the complete ones, or else the return of the unfinished one. -/
def Spec.IsScore (maxLen : Option Nat) (g : Goal) (steps : List (Eval.Out ℚ)) (m : ℚ) : Prop :=
  ∃ (segs : List (List (Eval.Out ℚ))) (rest : List (Eval.Out ℚ)), segs.flatten ++ rest = steps ∧
    (∀ seg ∈ segs, Eval.Spec.IsEpisode maxLen seg) ∧ Eval.Spec.Unfinished maxLen rest ∧
    (match g with
      | .episodes n => segs.length = n ∧ rest = []
      | .steps n => steps.length = n) ∧
    m = if segs = [] then Eval.Spec.ret rest else (segs.map Eval.Spec.ret).sum / segs.length

/-- What must be true of the past when something happens:
* the agent acts, in training, on the observation the environment returned last, this was returned to the training
  and not to an evaluation, and the episode goes on and has not reached the maximal length;
* the environment is stepped with the action just chosen;
* the agent observes what this step returned;
* the mean score that is recorded is that of the evaluation that was just run. -/
def Spec.Fits (c : Cfg) (past : List (Event A O)) : Event A O → Prop
  | .act .train o _ => (∃ c, Spec.lastCall past = some (.train, c) ∧ Spec.obsOf c = o ∧ Spec.goesOn c = true) ∧
      ∀ m, c.maxLen = some m → 0 < m → Spec.sinceReset past < m
  | .env .train (.step a _ _ _ _) => ∃ o, past.getLast? = some (.act .train o a)
  | .observe .train o r done _ => ∃ a n, past.getLast? = some (.env .train (.step a o r done n))
  | .scores _ _ m => ∃ before evaluation, past = before ++ evaluation ∧
      (∀ e, before.getLast? = some e → Spec.ofEvaluation c.shared e = false) ∧
      (∀ e ∈ evaluation, Spec.ofEvaluation c.shared e = true) ∧
      Spec.IsScore (c.evalMaxLen <|> c.maxLen) c.goal (Spec.evalSteps evaluation) m
  | _ => True

/-- Nothing interferes with the training. -/
def Spec.Intact (c : Cfg) (log : List (Event A O)) : Prop :=
  ∀ past e rest, log = past ++ e :: rest → Spec.Fits c past e

/-- The calls on the environment of the training. -/
def Spec.calls : List (Event A O) → List (EnvCall A O)
  | [] => []
  | .env _ c :: l => c :: Spec.calls l
  | _ :: l => Spec.calls l

/-- The environment, started in a state, answers these calls in this way and is then in that state. -/
inductive Spec.Answers (e : Env σ A O) : σ → List (EnvCall A O) → σ → Prop where
  | nil (s : σ) : Spec.Answers e s [] s
  | reset {s s' : σ} {l : List (EnvCall A O)} (h : Spec.Answers e s l s') :
      Spec.Answers e s (l ++ [.reset (e.reset s').2]) (e.reset s').1
  | step {s s' : σ} {l : List (EnvCall A O)} (a : A) (h : Spec.Answers e s l s') :
      Spec.Answers e s (l ++ [.step a (e.step s' a).obs (e.step s' a).reward (e.step s' a).done
        (e.step s' a).needsReset]) (e.step s' a).state

/-- The agent, started in a state, gets these calls, answers with these actions and is then in that state. -/
def Spec.Behaves (ag : Agent α A O) : α → List (Event A O) → α → Prop
  | a, [], b => a = b
  | a, .act w o x :: l, b => (ag.act w a o).2 = x ∧ Spec.Behaves ag (ag.act w a o).1 l b
  | a, .observe w o r d x :: l, b => Spec.Behaves ag (ag.observe w a o r d x) l b
  | a, _ :: l, b => Spec.Behaves ag a l b

/-- The calls on a separate environment for evaluation. -/
def Spec.evalCalls : List (Event A O) → List (EnvCall A O)
  | [] => []
  | .evalEnv c :: l => c :: Spec.evalCalls l
  | _ :: l => Spec.evalCalls l

/-- The last call on the environment that evaluations use, if an evaluation made it. -/
def Spec.lastEval (shared : Bool) (l : List (Event A O)) : Option (EnvCall A O) :=
  l.foldl (fun x e => match e with
    | .env .eval c => if shared then some c else x
    | .env .train _ => if shared then none else x
    | .evalEnv c => if shared then x else some c
    | _ => x) none

/-- What must be true of the past when something happens in an evaluation: the agent acts on the observation that the
environment returned last, and the episode goes on; the environment is stepped with the action just chosen; the agent
observes what this step returned; and the environment is that of the training if and only if it is shared. -/
def Spec.EvalFits (shared : Bool) (past : List (Event A O)) : Event A O → Prop
  | .act .eval o _ => ∃ c, Spec.lastEval shared past = some c ∧ Spec.obsOf c = o ∧ Spec.goesOn c = true
  | .env .eval (.reset _) => shared = true
  | .evalEnv (.reset _) => shared = false
  | .env .eval (.step a _ _ _ _) => shared = true ∧ ∃ o, past.getLast? = some (.act .eval o a)
  | .evalEnv (.step a _ _ _ _) => shared = false ∧ ∃ o, past.getLast? = some (.act .eval o a)
  | .observe .eval o r done _ => ∃ a n, past.getLast? = some (.env .eval (.step a o r done n)) ∨
      past.getLast? = some (.evalEnv (.step a o r done n))
  | _ => True

/-- Is this something that happens in training? -/
def Spec.ofTraining : Event A O → Bool
  | .env .train _ => true
  | .act .train _ _ => true
  | .observe .train _ _ _ _ => true
  | _ => false

/-- Where a training is in its episodes: the episode is over (or none has begun); it goes on after so many steps with this
observation; the agent has acted; the environment has been stepped. -/
inductive Spec.Phase (A O : Type) where
  | over
  | ready (o : O) (len : Nat)
  | acted (len : Nat) (a : A)
  | stepped (len : Nat) (o : O) (r : ℚ) (done needsReset : Bool)

/-- Nothing is pending. -/
def Spec.Phase.Settled : Spec.Phase A O → Prop
  | .over => True
  | .ready _ _ => True
  | _ => False

/-- What comes next in a training. -/
inductive Spec.Next (maxLen : Option Nat) : Spec.Phase A O → Event A O → Spec.Phase A O → Prop where
  /-- the environment is reset if and only if the episode is over -/
  | reset (o : O) : Spec.Next maxLen .over (.env .train (.reset o)) (.ready o 0)
  /-- the agent acts on the last observation -/
  | act (o : O) (len : Nat) (a : A) : Spec.Next maxLen (.ready o len) (.act .train o a) (.acted len a)
  /-- the environment is stepped with this action -/
  | step (len : Nat) (a : A) (o : O) (r : ℚ) (d n : Bool) :
      Spec.Next maxLen (.acted len a) (.env .train (.step a o r d n)) (.stepped (len + 1) o r d n)
  /-- the agent observes what came of it, and whether the episode is cut; the episode goes on -/
  | goOn (len : Nat) (o : O) (r : ℚ) (h : maxLen ≠ some len) :
      Spec.Next maxLen (.stepped len o r false false) (.observe .train o r false false) (.ready o len)
  /-- the same; the episode is over -/
  | finish (len : Nat) (o : O) (r : ℚ) (d n x : Bool) (h : x = true ↔ n = true ∨ maxLen = some len) (hx : d = true ∨ x = true) :
      Spec.Next maxLen (.stepped len o r d n) (.observe .train o r d x) .over

/-- A sequence of such events. -/
inductive Spec.Path (maxLen : Option Nat) : Spec.Phase A O → List (Event A O) → Spec.Phase A O → Prop where
  | nil (p : Spec.Phase A O) : Spec.Path maxLen p [] p
  | snoc {p q r : Spec.Phase A O} {l : List (Event A O)} {e : Event A O} (h : Spec.Path maxLen p l q)
      (he : Spec.Next maxLen q e r) : Spec.Path maxLen p (l ++ [e]) r

/-- What happens in training. -/
def Spec.training (l : List (Event A O)) : List (Event A O) := l.filter Spec.ofTraining

/-- An evaluation. -/
structure Spec.Evaluation where
  t : Nat
  episodes : Nat
  mean : ℚ
  deriving DecidableEq, Repr

/-- The line in `scores.txt`, a call of each hook with the step and the mean, and saving the best agent. -/
def Spec.block (hooks : Nat) (best : Bool) (e : Spec.Evaluation) : List (Event A O) :=
  .scores e.t e.episodes e.mean :: (List.range hooks).map (fun i => .hook i e.t e.mean) ++
    if best then [.saveBest] else []

/-- A sequence of evaluations: the agent is saved whenever the mean is larger than all before. -/
def Spec.blocks (hooks : Nat) (save : Bool) : ℚ → List Spec.Evaluation → List (Event A O)
  | _, [] => []
  | best, e :: es => Spec.block hooks (save && decide (best < e.mean)) e ++ Spec.blocks hooks save (max best e.mean) es

/-- Is this an output of an evaluation? -/
def Spec.isRecord : Event A O → Bool
  | .scores .. => true
  | .hook .. => true
  | .saveBest => true
  | _ => false

/-- Calling hooks one after the other; nothing if one of them raises. -/
def Spec.callHooks (t : Nat) (m : ℚ) : List (Hook η) → η → Option η
  | [], x => some x
  | h :: hs, x => if (h.call x t m).2 then none else Spec.callHooks t m hs (h.call x t m).1

/-- Calling all hooks after each of some evaluations. -/
def Spec.callAll (hooks : List (Hook η)) : List Spec.Evaluation → η → Option η
  | [], x => some x
  | e :: es, x => (Spec.callHooks e.t e.mean hooks x).bind (Spec.callAll hooks es)

/-! ## Lemmas -/

theorem evalLen_eq (c : Cfg) : c.evalLen = (c.evalMaxLen <|> c.maxLen) := by
  unfold Cfg.evalLen
  cases c.evalMaxLen <;> rfl

theorem intact_nil (m : Cfg) : Spec.Intact m ([] : List (Event A O)) := by
  intro past e rest h
  exact absurd h (by simp)

theorem intact_snoc {m : Cfg} {l : List (Event A O)} {e : Event A O} (h : Spec.Intact m l)
    (he : Spec.Fits m l e) : Spec.Intact m (l ++ [e]) := by
  intro past x rest hx
  rcases List.eq_nil_or_concat rest with hr | ⟨r', y, hr⟩
  · subst hr
    have h1 := List.append_inj' hx rfl
    obtain ⟨h1, h2⟩ := h1
    rw [List.cons.injEq] at h2
    rw [← h1, ← h2.1]
    exact he
  · subst hr
    have h1 : l ++ [e] = (past ++ x :: r') ++ [y] := by rw [hx]; simp
    exact h past x r' (List.append_inj' h1 rfl).1

/-- Does this put no condition on the past? -/
def plain : Event A O → Bool
  | .env .eval _ => true
  | .env .train (.reset _) => true
  | .act .eval _ _ => true
  | .observe .eval _ _ _ _ => true
  | .evalEnv _ => true
  | .hook _ _ _ => true
  | .saveBest => true
  | .save _ _ => true
  | _ => false

theorem fits_plain (m : Cfg) (l : List (Event A O)) {e : Event A O} (h : plain e = true) :
    Spec.Fits m l e := by
  cases e with
  | env w c => cases w with
    | train => cases c with
      | reset o => trivial
      | step => exact absurd h (by simp [plain])
    | eval => cases c <;> trivial
  | evalEnv c => trivial
  | act w o a => cases w with
    | train => exact absurd h (by simp [plain])
    | eval => trivial
  | observe w o r d x => cases w with
    | train => exact absurd h (by simp [plain])
    | eval => trivial
  | scores => exact absurd h (by simp [plain])
  | _ => trivial

theorem intact_append {m : Cfg} : ∀ (l2 : List (Event A O)) {l : List (Event A O)}, Spec.Intact m l →
    (∀ e ∈ l2, plain e = true) → Spec.Intact m (l ++ l2)
  | [], l, h, _ => by simpa using h
  | e :: l2, l, h, h2 => by
    have := intact_append l2 (intact_snoc h (fits_plain m l (h2 e List.mem_cons_self)))
      (fun x hx => h2 x (List.mem_cons_of_mem _ hx))
    simpa using this

/-- Is this no call on the environment of the training? -/
def elsewhere : Event A O → Bool
  | .env _ _ => false
  | _ => true

theorem lastCall_append (l l2 : List (Event A O)) (h : ∀ e ∈ l2, elsewhere e = true) :
    Spec.lastCall (l ++ l2) = Spec.lastCall l := by
  unfold Spec.lastCall
  rw [List.foldl_append]
  generalize List.foldl _ none l = n
  induction l2 with
  | nil => rfl
  | cons e l2 ih =>
    rw [List.foldl_cons]
    have h1 := ih fun x hx => h x (List.mem_cons_of_mem _ hx)
    have h2 := h e List.mem_cons_self
    cases e <;> first | exact h1 | exact absurd h2 (by simp [elsewhere])

theorem lastCall_env (l : List (Event A O)) (w : Who) (c : EnvCall A O) :
    Spec.lastCall (l ++ [.env w c]) = some (w, c) := by
  unfold Spec.lastCall
  rw [List.foldl_append]
  rfl

theorem sinceReset_append (l l2 : List (Event A O)) (h : ∀ e ∈ l2, elsewhere e = true) :
    Spec.sinceReset (l ++ l2) = Spec.sinceReset l := by
  unfold Spec.sinceReset
  rw [List.foldl_append]
  generalize List.foldl _ 0 l = n
  induction l2 with
  | nil => rfl
  | cons e l2 ih =>
    rw [List.foldl_cons]
    have h1 := ih fun x hx => h x (List.mem_cons_of_mem _ hx)
    have h2 := h e List.mem_cons_self
    cases e <;> first | exact h1 | exact absurd h2 (by simp [elsewhere])

theorem calls_append : ∀ (l l2 : List (Event A O)), Spec.calls (l ++ l2) = Spec.calls l ++ Spec.calls l2
  | [], _ => rfl
  | e :: l, l2 => by
    cases e <;> simp [Spec.calls, calls_append l l2]

theorem calls_elsewhere : ∀ (l : List (Event A O)), (∀ e ∈ l, elsewhere e = true) → Spec.calls l = []
  | [], _ => rfl
  | e :: l, h => by
    have h1 := calls_elsewhere l fun x hx => h x (List.mem_cons_of_mem _ hx)
    have h2 := h e List.mem_cons_self
    cases e <;> first | exact h1 | exact absurd h2 (by simp [elsewhere])

/-- The environment of the training answers all its calls, and nothing else changes its state. -/
def Faithful (S : Setup σ α η A O) (env : σ) (s : St σ α η A O) : Prop :=
  Spec.Answers S.env env (Spec.calls s.log) s.env

/-- What the loop of an evaluation can do. -/
structure EvalOnly (S : Setup σ α η A O) (s s' : St σ α η A O) (l : List (Event A O)) : Prop where
  log : s'.log = s.log ++ l
  evs : ∀ e ∈ l, Spec.ofEvaluation S.c.shared e = true
  env : S.c.shared = false → s'.env = s.env
  hooks : s'.hooks = s.hooks
  prevEval : s'.prevEval = s.prevEval
  maxScore : s'.maxScore = s.maxScore
  faithful : ∀ e, Faithful S e s → Faithful S e s'
  view : ∀ {τ : Type} (view : α → τ), (∀ a o, view (S.agent.act .eval a o).1 = view a) →
    (∀ a o r d x, view (S.agent.observe .eval a o r d x) = view a) → view s'.agent = view s.agent

theorem EvalOnly.refl (S : Setup σ α η A O) (s : St σ α η A O) : EvalOnly S s s [] :=
  ⟨by simp, by simp, fun _ => rfl, rfl, rfl, rfl, fun _ h => h, fun _ _ _ => rfl⟩

theorem EvalOnly.trans {S : Setup σ α η A O} {s s' s'' : St σ α η A O} {l l' : List (Event A O)}
    (h : EvalOnly S s s' l) (h' : EvalOnly S s' s'' l') : EvalOnly S s s'' (l ++ l') where
  log := by rw [h'.log, h.log, List.append_assoc]
  evs := by
    intro e he
    rcases List.mem_append.mp he with he | he
    · exact h.evs e he
    · exact h'.evs e he
  env := fun hs => (h'.env hs).trans (h.env hs)
  hooks := h'.hooks.trans h.hooks
  prevEval := h'.prevEval.trans h.prevEval
  maxScore := h'.maxScore.trans h.maxScore
  faithful := fun e he => h'.faithful e (h.faithful e he)
  view := fun v h1 h2 => (h'.view v h1 h2).trans (h.view v h1 h2)

theorem reset_faithful {S : Setup σ α η A O} {s : St σ α η A O} (w : Who) {e : σ} (h : Faithful S e s) :
    Faithful S e (s.reset S w).1 := by
  unfold St.reset Faithful
  split
  · simp only [calls_append, Spec.calls, List.append_nil]
    exact h
  · simp only [calls_append, Spec.calls]
    exact Spec.Answers.reset h

theorem actStep_faithful {S : Setup σ α η A O} {s : St σ α η A O} (w : Who) (o : O) {e : σ} (h : Faithful S e s) :
    Faithful S e (s.actStep S w o).1 := by
  unfold St.actStep Faithful
  split
  · simp only [calls_append, Spec.calls, List.append_nil]
    exact h
  · simp only [calls_append, Spec.calls]
    exact Spec.Answers.step _ h

theorem observe_faithful {S : Setup σ α η A O} {s : St σ α η A O} (w : Who) (r : Ret σ O) (x : Bool) {e : σ}
    (h : Faithful S e s) : Faithful S e (s.observe S w r x) := by
  unfold St.observe Faithful
  simp only [calls_append, Spec.calls, List.append_nil]
  exact h

theorem eval_reset (S : Setup σ α η A O) (s : St σ α η A O) :
    ∃ l, EvalOnly S s (s.reset S .eval).1 l := by
  cases hs : S.c.shared with
  | false =>
    refine ⟨[.evalEnv (.reset (S.evalEnv.reset s.evalEnv).2)], ?_⟩
    have he : s.reset S .eval = ({ s with evalEnv := (S.evalEnv.reset s.evalEnv).1, log := s.log ++ [.evalEnv (.reset (S.evalEnv.reset s.evalEnv).2)] }, (S.evalEnv.reset s.evalEnv).2) := by
      simp [St.reset, hs]
    have hf := fun e (h : Faithful S e s) => reset_faithful (S := S) (s := s) .eval h
    rw [he] at hf ⊢
    exact ⟨rfl, by simp [Spec.ofEvaluation, hs], fun _ => rfl, rfl, rfl, rfl, hf, fun _ _ _ => rfl⟩
  | true =>
    refine ⟨[.env .eval (.reset (S.env.reset s.env).2)], ?_⟩
    have he : s.reset S .eval = ({ s with env := (S.env.reset s.env).1, log := s.log ++ [.env .eval (.reset (S.env.reset s.env).2)] }, (S.env.reset s.env).2) := by
      simp [St.reset, hs]
    have hf := fun e (h : Faithful S e s) => reset_faithful (S := S) (s := s) .eval h
    rw [he] at hf ⊢
    exact ⟨rfl, by simp [Spec.ofEvaluation, hs], fun h => absurd (hs.symm.trans h) (by simp), rfl, rfl, rfl, hf,
      fun _ _ _ => rfl⟩

theorem eval_actStep (S : Setup σ α η A O) (s : St σ α η A O) (o : O) :
    ∃ l, EvalOnly S s (s.actStep S .eval o).1 l ∧ ∃ a c, l = [.act .eval o a, c] ∧
      (c = .env .eval (.step a (s.actStep S .eval o).2.obs (s.actStep S .eval o).2.reward
          (s.actStep S .eval o).2.done (s.actStep S .eval o).2.needsReset) ∨
        c = .evalEnv (.step a (s.actStep S .eval o).2.obs (s.actStep S .eval o).2.reward
          (s.actStep S .eval o).2.done (s.actStep S .eval o).2.needsReset)) := by
  have hf := fun e (h : Faithful S e s) => actStep_faithful (S := S) (s := s) .eval o h
  cases hs : S.c.shared with
  | false =>
    unfold St.actStep at hf ⊢
    simp only [hs, and_self, if_true] at hf ⊢
    refine ⟨_, ⟨rfl, ?_, fun _ => rfl, rfl, rfl, rfl, hf, fun v h1 h2 => h1 _ _⟩, _, _, rfl, .inr rfl⟩
    simp [Spec.ofEvaluation, hs]
  | true =>
    unfold St.actStep at hf ⊢
    simp only [hs, Bool.true_eq_false, and_false, if_false] at hf ⊢
    refine ⟨_, ⟨rfl, ?_, fun h => absurd (hs.symm.trans h) (by simp), rfl, rfl, rfl, hf, fun v h1 h2 => h1 _ _⟩,
      _, _, rfl, .inl rfl⟩
    simp [Spec.ofEvaluation, hs]

theorem eval_observe (S : Setup σ α η A O) (s : St σ α η A O) (r : Ret σ O) (x : Bool) :
    EvalOnly S s (s.observe S .eval r x) [.observe .eval r.obs r.reward r.done x] :=
  ⟨rfl, by simp [Spec.ofEvaluation], fun _ => rfl, rfl, rfl, rfl, fun _ h => observe_faithful .eval r x h,
    fun v h1 h2 => h2 _ _ _ _ _⟩

theorem evalLoop_evalOnly (S : Setup σ α η A O) : ∀ (fuel : Nat) (s : St σ α η A O) (o : O) (testR : ℚ)
    (len timestep : Nat) (scores : List ℚ),
    ∃ l, EvalOnly S s (evalLoop S fuel s o testR len timestep scores).1 l
  | 0, s, _, _, _, _, _ => ⟨[], EvalOnly.refl S s⟩
  | fuel + 1, s, o, testR, len, timestep, scores => by
    obtain ⟨l1, h1, -⟩ := eval_actStep S s o
    have h2 := eval_observe S (s.actStep S .eval o).1 (s.actStep S .eval o).2
      ((s.actStep S .eval o).2.done || some (len + 1) == S.c.evalLen || (s.actStep S .eval o).2.needsReset)
    have h12 := h1.trans h2
    set s2 := (s.actStep S .eval o).1.observe S .eval (s.actStep S .eval o).2
      ((s.actStep S .eval o).2.done || some (len + 1) == S.c.evalLen || (s.actStep S .eval o).2.needsReset) with hs2
    unfold evalLoop
    simp only [← hs2]
    generalize (if ((s.actStep S .eval o).2.done || some (len + 1) == S.c.evalLen ||
      (s.actStep S .eval o).2.needsReset) = true then scores ++ [testR + (s.actStep S .eval o).2.reward]
      else scores) = sc
    split
    · exact ⟨_, h12⟩
    · split
      · obtain ⟨l3, h3⟩ := eval_reset S s2
        obtain ⟨l4, h4⟩ := evalLoop_evalOnly S fuel (s2.reset S .eval).1 (s2.reset S .eval).2 0 0 (timestep + 1) sc
        exact ⟨_, (h12.trans h3).trans h4⟩
      · obtain ⟨l4, h4⟩ := evalLoop_evalOnly S fuel s2 (s.actStep S .eval o).2.obs
          (testR + (s.actStep S .eval o).2.reward) (len + 1) (timestep + 1) sc
        exact ⟨_, h12.trans h4⟩

/-- What calling the hooks does. -/
theorem runHooks_spec (hs : List (Hook η)) : ∀ (i : Nat) (s : St σ α η A O) (t : Nat) (m : ℚ),
    (∃ j x, (runHooks hs i s t m) = ({ s with hooks := x, log := s.log ++ (List.range' i j).map (fun k => .hook k t m) },
        false) ∧ j = hs.length ∧ Spec.callHooks t m hs s.hooks = some x) ∨
    (∃ j h x y, (runHooks hs i s t m) = (
        { s with hooks := y, log := s.log ++ (List.range' i (j + 1)).map (fun k => .hook k t m) }, true) ∧ hs[j]? = some h ∧
        Spec.callHooks t m (hs.take j) s.hooks = some x ∧ h.call x t m = (y, true)) := by
  induction hs with
  | nil =>
    intro i s t m
    left
    exact ⟨0, s.hooks, by simp [runHooks], rfl, rfl⟩
  | cons h hs ih =>
    intro i s t m
    cases hr : (h.call s.hooks t m).2 with
    | true =>
      right
      refine ⟨0, h, s.hooks, (h.call s.hooks t m).1, ?_, rfl, rfl, ?_⟩
      · simp [runHooks, hr]
      · rw [← hr]
    | false =>
      rcases ih (i + 1) { s with hooks := (h.call s.hooks t m).1, log := s.log ++ [.hook i t m] } t m with
        ⟨j, x, h1, h2, h3⟩ | ⟨j, h', x, y, h1, h2, h3, h4⟩
      · left
        refine ⟨j + 1, x, ?_, by rw [h2]; rfl, ?_⟩
        · simp only [runHooks, hr, Bool.false_eq_true, if_false, h1]
          simp [List.range'_succ]
        · simp only [Spec.callHooks, hr, Bool.false_eq_true, if_false]
          exact h3
      · right
        refine ⟨j + 1, h', x, y, ?_, by simpa using h2, ?_, h4⟩
        · simp only [runHooks, hr, Bool.false_eq_true, if_false, h1]
          rw [List.range'_succ (n := j + 1)]
          simp
        · simp only [List.take_succ_cons, Spec.callHooks, hr, Bool.false_eq_true, if_false]
          exact h3

/-- The records among some events. -/
def records (l : List (Event A O)) : List (Event A O) := l.filter Spec.isRecord

theorem records_evalOnly {shared : Bool} {l : List (Event A O)} (h : ∀ e ∈ l, Spec.ofEvaluation shared e = true) :
    records l = [] := by
  unfold records
  rw [List.filter_eq_nil_iff]
  intro e he
  have := h e he
  cases e <;> simp_all [Spec.ofEvaluation, Spec.isRecord]

theorem records_append (l l2 : List (Event A O)) : records (l ++ l2) = records l ++ records l2 :=
  List.filter_append l l2

theorem records_hooks (n t : Nat) (m : ℚ) (i : Nat) :
    records ((List.range' i n).map fun k => (.hook k t m : Event A O)) = (List.range' i n).map fun k => .hook k t m := by
  unfold records
  rw [List.filter_eq_self]
  intro e he
  obtain ⟨k, -, rfl⟩ := List.mem_map.mp he
  rfl

theorem append_faithful {S : Setup σ α η A O} {s : St σ α η A O} {e : σ} (h : Faithful S e s)
    (s' : St σ α η A O) (he : s'.env = s.env) (l : List (Event A O)) (hl : s'.log = s.log ++ l)
    (hel : ∀ e ∈ l, elsewhere e = true) : Faithful S e s' := by
  unfold Faithful at *
  rw [hl, calls_append, calls_elsewhere l hel, List.append_nil, he]
  exact h

theorem evalSteps_append (l l2 : List (Event A O)) :
    Spec.evalSteps (l ++ l2) = Spec.evalSteps l ++ Spec.evalSteps l2 := List.filterMap_append

theorem eval_reset_steps {S : Setup σ α η A O} {s : St σ α η A O} {l : List (Event A O)}
    (h : EvalOnly S s (s.reset S .eval).1 l) : Spec.evalSteps l = [] := by
  have hl := h.log
  unfold St.reset at hl
  split at hl
  · rw [List.append_cancel_left hl.symm]; rfl
  · rw [List.append_cancel_left hl.symm]; rfl

/-- The scores of the loop of an evaluation. -/
theorem evalLoop_scores (S : Setup σ α η A O) : ∀ (fuel : Nat) (s : St σ α η A O) (o : O) (testR : ℚ)
    (len timestep : Nat) (scores : List ℚ) (segs : List (List (Eval.Out ℚ))) (rest : List (Eval.Out ℚ))
    (sc : List ℚ),
    scores = segs.map Eval.Spec.ret → testR = Eval.Spec.ret rest → len = rest.length →
    timestep = (segs.flatten ++ rest).length → (∀ seg ∈ segs, Eval.Spec.IsEpisode S.c.evalLen seg) →
    Eval.Spec.Unfinished S.c.evalLen rest → terminates S.c.goal scores timestep = false →
    (evalLoop S fuel s o testR len timestep scores).2 = some sc →
    ∃ l segs' rest', EvalOnly S s (evalLoop S fuel s o testR len timestep scores).1 l ∧
      segs'.flatten ++ rest' = segs.flatten ++ rest ++ Spec.evalSteps l ∧
      (∀ seg ∈ segs', Eval.Spec.IsEpisode S.c.evalLen seg) ∧ Eval.Spec.Unfinished S.c.evalLen rest' ∧
      (match S.c.goal with
        | .episodes n => segs'.length = n ∧ rest' = []
        | .steps n => (segs'.flatten ++ rest').length = n) ∧
      sc = if segs' = [] then [Eval.Spec.ret rest'] else segs'.map Eval.Spec.ret
  | 0, s, _, _, _, _, _, _, _, _, _, _, _, _, _, _, _, h => by simp [evalLoop] at h
  | fuel + 1, s, o, testR, len, timestep, scores, segs, rest, sc, hsc, hR, hlen, ht, hseg, hrest, hgoal, h => by
    obtain ⟨l1, h1, a, cc, hl1, hcc⟩ := eval_actStep S s o
    have h2 := eval_observe S (s.actStep S .eval o).1 (s.actStep S .eval o).2
      ((s.actStep S .eval o).2.done || some (len + 1) == S.c.evalLen || (s.actStep S .eval o).2.needsReset)
    have h12 := h1.trans h2
    set r := (s.actStep S .eval o).2 with hr
    set s2 := (s.actStep S .eval o).1.observe S .eval r
      (r.done || some (len + 1) == S.c.evalLen || r.needsReset) with hs2
    set out : Eval.Out ℚ := ⟨r.reward, r.done, r.needsReset⟩ with hout
    have hsteps : Spec.evalSteps (l1 ++ [.observe .eval r.obs r.reward r.done
        (r.done || some (len + 1) == S.c.evalLen || r.needsReset)]) = [out] := by
      rw [hl1]
      rcases hcc with hcc | hcc <;> rw [hcc] <;> rfl
    have hb : (r.done || some (len + 1) == S.c.evalLen || r.needsReset) =
        (out.done || decide (S.c.evalLen = some (rest.length + 1)) || out.needsReset) := by
      have : (some (len + 1) == S.c.evalLen) = decide (S.c.evalLen = some (rest.length + 1)) := by
        rw [Bool.eq_iff_iff, beq_iff_eq, decide_eq_true_eq, hlen]
        exact eq_comm
      rw [this]
    have hends := Eval.ends_snoc S.c.evalLen rest out
    rw [← hb] at hends
    have htake : ∀ k, k ≤ rest.length → ¬ Eval.Spec.ends S.c.evalLen ((rest ++ [out]).take k) := by
      intro k hk
      rw [List.take_append_of_le_length hk]
      exact hrest k hk
    have hret : testR + r.reward = Eval.Spec.ret (rest ++ [out]) := by
      rw [hR]
      unfold Eval.Spec.ret
      simp [hout]
    have hempty : Eval.Spec.Unfinished S.c.evalLen ([] : List (Eval.Out ℚ)) := by
      intro k _
      rw [List.take_nil]
      exact Eval.not_ends_nil _
    unfold evalLoop at h ⊢
    simp only [← hr, ← hs2] at h ⊢
    cases hreset : (r.done || some (len + 1) == S.c.evalLen || r.needsReset) with
    | true =>
      have hep : Eval.Spec.IsEpisode S.c.evalLen (rest ++ [out]) := by
        refine ⟨hends.mpr hreset, fun k hk => htake k ?_⟩
        simp at hk; omega
      have hseg' : ∀ seg ∈ segs ++ [rest ++ [out]], Eval.Spec.IsEpisode S.c.evalLen seg := by
        intro seg hs
        rcases List.mem_append.mp hs with hs | hs
        · exact hseg seg hs
        · rw [List.mem_singleton.mp hs]; exact hep
      have hsc' : scores ++ [testR + r.reward] = (segs ++ [rest ++ [out]]).map Eval.Spec.ret := by
        rw [hsc, hret]; simp
      have hts' : timestep + 1 = ((segs ++ [rest ++ [out]]).flatten ++ ([] : List (Eval.Out ℚ))).length := by
        rw [ht]; simp; omega
      simp only [hreset, if_true] at h ⊢ hsteps h12
      cases hterm : terminates S.c.goal (scores ++ [testR + r.reward]) (timestep + 1) with
      | true =>
        simp only [hterm, if_true] at h ⊢
        refine ⟨_, segs ++ [rest ++ [out]], [], h12, ?_, hseg', hempty, ?_, ?_⟩
        · rw [hsteps]; simp
        · cases hg : S.c.goal with
          | episodes n =>
            simp only [hg, terminates, decide_eq_true_eq, decide_eq_false_iff_not, hsc, List.length_map,
              List.length_append, List.length_singleton] at hterm hgoal ⊢
            exact ⟨by omega, trivial⟩
          | steps n =>
            simp only [hg, terminates, decide_eq_true_eq, decide_eq_false_iff_not] at hterm hgoal ⊢
            rw [← hts']; omega
        · rw [if_neg (by simp)] at h ⊢
          rw [← hsc']
          exact (Option.some.inj h).symm
      | false =>
        simp only [hterm, Bool.false_eq_true, if_false] at h ⊢
        obtain ⟨l3, h3⟩ := eval_reset S s2
        have hl3 := eval_reset_steps h3
        obtain ⟨l4, segs', rest', h4, e1, e2, e3, e4, e5⟩ := evalLoop_scores S fuel (s2.reset S .eval).1
          (s2.reset S .eval).2 0 0 (timestep + 1) (scores ++ [testR + r.reward]) (segs ++ [rest ++ [out]]) [] sc hsc' rfl
          rfl hts' hseg' hempty hterm h
        refine ⟨_, segs', rest', (h12.trans h3).trans h4, ?_, e2, e3, e4, e5⟩
        rw [e1, evalSteps_append, evalSteps_append, hl3, hsteps]
        simp
    | false =>
      have hrest' : Eval.Spec.Unfinished S.c.evalLen (rest ++ [out]) := by
        intro k hk
        rcases Nat.lt_or_ge rest.length k with hlt | hle
        · rw [List.take_of_length_le (by simp; omega), hends, hreset]; simp
        · exact htake k hle
      have hts' : timestep + 1 = (segs.flatten ++ (rest ++ [out])).length := by
        rw [ht]; simp; omega
      simp only [hreset, Bool.false_eq_true, if_false] at h ⊢ hsteps h12
      cases hterm : terminates S.c.goal scores (timestep + 1) with
      | true =>
        simp only [hterm, if_true] at h ⊢
        refine ⟨_, segs, rest ++ [out], h12, ?_, hseg, hrest', ?_, ?_⟩
        · rw [hsteps]; simp
        · cases hg : S.c.goal with
          | episodes n =>
            simp only [hg, terminates, decide_eq_true_eq, decide_eq_false_iff_not] at hterm hgoal
            exact absurd hterm hgoal
          | steps n =>
            simp only [hg, terminates, decide_eq_true_eq, decide_eq_false_iff_not] at hterm hgoal ⊢
            rw [← hts']; omega
        · have := (Option.some.inj h).symm
          rw [this, hsc, hret]
          by_cases hs : segs = []
          · simp [hs]
          · rw [if_neg (by simpa using hs), if_neg hs]
      | false =>
        simp only [hterm, Bool.false_eq_true, if_false] at h ⊢
        obtain ⟨l4, segs', rest', h4, e1, e2, e3, e4, e5⟩ := evalLoop_scores S fuel s2 r.obs (testR + r.reward) (len + 1)
          (timestep + 1) scores segs (rest ++ [out]) sc hsc hret (by rw [hlen]; simp) hts' hseg hrest' hterm h
        refine ⟨_, segs', rest', h12.trans h4, ?_, e2, e3, e4, e5⟩
        rw [e1, evalSteps_append, hsteps]
        simp

/-- The number of episodes or steps of an evaluation is positive. -/
def Spec.positive : Goal → Prop
  | .episodes n => 0 < n
  | .steps n => 0 < n

theorem evaluate_score (S : Setup σ α η A O) (hg : Spec.positive S.c.goal) (fuel : Nat) (s : St σ α η A O)
    (sc : List ℚ) (h : (evalLoop S fuel (s.reset S .eval).1 (s.reset S .eval).2 0 0 0 []).2 = some sc) :
    ∃ l, EvalOnly S s (evalLoop S fuel (s.reset S .eval).1 (s.reset S .eval).2 0 0 0 []).1 l ∧
      Spec.IsScore S.c.evalLen S.c.goal (Spec.evalSteps l) (mean sc) := by
  obtain ⟨l1, h1⟩ := eval_reset S s
  have hterm : terminates S.c.goal ([] : List ℚ) 0 = false := by
    cases hgg : S.c.goal with
    | episodes n =>
      rw [hgg] at hg
      simp only [terminates, List.length_nil, decide_eq_false_iff_not]
      exact Nat.not_le.mpr hg
    | steps n =>
      rw [hgg] at hg
      simp only [terminates, decide_eq_false_iff_not]
      exact Nat.not_le.mpr hg
  obtain ⟨l2, segs, rest, h2, e1, e2, e3, e4, e5⟩ := evalLoop_scores S fuel (s.reset S .eval).1 (s.reset S .eval).2 0 0 0 []
    [] [] sc rfl rfl rfl rfl (by simp) (by intro k _; rw [List.take_nil]; exact Eval.not_ends_nil _) hterm h
  have hsteps : segs.flatten ++ rest = Spec.evalSteps (l1 ++ l2) := by
    rw [e1, evalSteps_append, eval_reset_steps h1]; simp
  refine ⟨l1 ++ l2, h1.trans h2, segs, rest, hsteps, e2, e3, ?_, ?_⟩
  · rw [← hsteps]
    exact e4
  · rw [e5]
    unfold mean
    split
    · simp
    · simp

/-- What an evaluation can do: run episodes, then record the score, call hooks and save the agent. -/
structure Evaluated (S : Setup σ α η A O) (s s' : St σ α η A O) (t idx : Nat) (le lr : List (Event A O)) : Prop where
  log : s'.log = s.log ++ (le ++ lr)
  evs : ∀ e ∈ le, Spec.ofEvaluation S.c.shared e = true
  recs : lr = [] ∨ ∃ m lr', lr = .scores t idx m :: lr' ∧ (∀ e ∈ lr', Spec.isRecord e = true ∧ plain e = true) ∧
    (Spec.positive S.c.goal → Spec.IsScore S.c.evalLen S.c.goal (Spec.evalSteps le) m)
  env : S.c.shared = false → s'.env = s.env
  faithful : ∀ e, Faithful S e s → Faithful S e s'
  view : ∀ {τ : Type} (view : α → τ), (∀ a o, view (S.agent.act .eval a o).1 = view a) →
    (∀ a o r d x, view (S.agent.observe .eval a o r d x) = view a) → view s'.agent = view s.agent

theorem elsewhere_record {e : Event A O} (h : Spec.isRecord e = true) : elsewhere e = true := by
  cases e <;> first | rfl | exact absurd h (by simp [Spec.isRecord])

/-- What an evaluation can end in. -/
theorem evaluate_spec (S : Setup σ α η A O) (fuel : Nat) (s : St σ α η A O) (t idx : Nat) :
    (∃ le lr, Evaluated S s (evaluate S fuel s t idx).1 t idx le lr) ∧
    ((∃ m, (evaluate S fuel s t idx).2 = .scored m ∧
        records (evaluate S fuel s t idx).1.log = records s.log ++
          Spec.block S.hooks.length (S.c.saveBest && decide (s.maxScore < m)) ⟨t, idx, m⟩ ∧
        (evaluate S fuel s t idx).1.maxScore = max s.maxScore m ∧
        Spec.callHooks t m S.hooks s.hooks = some (evaluate S fuel s t idx).1.hooks) ∨
    ((evaluate S fuel s t idx).2 = .raised ∧ ∃ m j h x,
        records (evaluate S fuel s t idx).1.log = records s.log ++
          (.scores t idx m :: (List.range (j + 1)).map fun k => .hook k t m) ∧
        S.hooks[j]? = some h ∧ Spec.callHooks t m (S.hooks.take j) s.hooks = some x ∧
        h.call x t m = ((evaluate S fuel s t idx).1.hooks, true)) ∨
    ((evaluate S fuel s t idx).2 = .stuck ∧ records (evaluate S fuel s t idx).1.log = records s.log ∧
      (evaluate S fuel s t idx).1.hooks = s.hooks)) := by
  obtain ⟨l0, h0⟩ : ∃ l, EvalOnly S s (evalLoop S fuel (s.reset S .eval).1 (s.reset S .eval).2 0 0 0 []).1 l := by
    obtain ⟨l1, h1⟩ := eval_reset S s
    obtain ⟨l2, h2⟩ := evalLoop_evalOnly S fuel (s.reset S .eval).1 (s.reset S .eval).2 0 0 0 []
    exact ⟨_, h1.trans h2⟩
  have hscore := evaluate_score S (fuel := fuel) (s := s)
  set y := evalLoop S fuel (s.reset S .eval).1 (s.reset S .eval).2 0 0 0 [] with hy
  have hrec : records y.1.log = records s.log := by
    rw [h0.log, records_append, records_evalOnly h0.evs, List.append_nil]
  cases hsc : y.2 with
  | none =>
    have he : evaluate S fuel s t idx = (y.1, .stuck) := by
      unfold evaluate
      simp only [← hy, hsc]
    rw [he]
    exact ⟨⟨l0, [], by simp [h0.log], h0.evs, .inl rfl, h0.env, h0.faithful, h0.view⟩,
      .inr (.inr ⟨rfl, hrec, h0.hooks⟩)⟩
  | some sc =>
    have hscore' : Spec.positive S.c.goal → Spec.IsScore S.c.evalLen S.c.goal (Spec.evalSteps l0) (mean sc) := by
      intro hg
      obtain ⟨l, hl, hl2⟩ := hscore hg sc hsc
      have : l = l0 := List.append_cancel_left (hl.log.symm.trans h0.log)
      rw [← this]; exact hl2
    set s2 : St σ α η A O := { y.1 with log := y.1.log ++ [.scores t idx (mean sc)] } with hs2
    have key : ∀ (s3 : St σ α η A O) (lr' : List (Event A O)), s3.log = y.1.log ++ (.scores t idx (mean sc) :: lr') →
        s3.env = y.1.env → s3.agent = y.1.agent → (∀ e ∈ lr', Spec.isRecord e = true ∧ plain e = true) →
        (∃ le lr, Evaluated S s s3 t idx le lr) ∧ records s3.log = records s.log ++ (.scores t idx (mean sc) :: lr') := by
      intro s3 lr' hlog henv hag hlr
      have hall : ∀ e ∈ (.scores t idx (mean sc) :: lr' : List (Event A O)), Spec.isRecord e = true := by
        intro e he
        rcases List.mem_cons.mp he with he | he
        · subst he; rfl
        · exact (hlr e he).1
      refine ⟨⟨l0, .scores t idx (mean sc) :: lr', ?_, h0.evs, .inr ⟨_, _, rfl, hlr, hscore'⟩,
        fun h => henv.trans (h0.env h), ?_, fun v h1 h2 => ?_⟩, ?_⟩
      · rw [hlog, h0.log, List.append_assoc]
      · intro e hf
        exact append_faithful (h0.faithful e hf) s3 henv _ hlog fun e he => elsewhere_record (hall e he)
      · rw [hag]; exact h0.view v h1 h2
      · rw [hlog, records_append, hrec]
        congr 1
        exact List.filter_eq_self.mpr hall
    have hhooks : ∀ n, ∀ e ∈ (List.range' 0 n).map (fun k => (.hook k t (mean sc) : Event A O)),
        Spec.isRecord e = true ∧ plain e = true := by
      intro n e he
      obtain ⟨k, -, rfl⟩ := List.mem_map.mp he
      exact ⟨rfl, rfl⟩
    rcases runHooks_spec S.hooks 0 s2 t (mean sc) with ⟨j, x, e1, e2, e3⟩ | ⟨j, h, x, z, e1, e2, e3, e4⟩
    · by_cases hm : mean sc > s.maxScore
      · have he : evaluate S fuel s t idx = ({ s2 with hooks := x, maxScore := mean sc, log := if S.c.saveBest then s2.log ++ (List.range' 0 j).map (fun k => .hook k t (mean sc)) ++ [.saveBest] else s2.log ++ (List.range' 0 j).map (fun k => .hook k t (mean sc)) }, .scored (mean sc)) := by
          have hm' : mean sc > y.1.maxScore := by rw [h0.maxScore]; exact hm
          unfold evaluate
          simp only [← hy, hsc, ← hs2, e1, Bool.false_eq_true, if_false]
          rw [if_pos hm']
        rw [he]
        obtain ⟨k1, k2⟩ := key { s2 with hooks := x, maxScore := mean sc, log := if S.c.saveBest then s2.log ++ (List.range' 0 j).map (fun k => .hook k t (mean sc)) ++ [.saveBest] else s2.log ++ (List.range' 0 j).map (fun k => .hook k t (mean sc)) }
          ((List.range' 0 j).map (fun k => .hook k t (mean sc)) ++ if S.c.saveBest then [.saveBest] else [])
          (by simp only [hs2]; split <;> simp) rfl rfl (by
            intro e he
            rcases List.mem_append.mp he with he | he
            · exact hhooks j e he
            · split at he
              · rw [List.mem_singleton.mp he]; exact ⟨rfl, rfl⟩
              · simp at he)
        refine ⟨k1, .inl ⟨mean sc, rfl, ?_, (max_eq_right hm.le).symm, ?_⟩⟩
        · rw [k2, decide_eq_true hm, Bool.and_true]
          unfold Spec.block
          rw [List.range_eq_range', ← e2]
          simp
        · rw [← h0.hooks]; exact e3
      · have he : evaluate S fuel s t idx = ({ s2 with hooks := x, log := s2.log ++ (List.range' 0 j).map (fun k => .hook k t (mean sc)) }, .scored (mean sc)) := by
          have hm' : ¬ mean sc > y.1.maxScore := by rw [h0.maxScore]; exact hm
          unfold evaluate
          simp only [← hy, hsc, ← hs2, e1, Bool.false_eq_true, if_false]
          rw [if_neg hm']
        rw [he]
        obtain ⟨k1, k2⟩ := key { s2 with hooks := x, log := s2.log ++ (List.range' 0 j).map (fun k => .hook k t (mean sc)) }
          ((List.range' 0 j).map (fun k => .hook k t (mean sc))) (by simp [hs2]) rfl rfl (hhooks j)
        refine ⟨k1, .inl ⟨mean sc, rfl, ?_, ?_, ?_⟩⟩
        · rw [k2, decide_eq_false hm, Bool.and_false]
          unfold Spec.block
          rw [List.range_eq_range', ← e2]
          simp
        · change y.1.maxScore = _
          rw [h0.maxScore, max_eq_left (not_lt.mp hm)]
        · rw [← h0.hooks]; exact e3
    · have he : evaluate S fuel s t idx = ({ s2 with hooks := z, log := s2.log ++ (List.range' 0 (j + 1)).map (fun k => .hook k t (mean sc)) }, .raised) := by
        unfold evaluate
        simp only [← hy, hsc, ← hs2, e1, if_true]
      rw [he]
      obtain ⟨k1, k2⟩ := key { s2 with hooks := z, log := s2.log ++ (List.range' 0 (j + 1)).map (fun k => .hook k t (mean sc)) }
        ((List.range' 0 (j + 1)).map (fun k => .hook k t (mean sc))) (by simp [hs2]) rfl rfl (hhooks (j + 1))
      refine ⟨k1, .inr (.inl ⟨rfl, mean sc, j, h, x, ?_, e2, ?_, e4⟩)⟩
      · rw [k2, List.range_eq_range']
      · rw [← h0.hooks]; exact e3

theorem evaluateIfNecessary_evaluated (S : Setup σ α η A O) (fuel : Nat) (s : St σ α η A O) (t idx : Nat) :
    ∃ le lr, Evaluated S s (evaluateIfNecessary S fuel s t idx).1 t idx le lr := by
  unfold evaluateIfNecessary
  split
  · obtain ⟨⟨le, lr, h⟩, -⟩ := evaluate_spec S fuel s t idx
    refine ⟨le, lr, ?_⟩
    simp only []
    cases hv : (evaluate S fuel s t idx).2 with
    | scored m => exact ⟨h.log, h.evs, h.recs, h.env, h.faithful, h.view⟩
    | notDue => exact h
    | raised => exact h
    | stuck => exact h
  · exact ⟨[], [], by simp, by simp, .inl rfl, fun _ => rfl, fun _ h => h, fun _ _ _ => rfl⟩

/-- What an evaluation appends keeps the log intact. -/
theorem intact_evaluated {S : Setup σ α η A O} (hg : Spec.positive S.c.goal) {s s' : St σ α η A O} {t idx : Nat}
    {le lr : List (Event A O)} (h : Evaluated S s s' t idx le lr) (hi : Spec.Intact S.c s.log)
    (hlast : ∀ e, s.log.getLast? = some e → Spec.ofEvaluation S.c.shared e = false) : Spec.Intact S.c s'.log := by
  have hle : ∀ e ∈ le, plain e = true := by
    intro e he
    have := h.evs e he
    cases e with
    | env w c => cases w with
      | train => exact absurd this (by simp [Spec.ofEvaluation])
      | eval => rfl
    | act w o a => cases w with
      | train => exact absurd this (by simp [Spec.ofEvaluation])
      | eval => rfl
    | observe w o r d x => cases w with
      | train => exact absurd this (by simp [Spec.ofEvaluation])
      | eval => rfl
    | evalEnv c => rfl
    | _ => exact absurd this (by simp [Spec.ofEvaluation])
  rw [h.log]
  have h1 := intact_append le hi hle
  rcases h.recs with hr | ⟨m, lr', hr, hlr, hsc⟩
  · rw [hr]; simpa using h1
  · rw [hr]
    have h2 : Spec.Intact S.c (s.log ++ le ++ [.scores t idx m]) :=
      intact_snoc h1 ⟨s.log, le, rfl, hlast, h.evs, evalLen_eq S.c ▸ hsc hg⟩
    have h3 := intact_append lr' h2 fun e he => (hlr e he).2
    simpa using h3

/-- The training can go on from here: the observation is the last one, and the episode has this length. -/
structure Fresh (S : Setup σ α η A O) (env : σ) (s : St σ α η A O) (o : O) (len : Nat) : Prop where
  intact : Spec.Intact S.c s.log
  last : ∃ c, Spec.lastCall s.log = some (.train, c) ∧ Spec.obsOf c = o ∧ Spec.goesOn c = true
  since : Spec.sinceReset s.log = len
  short : ∀ m, S.c.maxLen = some m → 0 < m → len < m
  faithful : Faithful S env s

theorem train_reset (S : Setup σ α η A O) (s : St σ α η A O) :
    s.reset S .train = ({ s with env := (S.env.reset s.env).1,
                                 log := s.log ++ [.env .train (.reset (S.env.reset s.env).2)] },
      (S.env.reset s.env).2) := by
  simp [St.reset]

theorem fresh_reset {S : Setup σ α η A O} {env : σ} {s : St σ α η A O} (hi : Spec.Intact S.c s.log)
    (hf : Faithful S env s) : Fresh S env (s.reset S .train).1 (s.reset S .train).2 0 := by
  have hf' := reset_faithful .train hf
  rw [train_reset] at hf' ⊢
  refine ⟨intact_snoc hi trivial, ⟨_, lastCall_env _ _ _, rfl, rfl⟩, ?_, fun m _ h => h, hf'⟩
  unfold Spec.sinceReset
  rw [List.foldl_append]
  rfl

theorem train_actStep (S : Setup σ α η A O) (s : St σ α η A O) (o : O) :
    s.actStep S .train o = ({ s with agent := (S.agent.act .train s.agent o).1, env := (S.env.step s.env (S.agent.act .train s.agent o).2).state, log := s.log ++ [.act .train o (S.agent.act .train s.agent o).2, .env .train (.step (S.agent.act .train s.agent o).2 (S.env.step s.env (S.agent.act .train s.agent o).2).obs (S.env.step s.env (S.agent.act .train s.agent o).2).reward (S.env.step s.env (S.agent.act .train s.agent o).2).done (S.env.step s.env (S.agent.act .train s.agent o).2).needsReset)] },
      S.env.step s.env (S.agent.act .train s.agent o).2) := by
  simp [St.actStep]

/-- A step of the training. -/
theorem fresh_advance {S : Setup σ α η A O} {env : σ} {s : St σ α η A O} {o : O} {len : Nat}
    (h : Fresh S env s o len) (t : Nat) :
    Spec.Intact S.c (s.advance S o len t).1.log ∧ Faithful S env (s.advance S o len t).1 ∧
    (∀ e, (s.advance S o len t).1.log.getLast? = some e → Spec.ofEvaluation S.c.shared e = false) ∧
    ((s.advance S o len t).2.2 = false →
      Fresh S env (s.advance S o len t).1 (s.advance S o len t).2.1.obs (len + 1)) := by
  have hf : Faithful S env (s.advance S o len t).1 :=
    observe_faithful .train _ _ (actStep_faithful .train o h.faithful)
  set a := (S.agent.act .train s.agent o).2 with ha
  set r := S.env.step s.env a with hr
  set c : EnvCall A O := .step a r.obs r.reward r.done r.needsReset with hc
  have hlog : (s.advance S o len t).1.log = s.log ++ [.act .train o a] ++ [.env .train c] ++
      [.observe .train r.obs r.reward r.done (some (len + 1) == S.c.maxLen || r.needsReset)] := by
    unfold St.advance
    rw [train_actStep]
    simp [St.observe, ← ha, ← hr, ← hc]
  have hr' : (s.advance S o len t).2.1 = r := by
    unfold St.advance
    rw [train_actStep]
  have hend : (s.advance S o len t).2.2 =
      (r.done || (some (len + 1) == S.c.maxLen || r.needsReset) || t + 1 == S.c.steps) := by
    unfold St.advance
    rw [train_actStep]
  have hi : Spec.Intact S.c (s.advance S o len t).1.log := by
    rw [hlog]
    refine intact_snoc (intact_snoc (intact_snoc h.intact ⟨h.last, ?_⟩) ⟨o, ?_⟩) ⟨a, r.needsReset, ?_⟩
    · intro m hm hm0
      rw [h.since]; exact h.short m hm hm0
    · simp
    · simp [hc]
  refine ⟨hi, hf, ?_, ?_⟩
  · intro e he
    rw [hlog, List.getLast?_concat] at he
    rw [← Option.some.inj he]
    rfl
  · intro hne
    rw [hend] at hne
    simp only [Bool.or_eq_false_iff] at hne
    obtain ⟨⟨h1, h2, h3⟩, h4⟩ := hne
    rw [hr']
    have hother : ∀ e ∈ [(.observe .train r.obs r.reward r.done (some (len + 1) == S.c.maxLen || r.needsReset) :
        Event A O)], elsewhere e = true := by simp [elsewhere]
    refine ⟨hi, ⟨c, ?_, rfl, ?_⟩, ?_, ?_, hf⟩
    · rw [hlog, lastCall_append _ _ hother, lastCall_env]
    · rw [hc]; simp [Spec.goesOn, h1, h3]
    · rw [hlog, sinceReset_append _ _ hother]
      have : Spec.sinceReset (s.log ++ [.act .train o a] ++ [.env .train c]) =
          Spec.sinceReset (s.log ++ [.act .train o a]) + 1 := by
        unfold Spec.sinceReset
        rw [List.foldl_append]
        rfl
      rw [this, sinceReset_append _ _ (by simp [elsewhere]), h.since]
    · intro m hm hm0
      have := h.short m hm hm0
      rw [hm] at h2
      have h5 : len + 1 ≠ m := by
        intro hc
        simp [hc] at h2
      omega

theorem fresh_save {S : Setup σ α η A O} {env : σ} {s : St σ α η A O} {o : O} {len : Nat}
    (h : Fresh S env s o len) (t : Nat) (x : Suffix) : Fresh S env (s.save t x) o len := by
  have hl : ∀ e ∈ [(.save t x : Event A O)], elsewhere e = true := by simp [elsewhere]
  refine ⟨intact_append _ h.intact (by simp [plain]), ?_, ?_, h.short, append_faithful h.faithful _ rfl _ rfl hl⟩
  · unfold St.save
    rw [lastCall_append _ _ hl]
    exact h.last
  · unfold St.save
    rw [sinceReset_append _ _ hl]
    exact h.since

theorem fresh_checkpoint {S : Setup σ α η A O} {env : σ} {s : St σ α η A O} {o : O} {len : Nat}
    (h : Fresh S env s o len) (t : Nat) : Fresh S env (s.checkpoint S t) o len := by
  unfold St.checkpoint
  split
  · exact fresh_save h t _
  · exact h

theorem intact_save {S : Setup σ α η A O} {env : σ} {s : St σ α η A O} (hi : Spec.Intact S.c s.log)
    (hf : Faithful S env s) (t : Nat) (x : Suffix) :
    Spec.Intact S.c (s.save t x).log ∧ Faithful S env (s.save t x) :=
  ⟨intact_append _ hi (by simp [plain]), append_faithful hf _ rfl _ rfl (by simp [elsewhere])⟩

/-- An evaluation on a separate environment does not disturb the training. -/
theorem fresh_evaluated {S : Setup σ α η A O} (hg : Spec.positive S.c.goal) {env : σ} {s s' : St σ α η A O} {o : O}
    {len t idx : Nat} {le lr : List (Event A O)} (h : Fresh S env s o len) (hs : S.c.shared = false)
    (he : Evaluated S s s' t idx le lr)
    (hlast : ∀ e, s.log.getLast? = some e → Spec.ofEvaluation S.c.shared e = false) : Fresh S env s' o len := by
  have hl : ∀ e ∈ le ++ lr, elsewhere e = true := by
    intro e hm
    rcases List.mem_append.mp hm with hm | hm
    · have := he.evs e hm
      rw [hs] at this
      cases e with
      | env w c => cases w <;> exact absurd this (by simp [Spec.ofEvaluation])
      | _ => rfl
    · rcases he.recs with hr | ⟨m, lr', hr, hlr, -⟩
      · rw [hr] at hm; simp at hm
      · rw [hr] at hm
        rcases List.mem_cons.mp hm with hm | hm
        · subst hm; rfl
        · exact elsewhere_record (hlr e hm).1
  refine ⟨intact_evaluated hg he h.intact hlast, ?_, ?_, h.short, he.faithful env h.faithful⟩
  · rw [he.log, lastCall_append _ _ hl]
    exact h.last
  · rw [he.log, sinceReset_append _ _ hl]
    exact h.since

theorem trainLoop_intact (S : Setup σ α η A O) (hg : Spec.positive S.c.goal)
    (hs : (S.c.shared && S.c.evalDuring) = false) (env : σ) (fuelE : Nat) :
    ∀ (fuel : Nat) (s : St σ α η A O) (o : O) (len idx t : Nat) (history : List ℚ), Fresh S env s o len →
      Spec.Intact S.c (trainLoop S fuelE fuel s o len idx t history).1.log ∧
      Faithful S env (trainLoop S fuelE fuel s o len idx t history).1
  | 0, s, o, len, idx, t, history, h => intact_save h.intact h.faithful _ _
  | fuel + 1, s, o, len, idx, t, history, h => by
    unfold trainLoop
    split
    case isFalse => exact intact_save h.intact h.faithful _ _
    obtain ⟨a1, a2, a3, a4⟩ := fresh_advance h t
    simp only []
    set x := s.advance S o len t with hx
    generalize hidx : (if x.2.2 = true then idx + 1 else idx) = idx'
    have hy : ∃ le lr, Evaluated S x.1 (if (S.c.evaluator && (x.2.2 || S.c.evalDuring)) = true then
        evaluateIfNecessary S fuelE x.1 (t + 1) idx' else (x.1, .notDue)).1 (t + 1) idx' le lr := by
      split
      · exact evaluateIfNecessary_evaluated S fuelE x.1 (t + 1) idx'
      · exact ⟨[], [], by simp, by simp, .inl rfl, fun _ => rfl, fun _ h => h, fun _ _ _ => rfl⟩
    have hquiet : x.2.2 = false → S.c.shared = true → (if (S.c.evaluator && (x.2.2 || S.c.evalDuring)) = true then
        evaluateIfNecessary S fuelE x.1 (t + 1) idx' else (x.1, .notDue)).1 = x.1 := by
      intro h1 h2
      rw [h2, Bool.true_and] at hs
      rw [h1, hs]
      simp
    generalize (if (S.c.evaluator && (x.2.2 || S.c.evalDuring)) = true then
        evaluateIfNecessary S fuelE x.1 (t + 1) idx' else (x.1, .notDue)) = y at hy hquiet
    obtain ⟨le, lr, hy⟩ := hy
    have hi := intact_evaluated hg hy a1 a3
    have hf := hy.faithful env a2
    have hrest : ∀ history', Spec.Intact S.c (if (S.c.evaluator && (x.2.2 || S.c.evalDuring) && y.1.successful S) = true then
          (y.1.save (t + 1) .finish, Outcome.finished history')
        else if x.2.2 = true then
          if t + 1 = S.c.steps then (y.1.save (t + 1) .finish, Outcome.finished history')
          else trainLoop S fuelE fuel ((y.1.reset S .train).1.checkpoint S (t + 1)) (y.1.reset S .train).2 0 idx'
            (t + 1) history'
        else trainLoop S fuelE fuel (y.1.checkpoint S (t + 1)) x.2.1.obs (len + 1) idx' (t + 1) history').1.log ∧
        Faithful S env (if (S.c.evaluator && (x.2.2 || S.c.evalDuring) && y.1.successful S) = true then
          (y.1.save (t + 1) .finish, Outcome.finished history')
        else if x.2.2 = true then
          if t + 1 = S.c.steps then (y.1.save (t + 1) .finish, Outcome.finished history')
          else trainLoop S fuelE fuel ((y.1.reset S .train).1.checkpoint S (t + 1)) (y.1.reset S .train).2 0 idx'
            (t + 1) history'
        else trainLoop S fuelE fuel (y.1.checkpoint S (t + 1)) x.2.1.obs (len + 1) idx' (t + 1) history').1 := by
      intro history'
      split
      · exact intact_save hi hf _ _
      · split
        · split
          · exact intact_save hi hf _ _
          · exact trainLoop_intact S hg hs env fuelE fuel _ _ _ _ _ _ (fresh_checkpoint (fresh_reset hi hf) _)
        · next hne =>
          have hne' : x.2.2 = false := by simpa using hne
          refine trainLoop_intact S hg hs env fuelE fuel _ _ _ _ _ _ (fresh_checkpoint ?_ _)
          cases hsh : S.c.shared with
          | false => exact fresh_evaluated hg (a4 hne') hsh hy a3
          | true =>
            rw [hquiet hne' hsh]
            exact a4 hne'
    cases hv : y.2 with
    | stuck => exact ⟨hi, hf⟩
    | raised => exact intact_save hi hf _ _
    | notDue => exact hrest _
    | scored m => exact hrest _

/-- What the outputs of the evaluations are, at the end of a training that goes on from a state. -/
def Ending (S : Setup σ α η A O) (maxScore : ℚ) (hooks : η) (recs : List (Event A O)) (t : Nat) (history : List ℚ)
    (r : St σ α η A O × Outcome) : Prop :=
  match r.2 with
  | .finished h => ∃ evs : List Spec.Evaluation, h = history ++ evs.map (·.mean) ∧
      records r.1.log = recs ++ Spec.blocks S.hooks.length S.c.saveBest maxScore evs ∧
      Spec.callAll S.hooks evs hooks = some r.1.hooks ∧ (∀ e ∈ evs, t < e.t) ∧ evs.Pairwise (fun a b => a.t < b.t) ∧
      ∃ T, r.1.log.getLast? = some (.save T .finish)
  | .raised => ∃ (evs : List Spec.Evaluation) (e : Spec.Evaluation) (j : Nat) (h : Hook η) (x y : η),
      records r.1.log = recs ++ Spec.blocks S.hooks.length S.c.saveBest maxScore evs ++
        (.scores e.t e.episodes e.mean :: (List.range (j + 1)).map fun k => .hook k e.t e.mean) ∧
      Spec.callAll S.hooks evs hooks = some x ∧ S.hooks[j]? = some h ∧
      Spec.callHooks e.t e.mean (S.hooks.take j) x = some y ∧ h.call y e.t e.mean = (r.1.hooks, true) ∧
      (∀ e ∈ evs, t < e.t) ∧ evs.Pairwise (fun a b => a.t < b.t) ∧ (∀ d ∈ evs, d.t < e.t) ∧ t < e.t ∧
      r.1.log.getLast? = some (.save e.t .except)
  | .stuck => ∃ evs : List Spec.Evaluation,
      records r.1.log = recs ++ Spec.blocks S.hooks.length S.c.saveBest maxScore evs ∧
      Spec.callAll S.hooks evs hooks = some r.1.hooks ∧ (∀ e ∈ evs, t < e.t) ∧ evs.Pairwise (fun a b => a.t < b.t)

theorem Ending.mono {S : Setup σ α η A O} {maxScore : ℚ} {hooks : η} {recs : List (Event A O)} {t : Nat}
    {history : List ℚ} {r : St σ α η A O × Outcome} (h : Ending S maxScore hooks recs (t + 1) history r) :
    Ending S maxScore hooks recs t history r := by
  unfold Ending at *
  split at h
  · obtain ⟨evs, h1, h2, h3, h4, h5⟩ := h
    exact ⟨evs, h1, h2, h3, fun e he => Nat.lt_of_succ_lt (h4 e he), h5⟩
  · obtain ⟨evs, e, j, hh, x, y, h1, h2, h3, h4, h5, h6, h7, h8, h9, h10⟩ := h
    exact ⟨evs, e, j, hh, x, y, h1, h2, h3, h4, h5, fun e he => Nat.lt_of_succ_lt (h6 e he), h7, h8,
      Nat.lt_of_succ_lt h9, h10⟩
  · obtain ⟨evs, h1, h2, h3, h4⟩ := h
    exact ⟨evs, h1, h2, fun e he => Nat.lt_of_succ_lt (h3 e he), h4⟩

theorem Ending.cons {S : Setup σ α η A O} {maxScore : ℚ} {hooks hooks' : η} {recs : List (Event A O)} {t idx : Nat}
    {m : ℚ} {history : List ℚ} {r : St σ α η A O × Outcome} (hc : Spec.callHooks (t + 1) m S.hooks hooks = some hooks')
    (h : Ending S (max maxScore m) hooks' (recs ++ Spec.block S.hooks.length
      (S.c.saveBest && decide (maxScore < m)) ⟨t + 1, idx, m⟩) (t + 1) (history ++ [m]) r) :
    Ending S maxScore hooks recs t history r := by
  unfold Ending at *
  have hmem : ∀ evs : List Spec.Evaluation, (∀ e ∈ evs, t + 1 < e.t) →
      ∀ e ∈ (⟨t + 1, idx, m⟩ :: evs : List Spec.Evaluation), t < e.t := by
    intro evs h e he
    rcases List.mem_cons.mp he with he | he
    · subst he; exact Nat.lt_succ_self t
    · exact Nat.lt_of_succ_lt (h e he)
  split at h
  · obtain ⟨evs, h1, h2, h3, h4, h5, h6⟩ := h
    refine ⟨⟨t + 1, idx, m⟩ :: evs, ?_, ?_, ?_, hmem evs h4, List.pairwise_cons.mpr ⟨h4, h5⟩, h6⟩
    · rw [h1]; simp
    · rw [h2, Spec.blocks, List.append_assoc]
    · rw [Spec.callAll, hc]; exact h3
  · obtain ⟨evs, e, j, hh, x, y, h1, h2, h3, h4, h5, h6, h7, h8, h9, h10⟩ := h
    refine ⟨⟨t + 1, idx, m⟩ :: evs, e, j, hh, x, y, ?_, ?_, h3, h4, h5, hmem evs h6, List.pairwise_cons.mpr ⟨h6, h7⟩,
      ?_, Nat.lt_of_succ_lt h9, h10⟩
    · rw [h1, Spec.blocks]; simp
    · rw [Spec.callAll, hc]; exact h2
    · intro d hd
      rcases List.mem_cons.mp hd with hd | hd
      · subst hd; exact h9
      · exact h8 d hd
  · obtain ⟨evs, h1, h2, h3, h4⟩ := h
    refine ⟨⟨t + 1, idx, m⟩ :: evs, ?_, ?_, hmem evs h3, List.pairwise_cons.mpr ⟨h3, h4⟩⟩
    · rw [h1, Spec.blocks, List.append_assoc]
    · rw [Spec.callAll, hc]; exact h2

theorem ending_finish (S : Setup σ α η A O) (s : St σ α η A O) (t T : Nat) (history : List ℚ) :
    Ending S s.maxScore s.hooks (records s.log) t history (s.save T .finish, .finished history) := by
  refine ⟨[], by simp, ?_, rfl, by simp, by simp, T, ?_⟩
  · simp [St.save, records, Spec.isRecord, Spec.blocks]
  · simp [St.save]

theorem advance_keeps (S : Setup σ α η A O) (s : St σ α η A O) (o : O) (len t : Nat) :
    (s.advance S o len t).1.maxScore = s.maxScore ∧ (s.advance S o len t).1.hooks = s.hooks ∧
      records (s.advance S o len t).1.log = records s.log := by
  unfold St.advance
  rw [train_actStep]
  refine ⟨rfl, rfl, ?_⟩
  simp [St.observe, records, Spec.isRecord]

theorem reset_keeps (S : Setup σ α η A O) (s : St σ α η A O) :
    (s.reset S .train).1.maxScore = s.maxScore ∧ (s.reset S .train).1.hooks = s.hooks ∧
      records (s.reset S .train).1.log = records s.log := by
  rw [train_reset]
  refine ⟨rfl, rfl, ?_⟩
  simp [records, Spec.isRecord]

theorem checkpoint_keeps (S : Setup σ α η A O) (s : St σ α η A O) (t : Nat) :
    (s.checkpoint S t).maxScore = s.maxScore ∧ (s.checkpoint S t).hooks = s.hooks ∧
      records (s.checkpoint S t).log = records s.log := by
  unfold St.checkpoint
  split
  · refine ⟨rfl, rfl, ?_⟩
    simp [St.save, records, Spec.isRecord]
  · exact ⟨rfl, rfl, rfl⟩

theorem evaluateIfNecessary_cases (S : Setup σ α η A O) (fuel : Nat) (s : St σ α η A O) (t idx : Nat) :
    (evaluateIfNecessary S fuel s t idx = (s, .notDue)) ∨
    (evaluateIfNecessary S fuel s t idx = evaluate S fuel s t idx ∧ ∀ m, (evaluate S fuel s t idx).2 ≠ .scored m) ∨
    (∃ m p, (evaluate S fuel s t idx).2 = .scored m ∧
      evaluateIfNecessary S fuel s t idx = ({ (evaluate S fuel s t idx).1 with prevEval := p }, .scored m)) := by
  unfold evaluateIfNecessary
  split
  · right
    simp only []
    cases hv : (evaluate S fuel s t idx).2 with
    | scored m => exact .inr ⟨m, _, rfl, rfl⟩
    | notDue => exact .inl ⟨Prod.ext rfl hv.symm, by simp⟩
    | raised => exact .inl ⟨Prod.ext rfl hv.symm, by simp⟩
    | stuck => exact .inl ⟨Prod.ext rfl hv.symm, by simp⟩
  · exact .inl rfl

theorem trainLoop_ending (S : Setup σ α η A O) (fuelE : Nat) :
    ∀ (fuel : Nat) (s : St σ α η A O) (o : O) (len idx t : Nat) (history : List ℚ),
      Ending S s.maxScore s.hooks (records s.log) t history (trainLoop S fuelE fuel s o len idx t history)
  | 0, s, o, len, idx, t, history => ending_finish S s t t history
  | fuel + 1, s, o, len, idx, t, history => by
    unfold trainLoop
    split
    case isFalse => exact ending_finish S s t t history
    obtain ⟨a1, a2, a3⟩ := advance_keeps S s o len t
    simp only []
    set x := s.advance S o len t with hx
    generalize hidx : (if x.2.2 = true then idx + 1 else idx) = idx'
    have hgo : ∀ (s' : St σ α η A O) history', Ending S s'.maxScore s'.hooks (records s'.log) (t + 1) history'
        (if (S.c.evaluator && (x.2.2 || S.c.evalDuring) && s'.successful S) = true then
          (s'.save (t + 1) .finish, Outcome.finished history')
        else if x.2.2 = true then
          if t + 1 = S.c.steps then (s'.save (t + 1) .finish, Outcome.finished history')
          else trainLoop S fuelE fuel ((s'.reset S .train).1.checkpoint S (t + 1)) (s'.reset S .train).2 0 idx'
            (t + 1) history'
        else trainLoop S fuelE fuel (s'.checkpoint S (t + 1)) x.2.1.obs (len + 1) idx' (t + 1) history') := by
      intro s' history'
      split
      · exact ending_finish S s' _ _ _
      · split
        · split
          · exact ending_finish S s' _ _ _
          · have h := trainLoop_ending S fuelE fuel ((s'.reset S .train).1.checkpoint S (t + 1)) (s'.reset S .train).2 0 idx'
              (t + 1) history'
            obtain ⟨b1, b2, b3⟩ := checkpoint_keeps S (s'.reset S .train).1 (t + 1)
            obtain ⟨c1, c2, c3⟩ := reset_keeps S s'
            rw [b1, b2, b3, c1, c2, c3] at h
            exact h
        · have h := trainLoop_ending S fuelE fuel (s'.checkpoint S (t + 1)) x.2.1.obs (len + 1) idx' (t + 1) history'
          obtain ⟨b1, b2, b3⟩ := checkpoint_keeps S s' (t + 1)
          rw [b1, b2, b3] at h
          exact h
    by_cases hask : (S.c.evaluator && (x.2.2 || S.c.evalDuring)) = true
    · rw [if_pos hask]
      rcases evaluateIfNecessary_cases S fuelE x.1 (t + 1) idx' with he | ⟨he, hns⟩ | ⟨m, p, hm, he⟩
      · rw [he]
        have := (hgo x.1 history).mono
        rw [a1, a2, a3] at this
        exact this
      · rw [he]
        obtain ⟨-, hsp⟩ := evaluate_spec S fuelE x.1 (t + 1) idx'
        rcases hsp with ⟨m, hm, -⟩ | ⟨hv, m, j, h, y, e1, e2, e3, e4⟩ | ⟨hv, e1, e2⟩
        · exact absurd hm (hns m)
        · rw [hv]
          rw [a3] at e1
          rw [a2] at e3
          refine ⟨[], ⟨t + 1, idx', m⟩, j, h, s.hooks, y, ?_, rfl, e2, e3, e4, by simp, by simp, by simp,
            Nat.lt_succ_self t, ?_⟩
          · simp only [St.save, records_append, Spec.blocks, List.append_nil]
            rw [e1]
            simp [records, Spec.isRecord]
          · simp [St.save]
        · rw [hv]
          refine ⟨[], ?_, ?_, by simp, by simp⟩
          · simp only [Spec.blocks, List.append_nil]
            rw [e1, a3]
          · rw [e2, a2]; rfl
      · rw [he]
        obtain ⟨-, hsp⟩ := evaluate_spec S fuelE x.1 (t + 1) idx'
        rcases hsp with ⟨m', hm', e1, e2, e3⟩ | ⟨hv, -⟩ | ⟨hv, -⟩
        · have hmm : m' = m := by
            rw [hm] at hm'
            exact (Verdict.scored.inj hm').symm
          subst hmm
          have h : ∀ r, Ending S (evaluate S fuelE x.1 (t + 1) idx').1.maxScore (evaluate S fuelE x.1 (t + 1) idx').1.hooks
              (records (evaluate S fuelE x.1 (t + 1) idx').1.log) (t + 1) (history ++ [m']) r →
              Ending S (max s.maxScore m') (evaluate S fuelE x.1 (t + 1) idx').1.hooks (records s.log ++
                Spec.block S.hooks.length (S.c.saveBest && decide (s.maxScore < m')) ⟨t + 1, idx', m'⟩) (t + 1)
                (history ++ [m']) r := by
            intro r hr
            rw [e1, e2, a1, a3] at hr
            exact hr
          rw [a2] at e3
          exact Ending.cons e3 (h _ (hgo { (evaluate S fuelE x.1 (t + 1) idx').1 with prevEval := p } (history ++ [m'])))
        · rw [hm] at hv; exact absurd hv (by simp)
        · rw [hm] at hv; exact absurd hv (by simp)
    · rw [if_neg hask]
      have := (hgo x.1 history).mono
      rw [a1, a2, a3] at this
      exact this

/-- The same training without an evaluator: `train_agent` with `evaluator=None`. -/
def Spec.without (S : Setup σ α η A O) : Setup σ α η A O := { S with c := { S.c with evaluator := false } }

/-- What the agent does in training depends only on a part of its state, and evaluations do not change that part. -/
structure Spec.Separate {τ : Type} (ag : Agent α A O) (view : α → τ) : Prop where
  eval_act : ∀ a o, view (ag.act .eval a o).1 = view a
  eval_observe : ∀ a o r d x, view (ag.observe .eval a o r d x) = view a
  train_act : ∀ a b o, view a = view b →
    (ag.act .train a o).2 = (ag.act .train b o).2 ∧ view (ag.act .train a o).1 = view (ag.act .train b o).1
  train_observe : ∀ a b o r d x, view a = view b →
    view (ag.observe .train a o r d x) = view (ag.observe .train b o r d x)

theorem training_append (l l2 : List (Event A O)) :
    Spec.training (l ++ l2) = Spec.training l ++ Spec.training l2 := List.filter_append l l2

/-- Two trainings are in corresponding states. -/
structure Sim {τ : Type} (view : α → τ) (s s' : St σ α η A O) : Prop where
  env : s.env = s'.env
  view : view s.agent = view s'.agent
  log : Spec.training s.log = Spec.training s'.log

theorem advance_sim {τ : Type} {view : α → τ} {S : Setup σ α η A O} (hv : Spec.Separate S.agent view)
    {s s' : St σ α η A O} (h : Sim view s s') (o : O) (len t : Nat) :
    Sim view (s.advance S o len t).1 (s'.advance (Spec.without S) o len t).1 ∧
      (s.advance S o len t).2 = (s'.advance (Spec.without S) o len t).2 := by
  obtain ⟨h1, h2⟩ := hv.train_act s.agent s'.agent o h.view
  have e1 := train_actStep S s o
  have e2 := train_actStep (Spec.without S) s' o
  rw [show (Spec.without S).agent = S.agent from rfl, show (Spec.without S).env = S.env from rfl, ← h1, ← h.env] at e2
  unfold St.advance
  rw [e1, e2]
  refine ⟨⟨rfl, ?_, ?_⟩, rfl⟩
  · exact hv.train_observe _ _ _ _ _ _ h2
  · change Spec.training ((s.log ++ _) ++ _) = Spec.training ((s'.log ++ _) ++ _)
    rw [training_append, training_append, training_append, training_append, h.log]
    rfl

theorem reset_sim {τ : Type} {view : α → τ} {S : Setup σ α η A O}
    {s s' : St σ α η A O} (h : Sim view s s') :
    Sim view (s.reset S .train).1 (s'.reset (Spec.without S) .train).1 ∧
      (s.reset S .train).2 = (s'.reset (Spec.without S) .train).2 := by
  rw [train_reset, train_reset]
  change Sim view _ { s' with env := (S.env.reset s'.env).1, log := s'.log ++ [.env .train (.reset (S.env.reset s'.env).2)] } ∧ (S.env.reset s.env).2 = (S.env.reset s'.env).2
  rw [← h.env]
  refine ⟨⟨rfl, h.view, ?_⟩, rfl⟩
  change Spec.training (s.log ++ _) = Spec.training (s'.log ++ _)
  rw [training_append, training_append, h.log]

theorem save_sim {τ : Type} {view : α → τ} {s s' : St σ α η A O} (h : Sim view s s') (t t' : Nat) (x x' : Suffix) :
    Sim view (s.save t x) (s'.save t' x') := by
  refine ⟨h.env, h.view, ?_⟩
  change Spec.training (s.log ++ _) = Spec.training (s'.log ++ _)
  rw [training_append, training_append, h.log]
  rfl

theorem checkpoint_sim {τ : Type} {view : α → τ} {S : Setup σ α η A O} {s s' : St σ α η A O} (h : Sim view s s')
    (t : Nat) : Sim view (s.checkpoint S t) (s'.checkpoint (Spec.without S) t) := by
  unfold St.checkpoint
  change Sim view (if S.c.checkpointFreq ≠ 0 ∧ t % S.c.checkpointFreq = 0 then _ else s)
    (if S.c.checkpointFreq ≠ 0 ∧ t % S.c.checkpointFreq = 0 then _ else s')
  split
  · exact save_sim h _ _ _ _
  · exact h

theorem evaluated_sim {τ : Type} {view : α → τ} {S : Setup σ α η A O} (hv : Spec.Separate S.agent view)
    (hs : S.c.shared = false) {s s' s2 : St σ α η A O} {t idx : Nat} {le lr : List (Event A O)} (h : Sim view s s')
    (he : Evaluated S s s2 t idx le lr) : Sim view s2 s' := by
  refine ⟨(he.env hs).trans h.env, (he.view view hv.eval_act hv.eval_observe).trans h.view, ?_⟩
  rw [he.log, training_append, h.log]
  have : Spec.training (le ++ lr) = [] := by
    unfold Spec.training
    rw [List.filter_eq_nil_iff]
    intro e hm
    rcases List.mem_append.mp hm with hm | hm
    · have := he.evs e hm
      cases e with
      | env w c => cases w with
        | train => exact absurd this (by simp [Spec.ofEvaluation])
        | eval => simp [Spec.ofTraining]
      | act w _ _ => cases w <;> simp_all [Spec.ofEvaluation, Spec.ofTraining]
      | observe w _ _ _ _ => cases w <;> simp_all [Spec.ofEvaluation, Spec.ofTraining]
      | _ => simp [Spec.ofTraining]
    · rcases he.recs with hr | ⟨m, lr', hr, hlr, -⟩
      · rw [hr] at hm; simp at hm
      · rw [hr] at hm
        rcases List.mem_cons.mp hm with hm | hm
        · subst hm; simp [Spec.ofTraining]
        · have := (hlr e hm).1
          cases e <;> simp_all [Spec.isRecord, Spec.ofTraining]
  rw [this, List.append_nil]

theorem advance_prefix (S : Setup σ α η A O) (s : St σ α η A O) (o : O) (len t : Nat) :
    s.log <+: (s.advance S o len t).1.log := by
  unfold St.advance
  rw [train_actStep]
  change s.log <+: (s.log ++ _) ++ _
  rw [List.append_assoc]
  exact List.prefix_append _ _

theorem checkpoint_prefix (S : Setup σ α η A O) (s : St σ α η A O) (t : Nat) : s.log <+: (s.checkpoint S t).log := by
  unfold St.checkpoint
  split
  · exact List.prefix_append _ _
  · exact List.prefix_rfl

theorem reset_prefix (S : Setup σ α η A O) (s : St σ α η A O) : s.log <+: (s.reset S .train).1.log := by
  rw [train_reset]
  exact List.prefix_append _ _

/-- The loop without an evaluator. -/
theorem without_loop (S : Setup σ α η A O) (fuelE fuel : Nat) (s : St σ α η A O) (o : O) (len idx t : Nat)
    (history : List ℚ) :
    trainLoop (Spec.without S) fuelE (fuel + 1) s o len idx t history =
      if t < S.c.steps then
        if (s.advance (Spec.without S) o len t).2.2 = true then
          if t + 1 = S.c.steps then ((s.advance (Spec.without S) o len t).1.save (t + 1) .finish, .finished history)
          else trainLoop (Spec.without S) fuelE fuel
            (((s.advance (Spec.without S) o len t).1.reset (Spec.without S) .train).1.checkpoint (Spec.without S) (t + 1))
            ((s.advance (Spec.without S) o len t).1.reset (Spec.without S) .train).2 0 (idx + 1) (t + 1) history
        else trainLoop (Spec.without S) fuelE fuel
          ((s.advance (Spec.without S) o len t).1.checkpoint (Spec.without S) (t + 1))
          (s.advance (Spec.without S) o len t).2.1.obs (len + 1) idx (t + 1) history
      else (s.save t .finish, .finished history) := by
  rw [trainLoop]
  have hc : (Spec.without S).c.evaluator = false := rfl
  simp only [hc, Bool.false_and, Bool.false_eq_true, if_false]
  have hst : (Spec.without S).c.steps = S.c.steps := rfl
  rw [hst]
  split
  · split <;> simp_all
  · rfl

theorem without_prefix (S : Setup σ α η A O) (fuelE : Nat) : ∀ (fuel : Nat) (s : St σ α η A O) (o : O) (len idx t : Nat)
    (history : List ℚ), s.log <+: (trainLoop (Spec.without S) fuelE fuel s o len idx t history).1.log
  | 0, s, _, _, _, _, _ => List.prefix_append _ _
  | fuel + 1, s, o, len, idx, t, history => by
    rw [without_loop]
    split
    · refine (advance_prefix (Spec.without S) s o len t).trans ?_
      split
      · split
        · exact List.prefix_append _ _
        · exact ((reset_prefix (Spec.without S) _).trans (checkpoint_prefix (Spec.without S) _ _)).trans
            (without_prefix S fuelE fuel _ _ _ _ _ _)
      · exact (checkpoint_prefix (Spec.without S) _ _).trans (without_prefix S fuelE fuel _ _ _ _ _ _)
    · exact List.prefix_append _ _

theorem trainLoop_sim {τ : Type} {view : α → τ} (S : Setup σ α η A O) (hv : Spec.Separate S.agent view)
    (hs : S.c.shared = false) (fuelE : Nat) : ∀ (fuel : Nat) (s s' : St σ α η A O) (o : O) (len idx t : Nat)
    (history history' : List ℚ), Sim view s s' →
    Spec.training (trainLoop S fuelE fuel s o len idx t history).1.log <+:
      Spec.training (trainLoop (Spec.without S) fuelE fuel s' o len idx t history').1.log ∧
    (∀ h, (trainLoop S fuelE fuel s o len idx t history).2 = .finished h →
      (trainLoop S fuelE fuel s o len idx t history).1.successful S = false →
      Sim view (trainLoop S fuelE fuel s o len idx t history).1
        (trainLoop (Spec.without S) fuelE fuel s' o len idx t history').1)
  | 0, s, s', o, len, idx, t, history, history', h => by
    have := save_sim h t t .finish .finish
    refine ⟨?_, fun _ _ _ => this⟩
    exact this.log ▸ List.prefix_rfl
  | fuel + 1, s, s', o, len, idx, t, history, history', h => by
    have hstop : ∀ (s s' : St σ α η A O) (t t' : Nat) (x x' : Suffix), Sim view s s' →
        Spec.training (s.save t x).log <+: Spec.training (s'.save t' x').log := by
      intro s s' t t' x x' h
      exact (save_sim h t t' x x').log ▸ List.prefix_rfl
    rw [without_loop, show trainLoop S fuelE (fuel + 1) s o len idx t history = _ from trainLoop.eq_2 ..]
    split
    case isFalse =>
      exact ⟨hstop _ _ _ _ _ _ h, fun _ _ _ => save_sim h _ _ _ _⟩
    obtain ⟨b1, b2⟩ := advance_sim hv h o len t
    have hpre : Spec.training (s'.advance (Spec.without S) o len t).1.log <+: Spec.training
        (if (s'.advance (Spec.without S) o len t).2.2 = true then
          if t + 1 = S.c.steps then ((s'.advance (Spec.without S) o len t).1.save (t + 1) .finish, .finished history')
          else trainLoop (Spec.without S) fuelE fuel
            (((s'.advance (Spec.without S) o len t).1.reset (Spec.without S) .train).1.checkpoint (Spec.without S) (t + 1))
            ((s'.advance (Spec.without S) o len t).1.reset (Spec.without S) .train).2 0 (idx + 1) (t + 1) history'
        else trainLoop (Spec.without S) fuelE fuel
          ((s'.advance (Spec.without S) o len t).1.checkpoint (Spec.without S) (t + 1))
          (s'.advance (Spec.without S) o len t).2.1.obs (len + 1) idx (t + 1) history').1.log := by
      refine List.IsPrefix.filter _ ?_
      split
      · split
        · exact List.prefix_append _ _
        · exact ((reset_prefix (Spec.without S) _).trans (checkpoint_prefix (Spec.without S) _ _)).trans
            (without_prefix S fuelE fuel _ _ _ _ _ _)
      · exact (checkpoint_prefix (Spec.without S) _ _).trans (without_prefix S fuelE fuel _ _ _ _ _ _)
    simp only []
    rw [← b2] at hpre ⊢
    set x := s.advance S o len t with hx
    set x' := s'.advance (Spec.without S) o len t with hx'
    generalize hidx : (if x.2.2 = true then idx + 1 else idx) = idx'
    have hy : ∃ le lr, Evaluated S x.1 (if (S.c.evaluator && (x.2.2 || S.c.evalDuring)) = true then
        evaluateIfNecessary S fuelE x.1 (t + 1) idx' else (x.1, .notDue)).1 (t + 1) idx' le lr := by
      split
      · exact evaluateIfNecessary_evaluated S fuelE x.1 (t + 1) idx'
      · exact ⟨[], [], by simp, by simp, .inl rfl, fun _ => rfl, fun _ h => h, fun _ _ _ => rfl⟩
    generalize (if (S.c.evaluator && (x.2.2 || S.c.evalDuring)) = true then
        evaluateIfNecessary S fuelE x.1 (t + 1) idx' else (x.1, .notDue)) = y at hy
    obtain ⟨le, lr, hy⟩ := hy
    have hsim := evaluated_sim hv hs b1 hy
    have hsave : ∀ t k, Spec.training (y.1.save t k).log = Spec.training x'.1.log := by
      intro t k
      have := (save_sim hsim t t k k).log
      rw [this]
      change Spec.training (x'.1.log ++ _) = _
      rw [training_append]
      exact List.append_nil _
    have hgo : ∀ hist,
        Spec.training (if (S.c.evaluator && (x.2.2 || S.c.evalDuring) && y.1.successful S) = true then
          (y.1.save (t + 1) .finish, Outcome.finished hist)
        else if x.2.2 = true then
          if t + 1 = S.c.steps then (y.1.save (t + 1) .finish, Outcome.finished hist)
          else trainLoop S fuelE fuel ((y.1.reset S .train).1.checkpoint S (t + 1)) (y.1.reset S .train).2 0 idx'
            (t + 1) hist
        else trainLoop S fuelE fuel (y.1.checkpoint S (t + 1)) x.2.1.obs (len + 1) idx' (t + 1) hist).1.log <+:
        Spec.training (if x.2.2 = true then
          if t + 1 = S.c.steps then (x'.1.save (t + 1) .finish, .finished history')
          else trainLoop (Spec.without S) fuelE fuel
            ((x'.1.reset (Spec.without S) .train).1.checkpoint (Spec.without S) (t + 1))
            (x'.1.reset (Spec.without S) .train).2 0 (idx + 1) (t + 1) history'
        else trainLoop (Spec.without S) fuelE fuel (x'.1.checkpoint (Spec.without S) (t + 1))
          x.2.1.obs (len + 1) idx (t + 1) history').1.log ∧
        ∀ h, (if (S.c.evaluator && (x.2.2 || S.c.evalDuring) && y.1.successful S) = true then
          (y.1.save (t + 1) .finish, Outcome.finished hist)
        else if x.2.2 = true then
          if t + 1 = S.c.steps then (y.1.save (t + 1) .finish, Outcome.finished hist)
          else trainLoop S fuelE fuel ((y.1.reset S .train).1.checkpoint S (t + 1)) (y.1.reset S .train).2 0 idx'
            (t + 1) hist
        else trainLoop S fuelE fuel (y.1.checkpoint S (t + 1)) x.2.1.obs (len + 1) idx' (t + 1) hist).2 = .finished h →
        (if (S.c.evaluator && (x.2.2 || S.c.evalDuring) && y.1.successful S) = true then
          (y.1.save (t + 1) .finish, Outcome.finished hist)
        else if x.2.2 = true then
          if t + 1 = S.c.steps then (y.1.save (t + 1) .finish, Outcome.finished hist)
          else trainLoop S fuelE fuel ((y.1.reset S .train).1.checkpoint S (t + 1)) (y.1.reset S .train).2 0 idx'
            (t + 1) hist
        else trainLoop S fuelE fuel (y.1.checkpoint S (t + 1)) x.2.1.obs (len + 1) idx' (t + 1) hist).1.successful S
          = false →
        Sim view (if (S.c.evaluator && (x.2.2 || S.c.evalDuring) && y.1.successful S) = true then
          (y.1.save (t + 1) .finish, Outcome.finished hist)
        else if x.2.2 = true then
          if t + 1 = S.c.steps then (y.1.save (t + 1) .finish, Outcome.finished hist)
          else trainLoop S fuelE fuel ((y.1.reset S .train).1.checkpoint S (t + 1)) (y.1.reset S .train).2 0 idx'
            (t + 1) hist
        else trainLoop S fuelE fuel (y.1.checkpoint S (t + 1)) x.2.1.obs (len + 1) idx' (t + 1) hist).1
        (if x.2.2 = true then
          if t + 1 = S.c.steps then (x'.1.save (t + 1) .finish, .finished history')
          else trainLoop (Spec.without S) fuelE fuel
            ((x'.1.reset (Spec.without S) .train).1.checkpoint (Spec.without S) (t + 1))
            (x'.1.reset (Spec.without S) .train).2 0 (idx + 1) (t + 1) history'
        else trainLoop (Spec.without S) fuelE fuel (x'.1.checkpoint (Spec.without S) (t + 1))
          x.2.1.obs (len + 1) idx (t + 1) history').1 := by
      intro hist
      by_cases hsucc : (S.c.evaluator && (x.2.2 || S.c.evalDuring) && y.1.successful S) = true
      · rw [if_pos hsucc]
        refine ⟨?_, ?_⟩
        · change Spec.training (y.1.save _ _).log <+: _
          rw [hsave]; exact hpre
        · intro h _ hf
          have : y.1.successful S = false := hf
          rw [this, Bool.and_false] at hsucc
          exact absurd hsucc (by simp)
      · rw [if_neg hsucc]
        by_cases hend : x.2.2 = true
        · rw [if_pos hend, if_pos hend]
          rw [if_pos hend] at hidx
          by_cases hT : t + 1 = S.c.steps
          · rw [if_pos hT, if_pos hT]
            exact ⟨hstop _ _ _ _ _ _ hsim, fun _ _ _ => save_sim hsim _ _ _ _⟩
          · rw [if_neg hT, if_neg hT, ← hidx]
            obtain ⟨c1, c2⟩ := reset_sim (S := S) hsim
            rw [← c2]
            exact trainLoop_sim S hv hs fuelE fuel _ _ _ _ _ _ _ _ (checkpoint_sim c1 _)
        · rw [if_neg hend, if_neg hend]
          rw [if_neg hend] at hidx
          rw [← hidx]
          exact trainLoop_sim S hv hs fuelE fuel _ _ _ _ _ _ _ _ (checkpoint_sim hsim _)
    cases hv : y.2 with
    | stuck => exact ⟨by rw [hsim.log]; exact hpre, fun h hh => absurd hh (by simp)⟩
    | raised => exact ⟨by change Spec.training (y.1.save _ _).log <+: _; rw [hsave]; exact hpre, fun h hh => absurd hh (by simp)⟩
    | notDue => exact hgo _
    | scored m => exact hgo _

/-! ### The calls on the agent -/

theorem behaves_append (ag : Agent α A O) : ∀ (l l' : List (Event A O)) (a b c : α), Spec.Behaves ag a l b →
    Spec.Behaves ag b l' c → Spec.Behaves ag a (l ++ l') c
  | [], l', a, b, c, h, h' => by
    have : a = b := h
    rw [this]; exact h'
  | e :: l, l', a, b, c, h, h' => by
    cases e with
    | act w o x => exact ⟨h.1, behaves_append ag l l' _ b c h.2 h'⟩
    | observe w o r d x => exact behaves_append ag l l' (ag.observe w a o r d x) b c h h'
    | _ => exact behaves_append ag l l' a b c h h'

theorem reset_behaves {S : Setup σ α η A O} {a : α} {s : St σ α η A O} (h : Spec.Behaves S.agent a s.log s.agent)
    (w : Who) : Spec.Behaves S.agent a (s.reset S w).1.log (s.reset S w).1.agent := by
  unfold St.reset
  split <;> exact behaves_append _ _ _ _ _ _ h rfl

theorem actStep_behaves {S : Setup σ α η A O} {a : α} {s : St σ α η A O} (h : Spec.Behaves S.agent a s.log s.agent)
    (w : Who) (o : O) : Spec.Behaves S.agent a (s.actStep S w o).1.log (s.actStep S w o).1.agent := by
  unfold St.actStep
  simp only
  split <;> exact behaves_append _ _ _ _ _ _ h ⟨rfl, rfl⟩

theorem observe_behaves {S : Setup σ α η A O} {a : α} {s : St σ α η A O} (h : Spec.Behaves S.agent a s.log s.agent)
    (w : Who) (r : Ret σ O) (x : Bool) : Spec.Behaves S.agent a (s.observe S w r x).log (s.observe S w r x).agent :=
  behaves_append _ _ _ _ _ _ h rfl

theorem evalLoop_behaves {S : Setup σ α η A O} {a : α} : ∀ (fuel : Nat) {s : St σ α η A O}
    (_ : Spec.Behaves S.agent a s.log s.agent) (o : O) (testR : ℚ) (len timestep : Nat) (scores : List ℚ),
    Spec.Behaves S.agent a (evalLoop S fuel s o testR len timestep scores).1.log
      (evalLoop S fuel s o testR len timestep scores).1.agent
  | 0, _, h, _, _, _, _, _ => h
  | fuel + 1, s, h, o, testR, len, timestep, scores => by
    have h1 := observe_behaves (actStep_behaves h .eval o) .eval (s.actStep S .eval o).2
      ((s.actStep S .eval o).2.done || some (len + 1) == S.c.evalLen || (s.actStep S .eval o).2.needsReset)
    rw [evalLoop]
    simp only
    generalize (if ((s.actStep S .eval o).2.done || some (len + 1) == S.c.evalLen ||
      (s.actStep S .eval o).2.needsReset) = true then _ else scores) = scores'
    split
    · exact h1
    · split
      · exact evalLoop_behaves fuel (reset_behaves h1 .eval) _ _ _ _ _
      · exact evalLoop_behaves fuel h1 _ _ _ _ _

theorem runHooks_behaves {ag : Agent α A O} {a : α} : ∀ (hs : List (Hook η)) (i : Nat) {s : St σ α η A O}
    (_ : Spec.Behaves ag a s.log s.agent) (t : Nat) (m : ℚ),
    Spec.Behaves ag a (runHooks hs i s t m).1.log (runHooks hs i s t m).1.agent
  | [], _, _, h, _, _ => h
  | k :: hs, i, s, h, t, m => by
    have h1 : Spec.Behaves ag a (s.log ++ [.hook i t m]) s.agent := behaves_append _ _ _ _ _ _ h rfl
    rw [runHooks]
    split
    · exact h1
    · exact runHooks_behaves hs (i + 1) (s := { s with hooks := (k.call s.hooks t m).1, log := s.log ++ [.hook i t m] }) h1 t m

theorem evaluateIfNecessary_behaves {S : Setup σ α η A O} {a : α} (fuel : Nat) {s : St σ α η A O}
    (h : Spec.Behaves S.agent a s.log s.agent) (t e : Nat) :
    Spec.Behaves S.agent a (evaluateIfNecessary S fuel s t e).1.log (evaluateIfNecessary S fuel s t e).1.agent := by
  have h0 : Spec.Behaves S.agent a (evaluate S fuel s t e).1.log (evaluate S fuel s t e).1.agent := by
    unfold evaluate
    have h1 := evalLoop_behaves fuel (reset_behaves h .eval) (s.reset S .eval).2 0 0 0 []
    simp only
    split
    · exact h1
    · next scores _ =>
      have h2 := runHooks_behaves S.hooks 0 (s := { (evalLoop S fuel (s.reset S .eval).1 (s.reset S .eval).2 0 0 0 []).1 with log := (evalLoop S fuel (s.reset S .eval).1 (s.reset S .eval).2 0 0 0 []).1.log ++ [.scores t e (mean scores)] })
        (behaves_append _ _ _ _ _ _ h1 rfl) t (mean scores)
      split
      · exact h2
      · split
        · cases S.c.saveBest with
          | true => exact behaves_append _ _ _ _ _ _ h2 rfl
          | false => exact h2
        · exact h2
  unfold evaluateIfNecessary
  split
  · simp only
    split
    · exact h0
    · exact h0
  · exact h

theorem save_behaves {ag : Agent α A O} {a : α} {s : St σ α η A O} (h : Spec.Behaves ag a s.log s.agent) (t : Nat)
    (x : Suffix) : Spec.Behaves ag a (s.save t x).log (s.save t x).agent := behaves_append _ _ _ _ _ _ h rfl

theorem checkpoint_behaves {S : Setup σ α η A O} {a : α} {s : St σ α η A O} (h : Spec.Behaves S.agent a s.log s.agent)
    (t : Nat) : Spec.Behaves S.agent a (s.checkpoint S t).log (s.checkpoint S t).agent := by
  unfold St.checkpoint
  split
  · exact save_behaves h _ _
  · exact h

theorem trainLoop_behaves {S : Setup σ α η A O} {a : α} (fuelE : Nat) : ∀ (fuel : Nat) {s : St σ α η A O}
    (_ : Spec.Behaves S.agent a s.log s.agent) (o : O) (len idx t : Nat) (history : List ℚ),
    Spec.Behaves S.agent a (trainLoop S fuelE fuel s o len idx t history).1.log
      (trainLoop S fuelE fuel s o len idx t history).1.agent
  | 0, _, h, _, _, _, _, _ => save_behaves h _ _
  | fuel + 1, s, h, o, len, idx, t, history => by
    rw [trainLoop]
    split
    · have h1 : Spec.Behaves S.agent a (s.advance S o len t).1.log (s.advance S o len t).1.agent :=
        observe_behaves (actStep_behaves h .train o) .train _ _
      simp only
      set x := s.advance S o len t with hx
      set idx' := (if x.2.2 = true then idx + 1 else idx) with hidx
      have h2 : Spec.Behaves S.agent a
          (if (S.c.evaluator && (x.2.2 || S.c.evalDuring)) = true then evaluateIfNecessary S fuelE x.1 (t + 1) idx'
            else (x.1, Verdict.notDue)).1.log
          (if (S.c.evaluator && (x.2.2 || S.c.evalDuring)) = true then evaluateIfNecessary S fuelE x.1 (t + 1) idx'
            else (x.1, Verdict.notDue)).1.agent := by
        split
        · exact evaluateIfNecessary_behaves fuelE h1 _ _
        · exact h1
      generalize (if (S.c.evaluator && (x.2.2 || S.c.evalDuring)) = true then evaluateIfNecessary S fuelE x.1 (t + 1) idx'
            else (x.1, Verdict.notDue)) = y at h2 ⊢
      split
      · exact h2
      · exact save_behaves h2 _ _
      · split
        · exact save_behaves h2 _ _
        · split
          · split
            · exact save_behaves h2 _ _
            · exact trainLoop_behaves fuelE fuel (checkpoint_behaves (reset_behaves h2 .train) _) _ _ _ _ _
          · exact trainLoop_behaves fuelE fuel (checkpoint_behaves h2 _) _ _ _ _ _
    · exact save_behaves h _ _

theorem evalCalls_append : ∀ (l l2 : List (Event A O)), Spec.evalCalls (l ++ l2) = Spec.evalCalls l ++ Spec.evalCalls l2
  | [], _ => rfl
  | e :: l, l2 => by
    cases e <;> simp [Spec.evalCalls, evalCalls_append l l2]

/-- What is kept about the evaluations. -/
structure Told (S : Setup σ α η A O) (e0 : σ) (s : St σ α η A O) : Prop where
  answers : Spec.Answers S.evalEnv e0 (Spec.evalCalls s.log) s.evalEnv
  fits : ∀ past e rest, s.log = past ++ e :: rest → Spec.EvalFits S.c.shared past e

theorem fits_snoc {b : Bool} {l : List (Event A O)} {e : Event A O}
    (h : ∀ past e rest, l = past ++ e :: rest → Spec.EvalFits b past e) (he : Spec.EvalFits b l e) :
    ∀ past x rest, l ++ [e] = past ++ x :: rest → Spec.EvalFits b past x := by
  intro past x rest hx
  rcases List.eq_nil_or_concat rest with hr | ⟨r', y, hr⟩
  · subst hr
    have h1 := List.append_inj' hx rfl
    obtain ⟨h1, h2⟩ := h1
    rw [List.cons.injEq] at h2
    rw [← h1, ← h2.1]
    exact he
  · subst hr
    have h1 : l ++ [e] = (past ++ x :: r') ++ [y] := by rw [hx]; simp
    exact h past x r' (List.append_inj' h1 rfl).1

/-- Something that puts no condition on the past of an evaluation and is not a call on its environment. -/
theorem told_snoc {S : Setup σ α η A O} {e0 : σ} {s s' : St σ α η A O} (h : Told S e0 s) (e : Event A O)
    (hl : s'.log = s.log ++ [e]) (he : s'.evalEnv = s.evalEnv) (hc : Spec.evalCalls [e] = [])
    (hf : Spec.EvalFits S.c.shared s.log e) : Told S e0 s' := by
  refine ⟨?_, ?_⟩
  · rw [hl, he, evalCalls_append, hc, List.append_nil]
    exact h.answers
  · rw [hl]
    exact fits_snoc h.fits hf

theorem told_reset {S : Setup σ α η A O} {e0 : σ} {s : St σ α η A O} (h : Told S e0 s) (w : Who) :
    Told S e0 (s.reset S w).1 ∧ (w = .eval → ∃ c, Spec.lastEval S.c.shared (s.reset S w).1.log = some c ∧
      Spec.obsOf c = (s.reset S w).2 ∧ Spec.goesOn c = true) := by
  unfold St.reset
  split
  · next hw =>
    refine ⟨⟨?_, fits_snoc h.fits hw.2⟩, fun _ => ⟨.reset (S.evalEnv.reset s.evalEnv).2, ?_, rfl, rfl⟩⟩
    · simp only [evalCalls_append, Spec.evalCalls]
      exact Spec.Answers.reset h.answers
    · simp [Spec.lastEval, hw.2]
  · next hw =>
    refine ⟨told_snoc h _ rfl rfl rfl (by
      cases w with
      | train => trivial
      | eval => simpa [Spec.EvalFits] using hw), fun h1 => ⟨.reset (S.env.reset s.env).2, ?_, rfl, rfl⟩⟩
    have h2 : S.c.shared = true := by
      by_contra hc
      exact hw ⟨h1, by simpa using hc⟩
    subst h1
    simp [Spec.lastEval, h2]

theorem told_step_eval {S : Setup σ α η A O} {e0 : σ} {s : St σ α η A O} (h : Told S e0 s) (o : O)
    (ho : ∃ c, Spec.lastEval S.c.shared s.log = some c ∧ Spec.obsOf c = o ∧ Spec.goesOn c = true) (x : Bool) :
    Told S e0 ((s.actStep S .eval o).1.observe S .eval (s.actStep S .eval o).2 x) ∧
      ∃ c, Spec.lastEval S.c.shared ((s.actStep S .eval o).1.observe S .eval (s.actStep S .eval o).2 x).log = some c ∧
        Spec.obsOf c = (s.actStep S .eval o).2.obs ∧
        Spec.goesOn c = (!(s.actStep S .eval o).2.done && !(s.actStep S .eval o).2.needsReset) := by
  have h1 : Told S e0 { s with log := s.log ++ [.act .eval o (S.agent.act .eval s.agent o).2] } :=
    told_snoc h _ rfl rfl rfl ho
  unfold St.actStep St.observe
  simp only
  split
  · next hw =>
    refine ⟨⟨?_, ?_⟩, .step (S.agent.act .eval s.agent o).2 (S.evalEnv.step s.evalEnv (S.agent.act .eval s.agent o).2).obs (S.evalEnv.step s.evalEnv (S.agent.act .eval s.agent o).2).reward (S.evalEnv.step s.evalEnv (S.agent.act .eval s.agent o).2).done (S.evalEnv.step s.evalEnv (S.agent.act .eval s.agent o).2).needsReset, ?_, rfl, rfl⟩
    · simp only [evalCalls_append, Spec.evalCalls, List.append_nil]
      exact Spec.Answers.step _ h.answers
    · have h2 := fits_snoc h1.fits (e := .evalEnv (.step (S.agent.act .eval s.agent o).2
        (S.evalEnv.step s.evalEnv (S.agent.act .eval s.agent o).2).obs
        (S.evalEnv.step s.evalEnv (S.agent.act .eval s.agent o).2).reward
        (S.evalEnv.step s.evalEnv (S.agent.act .eval s.agent o).2).done
        (S.evalEnv.step s.evalEnv (S.agent.act .eval s.agent o).2).needsReset)) ⟨hw.2, o, by simp⟩
      have h3 := fits_snoc h2 (e := .observe .eval (S.evalEnv.step s.evalEnv (S.agent.act .eval s.agent o).2).obs
        (S.evalEnv.step s.evalEnv (S.agent.act .eval s.agent o).2).reward
        (S.evalEnv.step s.evalEnv (S.agent.act .eval s.agent o).2).done x)
        ⟨(S.agent.act .eval s.agent o).2, (S.evalEnv.step s.evalEnv (S.agent.act .eval s.agent o).2).needsReset, Or.inr (by simp)⟩
      simpa using h3
    · simp [Spec.lastEval, hw.2]
  · next hw =>
    have hsh : S.c.shared = true := by
      by_contra hc
      exact hw (by simpa using hc)
    refine ⟨⟨?_, ?_⟩, .step (S.agent.act .eval s.agent o).2 (S.env.step s.env (S.agent.act .eval s.agent o).2).obs (S.env.step s.env (S.agent.act .eval s.agent o).2).reward (S.env.step s.env (S.agent.act .eval s.agent o).2).done (S.env.step s.env (S.agent.act .eval s.agent o).2).needsReset, ?_, rfl, rfl⟩
    · simp only [evalCalls_append, Spec.evalCalls, List.append_nil]
      exact h.answers
    · have h2 := fits_snoc h1.fits (e := .env .eval (.step (S.agent.act .eval s.agent o).2
        (S.env.step s.env (S.agent.act .eval s.agent o).2).obs
        (S.env.step s.env (S.agent.act .eval s.agent o).2).reward
        (S.env.step s.env (S.agent.act .eval s.agent o).2).done
        (S.env.step s.env (S.agent.act .eval s.agent o).2).needsReset)) ⟨hsh, o, by simp⟩
      have h3 := fits_snoc h2 (e := .observe .eval (S.env.step s.env (S.agent.act .eval s.agent o).2).obs
        (S.env.step s.env (S.agent.act .eval s.agent o).2).reward
        (S.env.step s.env (S.agent.act .eval s.agent o).2).done x)
        ⟨(S.agent.act .eval s.agent o).2, (S.env.step s.env (S.agent.act .eval s.agent o).2).needsReset, Or.inl (by simp)⟩
      simpa using h3
    · simp [Spec.lastEval, hsh]

theorem told_advance {S : Setup σ α η A O} {e0 : σ} {s : St σ α η A O} (h : Told S e0 s) (o : O) (len t : Nat) :
    Told S e0 (s.advance S o len t).1 := by
  have h1 : Told S e0 { s with log := s.log ++ [.act .train o (S.agent.act .train s.agent o).2] } :=
    told_snoc h _ rfl rfl rfl trivial
  unfold St.advance
  simp only [train_actStep]
  have h2 : Told S e0 { s with log := (s.log ++ [.act .train o (S.agent.act .train s.agent o).2]) ++ [.env .train (.step (S.agent.act .train s.agent o).2
        (S.env.step s.env (S.agent.act .train s.agent o).2).obs
        (S.env.step s.env (S.agent.act .train s.agent o).2).reward
        (S.env.step s.env (S.agent.act .train s.agent o).2).done
        (S.env.step s.env (S.agent.act .train s.agent o).2).needsReset)] } :=
    told_snoc h1 _ rfl rfl rfl trivial
  refine told_snoc h2 (.observe .train (S.env.step s.env (S.agent.act .train s.agent o).2).obs
        (S.env.step s.env (S.agent.act .train s.agent o).2).reward
        (S.env.step s.env (S.agent.act .train s.agent o).2).done (some (len + 1) == S.c.maxLen || (S.env.step s.env (S.agent.act .train s.agent o).2).needsReset)) ?_ rfl rfl trivial
  simp [St.observe]

theorem told_evalLoop {S : Setup σ α η A O} {e0 : σ} : ∀ (fuel : Nat) {s : St σ α η A O} (_ : Told S e0 s) (o : O)
    (_ : ∃ c, Spec.lastEval S.c.shared s.log = some c ∧ Spec.obsOf c = o ∧ Spec.goesOn c = true)
    (testR : ℚ) (len timestep : Nat) (scores : List ℚ), Told S e0 (evalLoop S fuel s o testR len timestep scores).1
  | 0, _, h, _, _, _, _, _, _ => h
  | fuel + 1, s, h, o, ho, testR, len, timestep, scores => by
    obtain ⟨h1, c, h2, h3, h4⟩ := told_step_eval h o ho
      ((s.actStep S .eval o).2.done || some (len + 1) == S.c.evalLen || (s.actStep S .eval o).2.needsReset)
    rw [evalLoop]
    simp only
    generalize (if ((s.actStep S .eval o).2.done || some (len + 1) == S.c.evalLen ||
      (s.actStep S .eval o).2.needsReset) = true then _ else scores) = scores'
    split
    · exact h1
    · split
      · obtain ⟨g1, g2⟩ := told_reset h1 .eval
        exact told_evalLoop fuel g1 _ (g2 rfl) _ _ _ _
      · next hr =>
        refine told_evalLoop fuel h1 _ ⟨c, h2, h3, ?_⟩ _ _ _ _
        rw [h4]
        simp only [Bool.or_eq_true, not_or, Bool.not_eq_true] at hr
        rw [hr.1.1, hr.2]
        rfl

theorem told_runHooks {S : Setup σ α η A O} {e0 : σ} : ∀ (hs : List (Hook η)) (i : Nat) {s : St σ α η A O}
    (_ : Told S e0 s) (t : Nat) (m : ℚ), Told S e0 (runHooks hs i s t m).1
  | [], _, _, h, _, _ => h
  | k :: hs, i, s, h, t, m => by
    have h1 : Told S e0 { s with hooks := (k.call s.hooks t m).1, log := s.log ++ [.hook i t m] } :=
      told_snoc h _ rfl rfl rfl trivial
    rw [runHooks]
    split
    · exact h1
    · exact told_runHooks hs (i + 1) h1 t m

theorem told_evaluate {S : Setup σ α η A O} {e0 : σ} (fuel : Nat) {s : St σ α η A O}
    (h : Told S e0 s) (t e : Nat) : Told S e0 (evaluateIfNecessary S fuel s t e).1 := by
  have h0 : Told S e0 (evaluate S fuel s t e).1 := by
    unfold evaluate
    obtain ⟨g1, g2⟩ := told_reset h .eval
    have h1 := told_evalLoop fuel g1 (s.reset S .eval).2 (g2 rfl) 0 0 0 []
    simp only
    split
    · exact h1
    · next scores _ =>
      have h2 := told_runHooks S.hooks 0 (s := { (evalLoop S fuel (s.reset S .eval).1 (s.reset S .eval).2 0 0 0 []).1 with log := (evalLoop S fuel (s.reset S .eval).1 (s.reset S .eval).2 0 0 0 []).1.log ++ [.scores t e (mean scores)] })
        (told_snoc h1 _ rfl rfl rfl trivial) t (mean scores)
      split
      · exact h2
      · split
        · cases S.c.saveBest with
          | true => exact told_snoc h2 .saveBest rfl rfl rfl trivial
          | false => exact ⟨h2.answers, h2.fits⟩
        · exact h2
  unfold evaluateIfNecessary
  split
  · simp only
    split
    · exact ⟨h0.answers, h0.fits⟩
    · exact h0
  · exact h

theorem told_save {S : Setup σ α η A O} {e0 : σ} {s : St σ α η A O} (h : Told S e0 s) (t : Nat)
    (x : Suffix) : Told S e0 (s.save t x) := told_snoc h _ rfl rfl rfl trivial

theorem told_checkpoint {S : Setup σ α η A O} {e0 : σ} {s : St σ α η A O} (h : Told S e0 s)
    (t : Nat) : Told S e0 (s.checkpoint S t) := by
  unfold St.checkpoint
  split
  · exact told_save h _ _
  · exact h

theorem told_trainLoop {S : Setup σ α η A O} {e0 : σ} (fuelE : Nat) : ∀ (fuel : Nat) {s : St σ α η A O}
    (_ : Told S e0 s) (o : O) (len idx t : Nat) (history : List ℚ),
    Told S e0 (trainLoop S fuelE fuel s o len idx t history).1
  | 0, _, h, _, _, _, _, _ => told_save h _ _
  | fuel + 1, s, h, o, len, idx, t, history => by
    rw [trainLoop]
    split
    · have h1 := told_advance h o len t
      simp only
      set x := s.advance S o len t with hx
      set idx' := (if x.2.2 = true then idx + 1 else idx) with hidx
      have h2 : Told S e0
          (if (S.c.evaluator && (x.2.2 || S.c.evalDuring)) = true then evaluateIfNecessary S fuelE x.1 (t + 1) idx'
            else (x.1, Verdict.notDue)).1 := by
        split
        · exact told_evaluate fuelE h1 _ _
        · exact h1
      generalize (if (S.c.evaluator && (x.2.2 || S.c.evalDuring)) = true then evaluateIfNecessary S fuelE x.1 (t + 1) idx'
            else (x.1, Verdict.notDue)) = y at h2 ⊢
      split
      · exact h2
      · exact told_save h2 _ _
      · split
        · exact told_save h2 _ _
        · split
          · split
            · exact told_save h2 _ _
            · exact told_trainLoop fuelE fuel (told_checkpoint (told_reset h2 .train).1 _) _ _ _ _ _
          · exact told_trainLoop fuelE fuel (told_checkpoint h2 _) _ _ _ _ _
    · exact told_save h _ _

/-- The training so far. -/
def Went (S : Setup σ α η A O) (s : St σ α η A O) (p : Spec.Phase A O) : Prop :=
  Spec.Path S.c.maxLen .over (Spec.training s.log) p

theorem went_other {S : Setup σ α η A O} {s s' : St σ α η A O} {p : Spec.Phase A O} (h : Went S s p) (e : Event A O)
    (hl : s'.log = s.log ++ [e]) (he : Spec.ofTraining e = false) : Went S s' p := by
  unfold Went at h ⊢
  rw [hl, training_append]
  have : Spec.training [e] = [] := by simp [Spec.training, he]
  rw [this, List.append_nil]
  exact h

theorem went_snoc {S : Setup σ α η A O} {s s' : St σ α η A O} {p q : Spec.Phase A O} (h : Went S s p) (e : Event A O)
    (hl : s'.log = s.log ++ [e]) (he : Spec.ofTraining e = true) (hn : Spec.Next S.c.maxLen p e q) : Went S s' q := by
  unfold Went at h ⊢
  rw [hl, training_append]
  have : Spec.training [e] = [e] := by simp [Spec.training, he]
  rw [this]
  exact .snoc h hn

theorem went_reset {S : Setup σ α η A O} {s : St σ α η A O} (h : Went S s .over) :
    Went S (s.reset S .train).1 (.ready (s.reset S .train).2 0) := by
  rw [train_reset]
  exact went_snoc h _ rfl rfl (.reset _)

theorem went_reset_eval {S : Setup σ α η A O} {s : St σ α η A O} {p : Spec.Phase A O} (h : Went S s p) :
    Went S (s.reset S .eval).1 p := by
  unfold St.reset
  split
  · exact went_other h _ rfl rfl
  · exact went_other h _ rfl rfl

theorem went_step_eval {S : Setup σ α η A O} {s : St σ α η A O} {p : Spec.Phase A O} (h : Went S s p) (o : O) (x : Bool) :
    Went S ((s.actStep S .eval o).1.observe S .eval (s.actStep S .eval o).2 x) p := by
  unfold Went at h ⊢
  have : Spec.training ((s.actStep S .eval o).1.observe S .eval (s.actStep S .eval o).2 x).log = Spec.training s.log := by
    unfold St.actStep St.observe
    simp only
    split <;> simp [Spec.training, Spec.ofTraining]
  rw [this]
  exact h

theorem went_advance {S : Setup σ α η A O} {s : St σ α η A O} {o : O} {len : Nat} (h : Went S s (.ready o len)) (t : Nat) :
    (Went S (s.advance S o len t).1 .over ∧ (s.advance S o len t).2.2 = true) ∨
      (Went S (s.advance S o len t).1 (.ready (s.advance S o len t).2.1.obs (len + 1)) ∧
        ((s.advance S o len t).2.2 = true → t + 1 = S.c.steps)) := by
  unfold St.advance
  simp only [train_actStep, St.observe]
  generalize hb : S.agent.act .train s.agent o = b
  generalize hr : S.env.step s.env b.2 = r
  have h1 : Went S { s with log := s.log ++ [.act .train o b.2] } (.acted len b.2) :=
    went_snoc h _ rfl rfl (.act _ _ _)
  have h2 : Went S { s with log := (s.log ++ [.act .train o b.2]) ++ [.env .train (.step b.2 r.obs r.reward r.done r.needsReset)] }
      (.stepped (len + 1) r.obs r.reward r.done r.needsReset) := went_snoc h1 _ rfl rfl (.step _ _ _ _ _ _)
  by_cases hx : r.done = true ∨ (some (len + 1) == S.c.maxLen || r.needsReset) = true
  · refine Or.inl ⟨went_snoc h2 (.observe .train r.obs r.reward r.done (some (len + 1) == S.c.maxLen || r.needsReset)) (by simp) rfl
      (.finish _ _ _ _ _ _ ?_ hx), ?_⟩
    · simp only [Bool.or_eq_true, beq_iff_eq]
      constructor
      · rintro (h | h)
        · exact Or.inr h.symm
        · exact Or.inl h
      · rintro (h | h)
        · exact Or.inr h
        · exact Or.inl h.symm
    · rcases hx with hx | hx
      · simp [hx]
      · simp [hx]
  · simp only [not_or, Bool.not_eq_true, Bool.or_eq_false_iff] at hx
    obtain ⟨x1, x2, x3⟩ := hx
    rw [x1, x3] at h2
    refine Or.inr ⟨went_snoc h2 (.observe .train r.obs r.reward false false) (by simp [x1, x2, x3]) rfl (.goOn _ _ _ ?_), ?_⟩
    · intro hm
      rw [hm] at x2
      simp at x2
    · simp [x1, x2, x3]

theorem went_evalLoop {S : Setup σ α η A O} {p : Spec.Phase A O} : ∀ (fuel : Nat) {s : St σ α η A O} (_ : Went S s p) (o : O)
    (testR : ℚ) (len timestep : Nat) (scores : List ℚ), Went S (evalLoop S fuel s o testR len timestep scores).1 p
  | 0, _, h, _, _, _, _, _ => h
  | fuel + 1, s, h, o, testR, len, timestep, scores => by
    have h1 := went_step_eval h o
      ((s.actStep S .eval o).2.done || some (len + 1) == S.c.evalLen || (s.actStep S .eval o).2.needsReset)
    rw [evalLoop]
    simp only
    generalize (if ((s.actStep S .eval o).2.done || some (len + 1) == S.c.evalLen ||
      (s.actStep S .eval o).2.needsReset) = true then _ else scores) = scores'
    split
    · exact h1
    · split
      · exact went_evalLoop fuel (went_reset_eval h1) _ _ _ _ _
      · exact went_evalLoop fuel h1 _ _ _ _ _

theorem went_runHooks {S : Setup σ α η A O} {p : Spec.Phase A O} : ∀ (hs : List (Hook η)) (i : Nat) {s : St σ α η A O}
    (_ : Went S s p) (t : Nat) (m : ℚ), Went S (runHooks hs i s t m).1 p
  | [], _, _, h, _, _ => h
  | k :: hs, i, s, h, t, m => by
    have h1 : Went S { s with hooks := (k.call s.hooks t m).1, log := s.log ++ [.hook i t m] } p :=
      went_other h _ rfl rfl
    rw [runHooks]
    split
    · exact h1
    · exact went_runHooks hs (i + 1) h1 t m

theorem went_evaluate {S : Setup σ α η A O} {p : Spec.Phase A O} (fuel : Nat) {s : St σ α η A O}
    (h : Went S s p) (t e : Nat) : Went S (evaluateIfNecessary S fuel s t e).1 p := by
  have h0 : Went S (evaluate S fuel s t e).1 p := by
    unfold evaluate
    have h1 := went_evalLoop fuel (went_reset_eval h) (s.reset S .eval).2 0 0 0 []
    simp only
    split
    · exact h1
    · next scores _ =>
      have h2 := went_runHooks S.hooks 0 (s := { (evalLoop S fuel (s.reset S .eval).1 (s.reset S .eval).2 0 0 0 []).1 with log := (evalLoop S fuel (s.reset S .eval).1 (s.reset S .eval).2 0 0 0 []).1.log ++ [.scores t e (mean scores)] })
        (went_other h1 _ rfl rfl) t (mean scores)
      split
      · exact h2
      · split
        · cases S.c.saveBest with
          | true => exact went_other h2 .saveBest rfl rfl
          | false => exact h2
        · exact h2
  unfold evaluateIfNecessary
  split
  · simp only
    split
    · exact h0
    · exact h0
  · exact h

theorem went_save {S : Setup σ α η A O} {p : Spec.Phase A O} {s : St σ α η A O} (h : Went S s p) (t : Nat)
    (x : Suffix) : Went S (s.save t x) p := went_other h _ rfl rfl

theorem went_checkpoint {S : Setup σ α η A O} {p : Spec.Phase A O} {s : St σ α η A O} (h : Went S s p)
    (t : Nat) : Went S (s.checkpoint S t) p := by
  unfold St.checkpoint
  split
  · exact went_save h _ _
  · exact h

/-- The training so far, with nothing pending. -/
def WentOn (S : Setup σ α η A O) (s : St σ α η A O) : Prop := ∃ p : Spec.Phase A O, p.Settled ∧ Went S s p

theorem WentOn.over {S : Setup σ α η A O} {s : St σ α η A O} (h : Went S s .over) : WentOn S s := ⟨.over, trivial, h⟩

theorem WentOn.ready {S : Setup σ α η A O} {s : St σ α η A O} {o : O} {len : Nat} (h : Went S s (.ready o len)) : WentOn S s :=
  ⟨.ready o len, trivial, h⟩

theorem went_trainLoop {S : Setup σ α η A O} (fuelE : Nat) : ∀ (fuel : Nat) {s : St σ α η A O} {o : O} {len : Nat}
    (_ : Went S s (.ready o len)) (idx t : Nat) (history : List ℚ),
    WentOn S (trainLoop S fuelE fuel s o len idx t history).1
  | 0, _, _, _, h, _, _, _ => .ready (went_save h _ _)
  | fuel + 1, s, o, len, h, idx, t, history => by
    rw [trainLoop]
    split
    · have h1 := went_advance h t
      simp only
      set x := s.advance S o len t with hx
      set idx' := (if x.2.2 = true then idx + 1 else idx) with hidx
      have h2 : ∀ p, Went S x.1 p → Went S
          (if (S.c.evaluator && (x.2.2 || S.c.evalDuring)) = true then evaluateIfNecessary S fuelE x.1 (t + 1) idx'
            else (x.1, Verdict.notDue)).1 p := by
        intro p hp
        split
        · exact went_evaluate fuelE hp _ _
        · exact hp
      generalize (if (S.c.evaluator && (x.2.2 || S.c.evalDuring)) = true then evaluateIfNecessary S fuelE x.1 (t + 1) idx'
            else (x.1, Verdict.notDue)) = y at h2 ⊢
      rcases h1 with ⟨h1, he⟩ | ⟨h1, he⟩
      · have h3 := h2 _ h1
        split
        · exact .over (h3)
        · exact .over (went_save h3 _ _)
        · split
          · exact .over (went_save h3 _ _)
          · split
            · exact .over (went_save h3 _ _)
            · exact went_trainLoop fuelE fuel (went_checkpoint (went_reset h3) _) _ _ _
      · have h3 := h2 _ h1
        split
        · exact .ready (h3)
        · exact .ready (went_save h3 _ _)
        · split
          · exact .ready (went_save h3 _ _)
          · split
            · next hn =>
              split
              · exact .ready (went_save h3 _ _)
              · next hq => exact absurd (he hn) hq
            · exact went_trainLoop fuelE fuel (went_checkpoint h3 _) _ _ _
    · exact .ready (went_save h _ _)

/-! ## C112 -/

/-- **C112 (the training is left alone).** However the environment, the agent and the hooks behave, with a separate
environment for evaluation or with the one of the training, at any time and at any outcome of a training with
evaluation: whenever the agent acts in training, it acts on the observation that the environment returned last, no
evaluation has called the environment since, and the episode has neither ended nor been cut; the environment gets the
action and the agent observes what came of it.  Every score that is recorded is the mean return of the episodes just
run for it.  And the calls logged are all the calls the environment of the training got, with the answers it gave, and all those the
agent got. -/
theorem training_intact (S : Setup σ α η A O) (hg : Spec.positive S.c.goal) (fuelE : Nat) (env evalEnv : σ)
    (agent : α) (hooks : η) {r : St σ α η A O × Outcome} (h : train S fuelE env evalEnv agent hooks = .ok r) :
    Spec.Intact S.c r.1.log ∧ Spec.Answers S.env env (Spec.calls r.1.log) r.1.env ∧
      Spec.Behaves S.agent agent r.1.log r.1.agent := by
  unfold train at h
  split at h
  · exact absurd h (by simp)
  · split at h
    · exact absurd h (by simp)
    · next hs =>
      split at h
      · exact absurd h (by simp)
      · rw [← Except.ok.inj h]
        have h1 := trainLoop_intact S hg (by simpa using hs) env fuelE (S.c.steps - S.c.offset) _ _ 0 0 S.c.offset []
          (fresh_reset (s := { env := env, evalEnv := evalEnv, agent := agent, hooks := hooks, prevEval := S.c.offset - S.c.offset % S.c.evalInterval, maxScore := lowest, log := [] })
            (intact_nil _) (Spec.Answers.nil env))
        exact ⟨h1.1, h1.2, trainLoop_behaves fuelE _ (reset_behaves (s := { env := env, evalEnv := evalEnv, agent := agent, hooks := hooks, prevEval := S.c.offset - S.c.offset % S.c.evalInterval, maxScore := lowest, log := [] }) (rfl : agent = agent) .train) _ _ _ _ _⟩

/-- **C112 (what a training consists of).** Leaving out what happens in evaluations, a training is this, from its beginning: the environment is
reset; the agent acts on the observation; the environment is stepped with the action; the agent observes what this returned, and
with `reset` whether the environment asked for a reset or the maximal length is reached; and so on with the new
observation, or, if and only if the episode is done or cut, with a reset.  At the end no step is left unobserved. -/
theorem training_sequence (S : Setup σ α η A O) (fuelE : Nat) (env evalEnv : σ)
    (agent : α) (hooks : η) {r : St σ α η A O × Outcome} (h : train S fuelE env evalEnv agent hooks = .ok r) :
    ∃ p : Spec.Phase A O, p.Settled ∧ Spec.Path S.c.maxLen .over (Spec.training r.1.log) p := by
  unfold train at h
  split at h
  · exact absurd h (by simp)
  · split at h
    · exact absurd h (by simp)
    · split at h
      · exact absurd h (by simp)
      · rw [← Except.ok.inj h]
        have h0 : Went S ({ env := env, evalEnv := evalEnv, agent := agent, hooks := hooks, prevEval := S.c.offset - S.c.offset % S.c.evalInterval, maxScore := lowest, log := [] } : St σ α η A O) .over :=
          Spec.Path.nil _
        exact went_trainLoop fuelE (S.c.steps - S.c.offset) (went_reset h0) 0 S.c.offset []

/-- **C112 (evaluations are what they claim to be).** Whenever the agent acts in an evaluation, it acts on the observation that the environment of
evaluations returned last, to the evaluation, in an episode that goes on; this environment gets the action and the agent
observes what came of it.  And the calls logged are all the calls that a separate environment for evaluation got, with the answers
it gave. -/
theorem evaluation_faithful (S : Setup σ α η A O) (fuelE : Nat) (env evalEnv : σ)
    (agent : α) (hooks : η) {r : St σ α η A O × Outcome} (h : train S fuelE env evalEnv agent hooks = .ok r) :
    Spec.Answers S.evalEnv evalEnv (Spec.evalCalls r.1.log) r.1.evalEnv ∧
      ∀ past e rest, r.1.log = past ++ e :: rest → Spec.EvalFits S.c.shared past e := by
  unfold train at h
  split at h
  · exact absurd h (by simp)
  · split at h
    · exact absurd h (by simp)
    · split at h
      · exact absurd h (by simp)
      · rw [← Except.ok.inj h]
        have h0 : Told S evalEnv ({ env := env, evalEnv := evalEnv, agent := agent, hooks := hooks, prevEval := S.c.offset - S.c.offset % S.c.evalInterval, maxScore := lowest, log := [] } : St σ α η A O) :=
          ⟨Spec.Answers.nil evalEnv, by simp⟩
        have h1 := told_trainLoop fuelE (S.c.steps - S.c.offset) (told_reset h0 .train).1 (St.reset S .train { env := env, evalEnv := evalEnv, agent := agent, hooks := hooks, prevEval := S.c.offset - S.c.offset % S.c.evalInterval, maxScore := lowest, log := [] }).2 0 0 S.c.offset []
        exact ⟨h1.answers, h1.fits⟩

theorem train_ending (S : Setup σ α η A O) (fuelE : Nat) (env evalEnv : σ)
    (agent : α) (hooks : η) {r : St σ α η A O × Outcome} (h : train S fuelE env evalEnv agent hooks = .ok r) :
    Ending S lowest hooks [] S.c.offset [] r := by
  unfold train at h
  split at h
  · exact absurd h (by simp)
  · split at h
    · exact absurd h (by simp)
    · split at h
      · exact absurd h (by simp)
      · rw [← Except.ok.inj h]
        have := trainLoop_ending S fuelE (S.c.steps - S.c.offset)
          (({ env := env, evalEnv := evalEnv, agent := agent, hooks := hooks, prevEval := S.c.offset - S.c.offset % S.c.evalInterval, maxScore := lowest, log := [] } : St σ α η A O).reset S .train).1
          (({ env := env, evalEnv := evalEnv, agent := agent, hooks := hooks, prevEval := S.c.offset - S.c.offset % S.c.evalInterval, maxScore := lowest, log := [] } : St σ α η A O).reset S .train).2 0 0 S.c.offset []
        obtain ⟨c1, c2, c3⟩ := reset_keeps S ({ env := env, evalEnv := evalEnv, agent := agent, hooks := hooks, prevEval := S.c.offset - S.c.offset % S.c.evalInterval, maxScore := lowest, log := [] } : St σ α η A O)
        rw [c1, c2, c3] at this
        exact this

/-- **C112 (the outputs of a training that returns).** Each evaluation writes one line, calls every hook once, in order,
with the step and the mean score, and saves the agent if asked to and if the mean is larger than all before; no hook has
raised; the scores returned are those of the evaluations in order; their steps increase; and the last thing done is to
save the final agent. -/
theorem evaluations_recorded (S : Setup σ α η A O) (fuelE : Nat) (env evalEnv : σ)
    (agent : α) (hooks : η) {s : St σ α η A O} {history : List ℚ}
    (h : train S fuelE env evalEnv agent hooks = .ok (s, .finished history)) :
    ∃ evs : List Spec.Evaluation, history = evs.map (·.mean) ∧
      s.log.filter Spec.isRecord = Spec.blocks S.hooks.length S.c.saveBest lowest evs ∧
      Spec.callAll S.hooks evs hooks = some s.hooks ∧ (∀ e ∈ evs, S.c.offset < e.t) ∧
      evs.Pairwise (fun a b => a.t < b.t) ∧ ∃ T, s.log.getLast? = some (.save T .finish) := by
  obtain ⟨evs, h1, h2, h3, h4, h5, h6⟩ := train_ending S fuelE env evalEnv agent hooks h
  exact ⟨evs, by simpa using h1, by simpa [records] using h2, h3, h4, h5, h6⟩

/-- **C112 (a hook that raises stops the training).** If a training ends by an exception of a hook, then all evaluations
before were treated as above; in the last one the line was written and the hooks up to the one that raised
were called; nothing was evaluated, no hook called and no best agent saved after that, and the last thing done is to save
the agent with the suffix of an exception, at the step of this evaluation. -/
theorem hook_stops_training (S : Setup σ α η A O) (fuelE : Nat) (env evalEnv : σ)
    (agent : α) (hooks : η) {s : St σ α η A O}
    (h : train S fuelE env evalEnv agent hooks = .ok (s, .raised)) :
    ∃ (evs : List Spec.Evaluation) (e : Spec.Evaluation) (j : Nat) (hk : Hook η) (x y : η),
      s.log.filter Spec.isRecord = Spec.blocks S.hooks.length S.c.saveBest lowest evs ++
        (.scores e.t e.episodes e.mean :: (List.range (j + 1)).map fun k => .hook k e.t e.mean) ∧
      Spec.callAll S.hooks evs hooks = some x ∧ S.hooks[j]? = some hk ∧
      Spec.callHooks e.t e.mean (S.hooks.take j) x = some y ∧ hk.call y e.t e.mean = (s.hooks, true) ∧
      (∀ d ∈ evs, d.t < e.t) ∧ s.log.getLast? = some (.save e.t .except) := by
  obtain ⟨evs, e, j, hk, x, y, h1, h2, h3, h4, h5, -, -, h8, -, h10⟩ := train_ending S fuelE env evalEnv agent hooks h
  exact ⟨evs, e, j, hk, x, y, by simpa [records] using h1, h2, h3, h4, h5, h8, h10⟩

/-- **C112 (separate environments).** If evaluations use an environment of their own and do not touch the part of the
agent that its training depends on, then the training goes exactly as without an evaluator: what happens in training is
a beginning of what happens in `train_agent` without an evaluator, and all of it unless the training is
stopped by success or by a hook. -/
theorem evaluation_invisible {τ : Type} {view : α → τ} (S : Setup σ α η A O) (hv : Spec.Separate S.agent view)
    (hs : S.c.shared = false) (fuelE : Nat) (env evalEnv : σ)
    (agent : α) (hooks : η) {r : St σ α η A O × Outcome} (h : train S fuelE env evalEnv agent hooks = .ok r) :
    ∃ r', train (Spec.without S) fuelE env evalEnv agent hooks = .ok r' ∧
      Spec.training r.1.log <+: Spec.training r'.1.log ∧
      (∀ hist, r.2 = .finished hist → (∀ x, S.c.successful = some x → r.1.maxScore < x) →
        Spec.training r.1.log = Spec.training r'.1.log ∧ view r.1.agent = view r'.1.agent) := by
  unfold train at h
  split at h
  · exact absurd h (by simp)
  · next h1 =>
    split at h
    · exact absurd h (by simp)
    · split at h
      · exact absurd h (by simp)
      · unfold train
        have c1 : refuses .serial (Spec.without S).hooks = false := by simpa [Spec.without] using h1
        have c2 : (Spec.without S).c.shared = false := hs
        have c3 : (Spec.without S).c.evaluator = false := rfl
        simp only [c1, c2, c3, Bool.false_and, Bool.false_eq_true, if_false]
        refine ⟨_, rfl, ?_⟩
        rw [← Except.ok.inj h]
        set s0 : St σ α η A O := { env := env, evalEnv := evalEnv, agent := agent, hooks := hooks, prevEval := S.c.offset - S.c.offset % S.c.evalInterval, maxScore := lowest, log := [] }
        have hs0 : Sim view s0 s0 := ⟨rfl, rfl, rfl⟩
        obtain ⟨d1, d2⟩ := reset_sim (S := S) hs0
        have hsim := trainLoop_sim S hv hs fuelE (S.c.steps - S.c.offset) _ _ (s0.reset S .train).2 0 0 S.c.offset [] [] d1
        rw [d2] at hsim
        refine ⟨?_, ?_⟩
        · rw [d2]; exact hsim.1
        · intro hist hh hsucc
          rw [d2] at hh hsucc ⊢
          have := hsim.2 hist hh (by
            unfold St.successful
            cases hx : S.c.successful with
            | none => rfl
            | some x =>
              have := hsucc x hx
              simpa using this)
          exact ⟨this.log, this.view⟩

/-- **C112 (unsupported hooks).** Each of the three functions refuses a list of hooks exactly if some hook does not support it;
`train_agent_with_evaluation` then raises before anything happens. -/
theorem unsupported_hooks (hooks : List (Hook η)) (e : Entry) :
    refuses e hooks = true ↔ ∃ h ∈ hooks, h.supports e = false := by
  unfold refuses
  simp [List.any_eq_true]

theorem unsupported_hooks_raise (S : Setup σ α η A O) (fuelE : Nat) (env evalEnv : σ) (agent : α) (hooks : η)
    (h : ∃ h ∈ S.hooks, h.supports .serial = false) : train S fuelE env evalEnv agent hooks = .error .valueError := by
  unfold train
  rw [if_pos ((unsupported_hooks _ _).mpr h)]

theorem callAll_optuna (prune : List (ℚ × Nat) → Bool) : ∀ (evs : List Spec.Evaluation) (x y : List (ℚ × Nat)),
    Spec.callAll [optunaHook prune] evs x = some y ↔ y = x ++ evs.map (fun e => (e.mean, e.t)) ∧
      ∀ k, 0 < k → k ≤ evs.length → prune (x ++ (evs.take k).map (fun e => (e.mean, e.t))) = false
  | [], x, y => by
    constructor
    · intro h
      rw [Spec.callAll] at h
      refine ⟨by simpa using (Option.some.inj h).symm, fun k h1 h2 => ?_⟩
      simp at h2; omega
    · rintro ⟨h, -⟩
      rw [h]; simp [Spec.callAll]
  | e :: evs, x, y => by
    rw [Spec.callAll, Spec.callHooks, Spec.callHooks]
    change (if prune (x ++ [(e.mean, e.t)]) = true then none else some (x ++ [(e.mean, e.t)])).bind _ = _ ↔ _
    cases hp : prune (x ++ [(e.mean, e.t)]) with
    | true =>
      simp only [if_true, Option.bind_none]
      constructor
      · intro h; exact absurd h (by simp)
      · rintro ⟨-, h⟩
        have := h 1 (by omega) (by simp)
        simp [hp] at this
    | false =>
      simp only [Bool.false_eq_true, if_false, Option.bind_some]
      rw [callAll_optuna prune evs]
      simp only [List.append_assoc, List.singleton_append, List.map_cons]
      refine and_congr Iff.rfl ⟨fun h k h1 h2 => ?_, fun h k h1 h2 => ?_⟩
      · obtain ⟨k, rfl⟩ : ∃ j, k = j + 1 := ⟨k - 1, by omega⟩
        rw [List.take_succ_cons, List.map_cons]
        by_cases hk : k = 0
        · subst hk; simpa using hp
        · exact h k (by omega) (by simpa using h2)
      · have := h (k + 1) (by omega) (by simpa using h2)
        rwa [List.take_succ_cons, List.map_cons] at this

/-- **C112 (pruning).** With the Optuna hook, the trial is told the mean score and the step of every evaluation, in order.  A
training that returns was never told to prune; one that ends by an exception ends at the first report at which it was, after saving the
agent.  The hook is refused in asynchronous training. -/
theorem optuna_pruning (S : Setup σ α (List (ℚ × Nat)) A O) (prune : List (ℚ × Nat) → Bool)
    (hS : S.hooks = [optunaHook prune]) (fuelE : Nat) (env evalEnv : σ) (agent : α)
    {s : St σ α (List (ℚ × Nat)) A O} {out : Outcome} (h : train S fuelE env evalEnv agent [] = .ok (s, out)) :
    (∀ history, out = .finished history → s.hooks.map (·.1) = history ∧
      ∀ k, 0 < k → k ≤ s.hooks.length → prune (s.hooks.take k) = false) ∧
    (out = .raised → prune s.hooks = true ∧ (∀ k, 0 < k → k < s.hooks.length → prune (s.hooks.take k) = false) ∧
      ∃ m t, s.hooks.getLast? = some (m, t) ∧ s.log.getLast? = some (.save t .except)) ∧
    refuses .async [optunaHook prune] = true := by
  refine ⟨?_, ?_, rfl⟩
  · rintro history rfl
    obtain ⟨evs, h1, -, h3, -⟩ := evaluations_recorded S fuelE env evalEnv agent [] h
    rw [hS, callAll_optuna] at h3
    obtain ⟨h3, h4⟩ := h3
    rw [List.nil_append] at h3
    refine ⟨?_, ?_⟩
    · rw [h3, h1, List.map_map]; rfl
    · intro k hk hk2
      rw [h3, ← List.map_take]
      rw [h3, List.length_map] at hk2
      exact h4 k hk hk2
  · rintro rfl
    obtain ⟨evs, e, j, hk, x, y, -, h2, h3, h4, h5, -, h7⟩ := hook_stops_training S fuelE env evalEnv agent [] h
    rw [hS] at h3 h2 h4
    have hj : j = 0 := by
      rcases Nat.eq_zero_or_pos j with h | h
      · exact h
      · rw [List.getElem?_eq_none (by simp; omega)] at h3
        exact absurd h3 (by simp)
    subst hj
    rw [callAll_optuna] at h2
    obtain ⟨h2, h2'⟩ := h2
    rw [List.nil_append] at h2
    have h3' : optunaHook prune = hk := Option.some.inj h3
    rw [← h3'] at h5
    have hxy : x = y := by simpa [Spec.callHooks] using h4
    have e1 : x ++ [(e.mean, e.t)] = s.hooks := by rw [hxy]; exact congrArg Prod.fst h5
    have e2 : prune (x ++ [(e.mean, e.t)]) = true := by rw [hxy]; exact congrArg Prod.snd h5
    refine ⟨e1 ▸ e2, ?_, e.mean, e.t, ?_, h7⟩
    · intro k hk1 hk2
      rw [← e1] at hk2 ⊢
      rw [List.length_append, List.length_singleton] at hk2
      rw [List.take_append_of_le_length (by omega), h2, ← List.map_take]
      rw [h2, List.length_map] at hk2
      simpa using h2' k hk1 (by omega)
    · rw [← e1]; simp

/-! ### Non-vacuity -/

/-- The environment of the examples: a counter, which the actions add to; an episode ends after three steps. -/
def exEnv : Env (Nat × Nat) Nat Nat where
  reset := fun _ => ((0, 0), 0)
  step := fun s a => { state := (s.1 + a, s.2 + 1), obs := s.1 + a, reward := a, done := decide (s.2 + 1 = 3), needsReset := false }

/-- An agent that learns: its action is the number of observations made in training. -/
def exAgent : Agent Nat Nat Nat where
  act := fun _ n _ => (n, n)
  observe := fun w n _ _ _ _ => if w = .train then n + 1 else n

def exSetup (shared during : Bool) (prune : List (ℚ × Nat) → Bool) :
    Setup (Nat × Nat) Nat (List (ℚ × Nat)) Nat Nat where
  env := exEnv
  evalEnv := exEnv
  agent := exAgent
  hooks := [optunaHook prune]
  c := { steps := 8, offset := 0, maxLen := some 2, evalMaxLen := none, goal := .episodes 1, evalInterval := 3, checkpointFreq := 0,
         successful := none, evalDuring := during, shared := shared, saveBest := true, evaluator := true }

/-- What an example gives: the outcome, what the hooks got, and the outputs. -/
def exRun (S : Setup (Nat × Nat) Nat (List (ℚ × Nat)) Nat Nat) : Option (Outcome × List (ℚ × Nat) × List (Event Nat Nat)) :=
  match train S 10 (0, 0) (0, 0) 0 [] with
  | .ok r => some (r.2, r.1.hooks, r.1.log.filter fun e => Spec.isRecord e)
  | .error _ => none

/-- A training with the environment shared: evaluations at the ends of the episodes after steps 4 and 6. -/
example : exRun (exSetup true false fun _ => false) = some (.finished [8, 12], [(8, 4), (12, 6)],
    [.scores 4 2 8, .hook 0 4 8, .saveBest, .scores 6 3 12, .hook 0 6 12, .saveBest]) := by decide +kernel

/-- It is stopped at the second evaluation by pruning. -/
example : exRun (exSetup true false fun l => decide (l.length = 2)) = some (.raised, [(8, 4), (12, 6)],
    [.scores 4 2 8, .hook 0 4 8, .saveBest, .scores 6 3 12, .hook 0 6 12]) := by decide +kernel

/-- With a separate environment evaluations happen during episodes. -/
example : exRun (exSetup false true fun _ => false) = some (.finished [6, 12], [(6, 3), (12, 6)],
    [.scores 3 1 6, .hook 0 3 6, .saveBest, .scores 6 3 12, .hook 0 6 12, .saveBest]) := by decide +kernel

/-- With the shared one this is refused. -/
example : exRun (exSetup true true fun _ => false) = none := by decide +kernel

/-- The agent of the examples keeps the two modes apart. -/
example : Spec.Separate exAgent (fun n : Nat => n) := by
  refine ⟨?_, ?_, ?_, ?_⟩ <;> intros <;> simp_all [exAgent]

/-- The refusal is needed: evaluating on the environment of the training during its episodes breaks the training. -/
def exBroken : List (Event Nat Nat) :=
  let S := exSetup true true fun _ => false
  let s : St (Nat × Nat) Nat (List (ℚ × Nat)) Nat Nat :=
    { env := (0, 0), evalEnv := (0, 0), agent := 0, hooks := [], prevEval := 0, maxScore := lowest, log := [] }
  (trainLoop S 10 8 (s.reset S .train).1 (s.reset S .train).2 0 0 0 []).1.log

example : ¬ Spec.Intact (exSetup true true fun _ => false).c exBroken := by
  intro h
  obtain ⟨⟨c, h1, -, -⟩, -⟩ := h (exBroken.take 21) (.act .train 2 3) (exBroken.drop 22) (by decide +kernel)
  rw [show Spec.lastCall (exBroken.take 21) = some (.eval, .step 3 6 3 false false) by decide +kernel] at h1
  cases h1
end Pfrl.Train.WithEval
