import Verif.Basic
import Mathlib.Data.List.Basic

/-!
# Interaction of the replay-based agents with their environments

Model of `batch_act`/`batch_observe` of `pfrl/agents/dqn.py` and of the same methods of
`pfrl/agents/ddpg.py`, `pfrl/agents/td3.py` and `pfrl/agents/soft_actor_critic.py`, which differ only in
how actions are chosen and in whether the target network is synchronised here.  What the methods call
(replay buffer, target synchronisation, updater) is a parameter: a function `perform` that carries out
one effect on the rest of the world, and may raise.  Recurrent states are treated in
`Verif.Interact.Recurrent`.
-/

namespace Pfrl.Interact

variable {O A R W : Type _}

/-- The arguments of `replay_buffer.append`, `pfrl/agents/dqn.py:524-531` (`next_action` is always
`None`). -/
structure Tr (O A R : Type _) where
  state : O
  action : A
  reward : R
  nextState : O
  terminal : Bool
  deriving DecidableEq, Repr

/-- One environment's entries of the arguments of `batch_observe`. -/
structure Row (O R : Type _) where
  obs : O
  reward : R
  done : Bool
  reset : Bool
  deriving DecidableEq, Repr

/-- A call made by `_batch_observe_train`.  `sync` carries the value of `self.t` at the time of the call,
which `sync_target_network` does not receive: it is there for the statements. -/
inductive Eff (O A R : Type _) where
  | sync (t : Nat)
  | append (env : Nat) (tr : Tr O A R)
  | stop (env : Nat)
  | update (t : Nat)
  deriving DecidableEq, Repr

/-- The attributes that matter, with the rest of the world.  `lastObs` is `none` as long as the attribute
`batch_last_obs` does not exist. -/
structure Agent (O A W : Type _) where
  t : Nat
  lastObs : Option (List (Option O))
  lastAction : List (Option A)
  world : W
  deriving DecidableEq, Repr

/-- A new agent. -/
def Agent.new (w : W) : Agent O A W := ⟨0, none, [], w⟩

/-- `agent.t = step_offset` at the start of a training, `pfrl/experiments/train_agent.py:46-48` and
`train_agent_batch.py:59-61`. -/
def Agent.resumed (offset : Nat) (a : Agent O A W) : Agent O A W := { a with t := offset }

/-- `batch_act`, `pfrl/agents/dqn.py:489-507`, `ddpg.py:265-279`, `td3.py:281-295`,
`soft_actor_critic.py:343-352`.  How the actions are computed is not modelled: they are given. -/
def Agent.act (training : Bool) (obs : List O) (actions : List A) (a : Agent O A W) : Agent O A W :=
  if training then { a with lastObs := some (obs.map some), lastAction := actions.map some }
  else a

/-- `if self.t % self.target_update_interval == 0: self.sync_target_network()`, `dqn.py:520-521`,
`ddpg.py:286-287`.  `interval = none` for TD3 and SAC, which do not do this here. -/
def syncIfDue (interval : Option Nat) (perform : W → Eff O A R → Except PyErr W)
    (a : Agent O A W) : Except PyErr (Agent O A W) :=
  match interval with
  | none => .ok a
  | some k =>
    if k = 0 then .error .zeroDivision
    else if a.t % k = 0 then
      match perform a.world (.sync a.t) with
      | .error e => .error e
      | .ok w => .ok { a with world := w }
    else .ok a

/-- Storing of the transition of environment `i`, `dqn.py:522-547`, `ddpg.py:288-303`,
`td3.py:301-316`, `soft_actor_critic.py:358-373`. -/
def store (perform : W → Eff O A R → Except PyErr W) (i : Nat) (row : Row O R) (a : Agent O A W) :
    Except PyErr (Agent O A W) :=
  match a.lastObs with
  | none => .error .attributeError
  | some los =>
    match los[i]? with
    | none => .error .indexError
    | some none => .ok a
    | some (some o) =>
      match a.lastAction[i]? with
      | none => .error .indexError
      | some none => .error .assertionError
      | some (some act) =>
        match perform a.world (.append i ⟨o, act, row.reward, row.obs, row.done⟩) with
        | .error e => .error e
        | .ok w =>
          if row.reset || row.done then
            match perform w (.stop i) with
            | .error e => .error e
            | .ok w => .ok { a with lastObs := some (los.set i none)
                                    lastAction := a.lastAction.set i none, world := w }
          else .ok { a with world := w }

/-- Body of the loop of `_batch_observe_train`, `dqn.py:517-548`. -/
def observeRow (interval : Option Nat) (perform : W → Eff O A R → Except PyErr W) (i : Nat)
    (row : Row O R) (a : Agent O A W) : Except PyErr (Agent O A W) :=
  match syncIfDue interval perform { a with t := a.t + 1 } with
  | .error e => .error e
  | .ok a =>
    match store perform i row a with
    | .error e => .error e
    | .ok a =>
      match perform a.world (.update a.t) with
      | .error e => .error e
      | .ok w => .ok { a with world := w }

/-- The loop. -/
def observeLoop (interval : Option Nat) (perform : W → Eff O A R → Except PyErr W) :
    Nat → List (Row O R) → Agent O A W → Except PyErr (Agent O A W)
  | _, [], a => .ok a
  | i, row :: rows, a =>
    match observeRow interval perform i row a with
    | .error e => .error e
    | .ok a => observeLoop interval perform (i + 1) rows a

/-- `batch_observe`, `dqn.py:579-593`, `ddpg.py:251-253`, `td3.py:273-275`,
`soft_actor_critic.py:333-335`. -/
def Agent.observe (interval : Option Nat) (perform : W → Eff O A R → Except PyErr W) (training : Bool)
    (rows : List (Row O R)) (a : Agent O A W) : Except PyErr (Agent O A W) :=
  if training then observeLoop interval perform 0 rows a else .ok a

/-- A call of the agent, with the mode it is made in. -/
inductive Ev (O A R : Type _) where
  | act (training : Bool) (obs : List O) (actions : List A)
  | observe (training : Bool) (rows : List (Row O R))
  deriving DecidableEq, Repr

/-- A history of calls. -/
def run (interval : Option Nat) (perform : W → Eff O A R → Except PyErr W) :
    Agent O A W → List (Ev O A R) → Except PyErr (Agent O A W)
  | a, [] => .ok a
  | a, .act tr obs acts :: h => run interval perform (a.act tr obs acts) h
  | a, .observe tr rows :: h =>
    match a.observe interval perform tr rows with
    | .error e => .error e
    | .ok a => run interval perform a h

end Pfrl.Interact
