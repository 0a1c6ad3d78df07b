import Verif.Basic
import Mathlib.Algebra.Ring.Defs
import Mathlib.Algebra.BigOperators.Group.List.Defs

/-!
# Model of `batch_experiences` and `ReplayUpdater` (`pfrl/replay_buffer.py`)
-/

namespace Pfrl.Batch

/-- A transition dict with the keys `batch_experiences` reads (`pfrl/replay_buffer.py:157-212`). -/
structure Trans (S A R : Type _) where
  state : S
  action : A
  reward : R
  nextState : S
  nextAction : Option A
  terminal : Bool
  deriving DecidableEq

/-- The returned dict of batched transitions, one list entry per experience.  `nextAction` is
present only when it is put into the dict. -/
structure Out (F A R : Type _) where
  state : List F
  action : List A
  reward : List R
  nextState : List F
  terminal : List R
  discount : List R
  nextAction : Option (List A)
  deriving DecidableEq

variable {S A R F : Type _} [CommRing R]

/-- `elem[0]`, `replay_buffer.py:179-181`. -/
def first {α : Type _} : List α → Except PyErr α
  | [] => .error .indexError
  | t :: _ => .ok t

/-- `elem[-1]`, `replay_buffer.py:193`. -/
def last {α : Type _} (l : List α) : Except PyErr α :=
  match l.getLast? with
  | none => .error .indexError
  | some t => .ok t

/-- `sum((gamma**i) * exp[i]["reward"] for i in range(len(exp)))`, `replay_buffer.py:186`. -/
def reward (gamma : R) (exp : List (Trans S A R)) : R :=
  ((List.range exp.length).map fun i =>
    gamma ^ i * ((exp[i]?.map Trans.reward).getD 0)).sum

/-- A Python bool converted to a float tensor entry. -/
def boolToR (b : Bool) : R := if b then 1 else 0

/-- `batch_experiences`, `replay_buffer.py:157-212`.  `phi` is applied by `batch_states`; devices,
dtypes and tensor layout are dropped.  (`batch_states` of an empty batch raises.) -/
def batchExperiences (phi : S → F) (gamma : R) (exps : List (List (Trans S A R))) :
    Except PyErr (Out F A R) :=
  match exps.mapM first, exps.mapM last with
  | .ok firsts, .ok lasts =>
    if exps = [] then .error .indexError
    else
      .ok { state := firsts.map fun t => phi t.state
            action := firsts.map Trans.action
            reward := exps.map (reward gamma)
            nextState := lasts.map fun t => phi t.nextState
            terminal := exps.map fun exp => boolToR (exp.any Trans.terminal)
            discount := exps.map fun exp => gamma ^ exp.length
            nextAction :=
              if lasts.all (fun t => t.nextAction.isSome) then
                some (lasts.filterMap Trans.nextAction)
              else none }
  | .error e, _ => .error e
  | _, .error e => .error e

/-! ## `ReplayUpdater` -/

/-- What the updater is connected to.  `W` is the state of everything outside it (buffer contents,
model parameters, random generator); `len`/`nEpisodes` read the buffer, `sample`/`sampleEpisodes`
draw from it, `update` is `update_func`. -/
structure Env (W X : Type _) where
  len : W → Nat
  nEpisodes : W → Nat
  sample : Nat → W → Except PyErr (X × W)
  sampleEpisodes : Nat → Option Nat → W → Except PyErr (X × W)
  update : X → W → Except PyErr W

/-- Configuration, `replay_buffer.py:308-327`. -/
structure Cfg where
  batchsize : Nat
  episodicUpdate : Bool
  nTimesUpdate : Int
  replayStartSize : Nat
  updateInterval : Int
  episodicUpdateLen : Option Nat

/-- `ReplayUpdater.__init__`, `replay_buffer.py:308-327`: only `batchsize <= replay_start_size` is
checked. -/
def Cfg.check (c : Cfg) : Except PyErr Cfg :=
  if c.batchsize ≤ c.replayStartSize then .ok c else .error .assertionError

variable {W X : Type _}

/-- The body of the loop, `replay_buffer.py:347-355`. -/
def updateOnce (env : Env W X) (c : Cfg) (w : W) : Except PyErr W :=
  if c.episodicUpdate then
    match env.sampleEpisodes c.batchsize c.episodicUpdateLen w with
    | .error e => .error e
    | .ok (x, w) => env.update x w
  else
    match env.sample c.batchsize w with
    | .error e => .error e
    | .ok (x, w) => env.update x w

/-- `for _ in range(n): …`. -/
def updateLoop (env : Env W X) (c : Cfg) : Nat → W → Except PyErr W
  | 0, w => .ok w
  | n + 1, w =>
    match updateOnce env c w with
    | .error e => .error e
    | .ok w => updateLoop env c n w

/-- `update_if_necessary`, `replay_buffer.py:328-356`.  `iteration % 0` raises
`ZeroDivisionError`. -/
def updateIfNecessary (env : Env W X) (c : Cfg) (iteration : Int) (w : W) :
    Except PyErr (Bool × W) :=
  if env.len w < c.replayStartSize then .ok (false, w)
  else if c.episodicUpdate && decide (env.nEpisodes w < c.batchsize) then .ok (false, w)
  else if c.updateInterval = 0 then .error .zeroDivision
  else if Int.fmod iteration c.updateInterval ≠ 0 then .ok (false, w)
  else (updateLoop env c c.nTimesUpdate.toNat w).map fun w => (true, w)

end Pfrl.Batch
