import Verif.Sample.Model
import Mathlib.Logic.Function.Basic

/-!
# Model of `pfrl/replay_buffers/replay_buffer.py` (`ReplayBuffer`)

The class only talks to `self.memory` through `append`, `sample` and `len`; subclasses replace the
memory (`PrioritizedReplayBuffer`, `PersistentReplayBuffer`) and inherit `append` and
`stop_current_episode`.  The memory is therefore a parameter `M` here, with its `append` method
`push`.
-/

namespace Pfrl.Replay

/-- The `experience` dict, `replay_buffer.py:45-53`.  `payload` stands for all entries other than
`is_state_terminal` (state, action, reward, next state, next action, extra keyword arguments): they
are stored and never looked at. -/
structure Tr (π : Type _) where
  payload : π
  terminal : Bool
  deriving DecidableEq, Repr

variable {ε π M : Type _} [DecidableEq ε]

/-- Instance state, `replay_buffer.py:24-31`: `memory`, `num_steps` and the `defaultdict`
`last_n_transitions` of deques (a missing key is the empty deque). -/
structure RB (ε π M : Type _) where
  numSteps : Nat
  memory : M
  last : ε → List (Tr π)

/-- `collections.deque.append` on a deque with `maxlen = n`: when the bound is exceeded the
leftmost item is discarded. -/
def dequeAppend {α : Type _} (n : Nat) (l : List α) (x : α) : List α :=
  let l' := l ++ [x]
  if l'.length > n then l'.drop 1 else l'

/-- `while last_n_transitions: memory.append(list(last_n_transitions)); del last_n_transitions[0]`,
`replay_buffer.py:56-58` and `73-75`. -/
def drain (push : M → List (Tr π) → Except PyErr M) : List (Tr π) → M → Except PyErr M
  | [], m => .ok m
  | t :: rest, m =>
    match push m (t :: rest) with
    | .error e => .error e
    | .ok m' => drain push rest m'

/-- `append`, `replay_buffer.py:33-62`. -/
def RB.append (push : M → List (Tr π) → Except PyErr M) (b : RB ε π M) (env : ε) (t : Tr π) :
    Except PyErr (RB ε π M) :=
  let w := dequeAppend b.numSteps (b.last env) t
  if t.terminal then
    match drain push w b.memory with
    | .error e => .error e
    | .ok m => .ok { b with memory := m, last := Function.update b.last env [] }
  else
    if w.length = b.numSteps then
      match push b.memory w with
      | .error e => .error e
      | .ok m => .ok { b with memory := m, last := Function.update b.last env w }
    else .ok { b with last := Function.update b.last env w }

/-- `stop_current_episode`, `replay_buffer.py:64-76`. -/
def RB.stop (push : M → List (Tr π) → Except PyErr M) (b : RB ε π M) (env : ε) :
    Except PyErr (RB ε π M) :=
  let w := b.last env
  match (if 0 < w.length ∧ w.length < b.numSteps then push b.memory w else .ok b.memory) with
  | .error e => .error e
  | .ok m =>
    let w' := if 0 < w.length ∧ w.length ≤ b.numSteps then w.drop 1 else w
    match drain push w' m with
    | .error e => .error e
    | .ok m' => .ok { b with memory := m', last := Function.update b.last env [] }

/-- One call that stores data. -/
inductive Op (ε π : Type _) where
  | append (env : ε) (t : Tr π)
  | stop (env : ε)
  deriving Repr

/-- The environment a call is about. -/
def Op.env : Op ε π → ε
  | .append e _ => e
  | .stop e => e

/-- One call. -/
def RB.step (push : M → List (Tr π) → Except PyErr M) (b : RB ε π M) :
    Op ε π → Except PyErr (RB ε π M)
  | .append e t => b.append push e t
  | .stop e => b.stop push e

/-- A history of calls. -/
def RB.run (push : M → List (Tr π) → Except PyErr M) (b : RB ε π M) :
    List (Op ε π) → Except PyErr (RB ε π M)
  | [] => .ok b
  | op :: ops =>
    match b.step push op with
    | .error e => .error e
    | .ok b' => RB.run push b' ops

open Queue (RAQ)

/-- `ReplayBuffer.__init__`, `replay_buffer.py:24-31`. -/
def RB.new (capacity : Option Int) (numSteps : Int) :
    Except PyErr (RB ε π (RAQ (List (Tr π)))) :=
  if numSteps > 0 then
    match RAQ.new capacity [] with
    | .error e => .error e
    | .ok m => .ok ⟨numSteps.toNat, m, fun _ => []⟩
  else .error .assertionError

/-- `sample`, `replay_buffer.py:78-80`, with the random choices made by `sample_n_k` as in
`Verif.Sample`. -/
def RB.sample (perm : List Nat) (s : Nat → Nat) (fuel : Nat) (b : RB ε π (RAQ (List (Tr π))))
    (n : Nat) : Except PyErr (List (List (Tr π))) :=
  if b.memory.len ≥ n then Sample.raqSample perm s fuel b.memory n else .error .assertionError

/-- What a pickle file may contain: a `RandomAccessQueue` (current format) or a
`collections.deque` with its `maxlen` (v0.2 format).  Pickle itself is trusted to return an equal
object. -/
inductive PickleFile (α : Type _) where
  | queue (q : RAQ α)
  | deque (maxlen : Option Nat) (items : List α)

/-- `save`, `replay_buffer.py:85-87`. -/
def RB.save (b : RB ε π (RAQ (List (Tr π)))) : PickleFile (List (Tr π)) := .queue b.memory

/-- `load`, `replay_buffer.py:89-94`. -/
def RB.load (b : RB ε π (RAQ (List (Tr π)))) :
    PickleFile (List (Tr π)) → Except PyErr (RB ε π (RAQ (List (Tr π))))
  | .queue q => .ok { b with memory := q }
  | .deque maxlen items =>
    match RAQ.new (maxlen.map Int.ofNat) items with
    | .error e => .error e
    | .ok q => .ok { b with memory := q }

end Pfrl.Replay
