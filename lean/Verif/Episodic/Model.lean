import Verif.Replay.Model
import Verif.PBuf.Model

/-!
# Model of `EpisodicReplayBuffer` and `PrioritizedEpisodicReplayBuffer`
(`pfrl/replay_buffers/episodic.py`, `pfrl/replay_buffers/prioritized_episodic.py`)
-/

namespace Pfrl.Episodic

open Pfrl.Replay (Tr Op)
open Queue (RAQ)

variable {ε π : Type _} [DecidableEq ε]

/-- Instance state, `episodic.py:13-17`.  Items of `memory` are one-element lists `[transition]`. -/
structure EB (ε π : Type _) where
  capacity : Option Int
  current : ε → List (Tr π)
  episodic : RAQ (List (Tr π))
  memory : RAQ (List (Tr π))

/-- `__init__`, `episodic.py:13-17`. -/
def EB.new (capacity : Option Int) : EB ε π :=
  ⟨capacity, fun _ => [], ⟨none, [], []⟩, ⟨none, [], []⟩⟩

/-- `for transition in current_episode: self.memory.append([transition])`, `episodic.py:91-92`. -/
def appendAll (m : RAQ (List (Tr π))) : List (Tr π) → Except PyErr (RAQ (List (Tr π)))
  | [] => .ok m
  | t :: ts =>
    match m.append [t] with
    | .error e => .error e
    | .ok m' => appendAll m' ts

/-- `for _ in range(k): self.memory.popleft()`, `episodic.py:96-97`. -/
def popMany (m : RAQ (List (Tr π))) : Nat → Except PyErr (RAQ (List (Tr π)))
  | 0 => .ok m
  | k + 1 =>
    match m.popleft with
    | .error e => .error e
    | .ok (_, m') => popMany m' k

/-- `while self.capacity is not None and len(self.memory) > self.capacity: …`, `episodic.py:94-97`.
The first argument bounds the iterations (`timeout` if used up; each iteration removes an episode,
so the number of episodes plus one suffices). -/
def evict (capacity : Option Int) : Nat → RAQ (List (Tr π)) → RAQ (List (Tr π)) →
    Except PyErr (RAQ (List (Tr π)) × RAQ (List (Tr π)))
  | 0, ep, mem =>
    match capacity with
    | none => .ok (ep, mem)
    | some c => if (mem.len : Int) > c then .error .timeout else .ok (ep, mem)
  | fuel + 1, ep, mem =>
    match capacity with
    | none => .ok (ep, mem)
    | some c =>
      if (mem.len : Int) > c then
        match ep.popleft with
        | .error e => .error e
        | .ok (d, ep') =>
          match popMany mem d.length with
          | .error e => .error e
          | .ok mem' => evict capacity fuel ep' mem'
      else .ok (ep, mem)

/-- `stop_current_episode`, `episodic.py:87-98`. -/
def EB.stop (b : EB ε π) (env : ε) : Except PyErr (EB ε π) :=
  let cur := b.current env
  if cur = [] then .ok b
  else
    match b.episodic.append cur with
    | .error e => .error e
    | .ok ep =>
      match appendAll b.memory cur with
      | .error e => .error e
      | .ok mem =>
        match evict b.capacity (ep.len + 1) ep mem with
        | .error e => .error e
        | .ok (ep', mem') =>
          .ok { b with current := Function.update b.current env [], episodic := ep', memory := mem' }

/-- `append`, `episodic.py:19-42`. -/
def EB.append (b : EB ε π) (env : ε) (t : Tr π) : Except PyErr (EB ε π) :=
  let b' := { b with current := Function.update b.current env (b.current env ++ [t]) }
  if t.terminal then b'.stop env else .ok b'

/-- One call that stores data. -/
def EB.step (b : EB ε π) : Op ε π → Except PyErr (EB ε π)
  | .append e t => b.append e t
  | .stop e => b.stop e

/-- A history of calls. -/
def EB.run (b : EB ε π) : List (Op ε π) → Except PyErr (EB ε π)
  | [] => .ok b
  | op :: ops =>
    match b.step op with
    | .error e => .error e
    | .ok b' => EB.run b' ops

/-- `random_subseq`, `pfrl/replay_buffer.py:149-154`; `i` is the result of
`np.random.randint(0, len(seq) - subseq_len + 1)`. -/
def randomSubseq {α : Type _} (seq : List α) (subseqLen : Nat) (i : Nat) : List α :=
  if seq.length ≤ subseqLen then seq else (seq.drop i).take subseqLen

/-- The list comprehension `[random_subseq(ep, max_len) for ep in episodes]`, `episodic.py:52`.
`rng k m` is the `k`-th call of `np.random.randint(0, m)`. -/
def subseqs {α : Type _} (rng : Nat → Nat → Nat) (maxLen : Nat) : Nat → List (List α) → List (List α)
  | _, [] => []
  | k, ep :: eps =>
    randomSubseq ep maxLen (rng k (ep.length - maxLen + 1)) :: subseqs rng maxLen (k + 1) eps

/-- `sample_episodes`, `episodic.py:48-54`. -/
def EB.sampleEpisodes (perm : List Nat) (s : Nat → Nat) (fuel : Nat) (rng : Nat → Nat → Nat)
    (b : EB ε π) (n : Nat) (maxLen : Option Nat) : Except PyErr (List (List (Tr π))) :=
  if b.episodic.len ≥ n then
    match Sample.raqSample perm s fuel b.episodic n with
    | .error e => .error e
    | .ok eps =>
      match maxLen with
      | some l => .ok (subseqs rng l 0 eps)
      | none => .ok eps
  else .error .assertionError

/-- `sample`, `episodic.py:44-46`. -/
def EB.sample (perm : List Nat) (s : Nat → Nat) (fuel : Nat) (b : EB ε π) (n : Nat) :
    Except PyErr (List (List (Tr π))) :=
  if b.memory.len ≥ n then Sample.raqSample perm s fuel b.memory n else .error .assertionError

/-- `save` and the current-format branch of `load`, `episodic.py:67-85`: the pair of queues. -/
def EB.save (b : EB ε π) : RAQ (List (Tr π)) × RAQ (List (Tr π)) := (b.memory, b.episodic)

/-- `load` of a tuple, `episodic.py:67-71`. -/
def EB.load (b : EB ε π) (f : RAQ (List (Tr π)) × RAQ (List (Tr π))) : EB ε π :=
  { b with memory := f.1, episodic := f.2 }

/-! ### Prioritized episodic buffer -/

open PBuf (PB Rnd)

variable {V : Type _} [Field V] [LinearOrder V]

/-- Instance state, `prioritized_episodic.py:25-33`.  Unlike in `EpisodicReplayBuffer` the items of
`memory` are bare transitions.  Importance weights are modelled in `Verif.Weights`. -/
structure PEB (ε π V : Type _) where
  current : ε → List (Tr π)
  episodic : PB (List (Tr π)) V
  memory : RAQ (Tr π)
  capacityLeft : Option Int
  defaultPriority : Option (List (Tr π) → V)
  uniformRatio : V

/-- `__init__`, `prioritized_episodic.py:25-33`; `1.0` is the default `initial_max_priority` of
`PrioritizedBuffer`. -/
def PEB.new (capacity : Option Int) (defaultPriority : Option (List (Tr π) → V)) (uniformRatio : V)
    (wait : Bool) : Except PyErr (PEB ε π V) :=
  match RAQ.new capacity [] with
  | .error e => .error e
  | .ok m => .ok ⟨fun _ => [], PB.new none wait 1, m, capacity, defaultPriority, uniformRatio⟩

/-- `while self.capacity_left is not None and self.capacity_left < 0: …`,
`prioritized_episodic.py:74-76`, with an iteration bound. -/
def pevict : Nat → Option Int → PB (List (Tr π)) V →
    Except PyErr (Option Int × PB (List (Tr π)) V)
  | _, none, ep => .ok (none, ep)
  | 0, some c, ep => if c < 0 then .error .timeout else .ok (some c, ep)
  | fuel + 1, some c, ep =>
    if c < 0 then
      match ep.popleft with
      | .error e => .error e
      | .ok (ep', d) => pevict fuel (some (c + d.length)) ep'
    else .ok (some c, ep)

/-- `stop_current_episode`, `prioritized_episodic.py:62-77`. -/
def PEB.stop (b : PEB ε π V) (env : ε) : Except PyErr (PEB ε π V) :=
  let cur := b.current env
  if cur = [] then .ok b
  else
    match b.memory.extend cur with
    | .error e => .error e
    | .ok mem =>
      match b.episodic.append cur (b.defaultPriority.map fun f => f cur) with
      | .error e => .error e
      | .ok ep =>
        match pevict (ep.data.length + 1) (b.capacityLeft.map fun c => c - cur.length) ep with
        | .error e => .error e
        | .ok (c', ep') =>
          .ok { b with current := Function.update b.current env [], memory := mem, episodic := ep',
                       capacityLeft := c' }

/-- `append`, inherited from `episodic.py:19-42`. -/
def PEB.append (b : PEB ε π V) (env : ε) (t : Tr π) : Except PyErr (PEB ε π V) :=
  let b' := { b with current := Function.update b.current env (b.current env ++ [t]) }
  if t.terminal then b'.stop env else .ok b'

/-- `sample_episodes`, `prioritized_episodic.py:45-57`, without the importance weights. -/
def PEB.sampleEpisodes (rng : Nat → Nat → Nat) (r : Rnd V) (b : PEB ε π V) (n : Nat)
    (maxLen : Option Nat) : Except PyErr (PEB ε π V × List (List (Tr π))) :=
  if b.episodic.data.length ≥ n then
    match b.episodic.sample n b.uniformRatio r with
    | .error e => .error e
    | .ok (ep, eps, _, _) =>
      match maxLen with
      | some l => .ok ({ b with episodic := ep }, subseqs rng l 0 eps)
      | none => .ok ({ b with episodic := ep }, eps)
  else .error .assertionError

/-- `update_errors`, `prioritized_episodic.py:59-60`; the argument is the list of priorities
computed by `priority_from_errors`. -/
def PEB.updateErrors (b : PEB ε π V) (ps : List V) : Except PyErr (PEB ε π V) :=
  (b.episodic.setLastPriority ps).map fun ep => { b with episodic := ep }

/-- One call. -/
inductive POp (ε π V : Type _) where
  | append (env : ε) (t : Tr π)
  | stop (env : ε)
  | sample (rng : Nat → Nat → Nat) (r : Rnd V) (n : Nat) (maxLen : Option Nat)
  | update (ps : List V)

/-- One call (the sampled episodes are dropped here). -/
def PEB.step (b : PEB ε π V) : POp ε π V → Except PyErr (PEB ε π V)
  | .append e t => b.append e t
  | .stop e => b.stop e
  | .sample rng r n l => (b.sampleEpisodes rng r n l).map (·.1)
  | .update ps => b.updateErrors ps

/-- A history of calls. -/
def PEB.run (b : PEB ε π V) : List (POp ε π V) → Except PyErr (PEB ε π V)
  | [] => .ok b
  | op :: ops =>
    match b.step op with
    | .error e => .error e
    | .ok b' => PEB.run b' ops

end Pfrl.Episodic
