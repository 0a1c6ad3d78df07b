import Verif.Tree.Model
import Mathlib.Algebra.Order.Field.Basic

/-!
# Model of `PrioritizedBuffer` (`pfrl/collections/prioritized.py:21-123`)

Priorities and probabilities are elements of an arbitrary ordered field (exact arithmetic in place
of floats).  A call that raises is an `Except.error`; the state left behind by a raising call is not
modelled.
-/

namespace Pfrl.PBuf
open Tree (TQ sumAgg minAgg)

/-- Instance attributes, `prioritized.py:28-34`; `sampled` is `sampled_indices`, an attribute that
does not exist before the first `sample`. -/
structure PB (T V : Type _) where
  capacity : Option Int
  data : List T
  sums : TQ V
  mins : TQ V
  maxPriority : V
  wait : Bool
  flag : Bool
  sampled : Option (List Nat)
  deriving DecidableEq

/-- The random numbers used by one `sample` call: the result of `np.random.binomial`, the streams
consumed by `sample_n_k`, and the uniform numbers of the weighted draws. -/
structure Rnd (V : Type _) where
  nUniform : Nat
  perm : List Nat
  s : Nat → Nat
  fuel : Nat
  rng : Nat → V → V

variable {T V : Type _} [Field V] [LinearOrder V]

/-- `__init__`, `prioritized.py:22-34`. -/
def PB.new (capacity : Option Int) (wait : Bool) (initialMaxPriority : V) : PB T V :=
  { capacity := capacity, data := [], sums := TQ.new, mins := TQ.new,
    maxPriority := initialMaxPriority, wait := wait, flag := false, sampled := none }

/-- `popleft`, `prioritized.py:50-54`. -/
def PB.popleft (b : PB T V) : Except PyErr (PB T V × T) :=
  if b.data.length = 0 then .error .assertionError
  else
    match b.sums.popleft sumAgg with
    | .error e => .error e
    | .ok (_, sums) =>
      match b.mins.popleft minAgg with
      | .error e => .error e
      | .ok (_, mins) =>
        match b.data with
        | [] => .error .indexError
        | x :: data => .ok ({ b with data := data, sums := sums, mins := mins }, x)

/-- `append`, `prioritized.py:39-48`. -/
def PB.append (b : PB T V) (value : T) (priority : Option V) : Except PyErr (PB T V) :=
  let evicted : Except PyErr (PB T V) :=
    match b.capacity with
    | none => .ok b
    | some c => if (b.data.length : Int) = c then b.popleft.map (·.1) else .ok b
  match evicted with
  | .error e => .error e
  | .ok b1 =>
    let p := priority.getD b1.maxPriority
    match b1.sums.append sumAgg p with
    | .error e => .error e
    | .ok sums =>
      match b1.mins.append minAgg p with
      | .error e => .error e
      | .ok mins => .ok { b1 with data := b1.data ++ [value], sums := sums, mins := mins }

/-- The mixing branch of `_sample_indices_and_probabilities`, `prioritized.py:61-72`: returns the
sum queue, the uniformly drawn indices and their priorities, the number of draws still to make and
the updated `min_prob`. -/
def PB.uniformPart (b : PB T V) (n : Int) (ratio : V) (r : Rnd V) (minProb : V) :
    Except PyErr (TQ V × List Nat × List V × Int × V) :=
  if ratio > 0 then
    match b.sums.uniformSample r.perm r.s r.fuel r.nUniform b.wait with
    | .error e => .error e
    | .ok (sums, ixs, ps) =>
      .ok (sums, ixs, ps, n - r.nUniform,
        ratio / (b.data.length : V) + (1 - ratio) * minProb)
  else .ok (b.sums, [], [], n, minProb)

/-- `_sample_indices_and_probabilities`, `prioritized.py:56-84`.  For an empty buffer
`np.inf / 0.0` is a Python float division and raises. -/
def PB.sampleIndices (b : PB T V) (n : Int) (ratio : V) (r : Rnd V) :
    Except PyErr (PB T V × List Nat × List V × V) :=
  match b.sums.sum with
  | .error e => .error e
  | .ok total =>
    match b.mins.min with
    | .error e => .error e
    | .ok none => .error .zeroDivision
    | .ok (some mn) =>
      if total = 0 then .error .zeroDivision
      else
        let minProb := mn / total
        let len : V := b.data.length
        match b.uniformPart n ratio r minProb with
        | .error e => .error e
        | .ok (sums1, ixs1, ps1, n', minProb') =>
          match sums1.prioritizedSample r.rng 0 n' b.wait with
          | .error e => .error e
          | .ok (sums2, ixs2, ps2) =>
            let probs := (ps1 ++ ps2).map fun p => ratio / len + (1 - ratio) * p / total
            .ok ({ b with sums := sums2 }, ixs1 ++ ixs2, probs, minProb')

/-- `sample`, `prioritized.py:86-105`. -/
def PB.sample (b : PB T V) (n : Int) (ratio : V) (r : Rnd V) :
    Except PyErr (PB T V × List T × List V × V) :=
  if b.wait && b.flag then .error .assertionError
  else
    match b.sampleIndices n ratio r with
    | .error e => .error e
    | .ok (b', ixs, probs, minProb) =>
      match ixs.mapM (fun i => b'.data[i]?) with
      | none => .error .indexError
      | some items =>
        .ok ({ b' with sampled := some ixs, flag := true }, items, probs, minProb)

/-- The loop of `set_last_priority`, `prioritized.py:111-114`. -/
def setLoop (b : PB T V) : List (Nat × V) → Except PyErr (PB T V)
  | [] => .ok b
  | (i, p) :: rest =>
    match b.sums.set sumAgg i p with
    | .error e => .error e
    | .ok sums =>
      match b.mins.set minAgg i p with
      | .error e => .error e
      | .ok mins =>
        setLoop { b with sums := sums, mins := mins, maxPriority := max b.maxPriority p } rest

/-- `set_last_priority`, `prioritized.py:107-116`. -/
def PB.setLastPriority (b : PB T V) (ps : List V) : Except PyErr (PB T V) :=
  if b.wait && !b.flag then .error .assertionError
  else if ps.any (fun p => decide (p ≤ 0)) then .error .assertionError
  else
    match b.sampled with
    | none => .error .attributeError
    | some ixs =>
      if ixs.length ≠ ps.length then .error .assertionError
      else
        match setLoop b (ixs.zip ps) with
        | .error e => .error e
        | .ok b' => .ok { b' with flag := false, sampled := some [] }

/-- One call of the public API. -/
inductive Op (T V : Type _) where
  | append (x : T) (p : Option V)
  | popleft
  | sample (n : Nat) (ratio : V) (r : Rnd V)
  | setLast (ps : List V)

/-- What a call returns. -/
inductive Out (T V : Type _) where
  | none
  | item (x : T)
  | batch (items : List T) (probs : List V) (minProb : V)
  deriving DecidableEq

/-- One call. -/
def PB.step (b : PB T V) : Op T V → Except PyErr (PB T V × Out T V)
  | .append x p => (b.append x p).map fun b' => (b', .none)
  | .popleft => b.popleft.map fun (b', x) => (b', .item x)
  | .sample n ratio r => (b.sample n ratio r).map fun (b', xs, ps, mp) => (b', .batch xs ps mp)
  | .setLast ps => (b.setLastPriority ps).map fun b' => (b', .none)

/-- A history of calls. -/
def PB.run (b : PB T V) : List (Op T V) → Except PyErr (PB T V × List (Out T V))
  | [] => .ok (b, [])
  | op :: ops =>
    match b.step op with
    | .error e => .error e
    | .ok (b', out) =>
      match PB.run b' ops with
      | .error e => .error e
      | .ok (b'', outs) => .ok (b'', out :: outs)

end Pfrl.PBuf
