import Mathlib.Algebra.BigOperators.Group.List.Basic
import Mathlib.Algebra.Order.Group.Defs
import Verif.Tree.Model

/-!
# Specification of a priority queue: a plain list of priorities

`append` adds at the end, `popleft` removes the first element, `q[i] = v` overwrites position `i`.
-/

namespace Pfrl.Tree.Spec
variable {V : Type _}

/-- The effect of a history of calls on the list of priorities, with the values popped; `none` if
a call is invalid (pop of an empty queue, assignment out of range). -/
def run (xs : List V) : List (Op V) → Option (List V × List V)
  | [] => some (xs, [])
  | .append v :: ops => run (xs ++ [v]) ops
  | .set i v :: ops =>
    if 0 ≤ i ∧ i < xs.length then run (xs.set i.toNat v) ops else none
  | .popleft :: ops =>
    match xs with
    | [] => none
    | x :: xs => (run xs ops).map fun (ys, rets) => (ys, x :: rets)

/-- Inverse cumulative distribution: position `i` owns the half-open interval of length `xs[i]`
that starts at the sum of the priorities before it. -/
def Owns [Zero V] [Add V] [LE V] [LT V] (xs : List V) (i : Nat) (u : V) : Prop :=
  (xs.take i).sum ≤ u ∧ u < (xs.take (i + 1)).sum

/-- Successive weighted draws without replacement from the priorities `xs`: the `t`-th draw uses
the random number `rng t total`, where `total` is the sum of the priorities not yet drawn; the
drawn priority is then set to zero.  `Drawn t xs is vs ys`: starting with draw number `t`, the
positions `is` are drawn in this order, they carried the priorities `vs`, and `ys` is left. -/
inductive Drawn [Zero V] [Add V] [LE V] [LT V] (rng : Nat → V → V) :
    Nat → List V → List Nat → List V → List V → Prop
  | nil {t : Nat} {xs : List V} : Drawn rng t xs [] [] xs
  | cons {t : Nat} {xs : List V} {i : Nat} {v : V} {is : List Nat} {vs ys : List V} :
      Owns xs i (rng t xs.sum) → xs[i]? = some v → Drawn rng (t + 1) (xs.set i 0) is vs ys →
      Drawn rng t xs (i :: is) (v :: vs) ys

/-- `np.random.uniform(0, hi)` yields a number in `[0, hi)` when `hi > 0`. -/
def UniformRng [Zero V] [LE V] [LT V] (rng : Nat → V → V) : Prop :=
  ∀ t hi, 0 < hi → 0 ≤ rng t hi ∧ rng t hi < hi

/-- `xs` with the listed positions set to `0`. -/
def zeroAt [Zero V] (xs : List V) (is : List Nat) : List V :=
  xs.mapIdx fun i x => if i ∈ is then 0 else x

end Pfrl.Tree.Spec
