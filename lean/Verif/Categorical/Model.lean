import Verif.Basic
import Mathlib.Algebra.Order.Floor.Ring
import Mathlib.Algebra.Order.Field.Basic

/-!
# Model of `_apply_categorical_projection` (`pfrl/agents/categorical_dqn.py`)

Numbers are elements of an ordered field with a floor function (exact arithmetic instead of
`float32`).  Matrices are lists of rows.
-/

namespace Pfrl.Categorical

variable {K : Type _} [Field K] [LinearOrder K] [FloorRing K]

/-- `torch.clamp(x, lo, hi)`. -/
def clamp (x lo hi : K) : K := min (max x lo) hi

/-- `t.scatter_add_(0, index, src)` on a flat tensor; an index outside raises. -/
def scatterAdd : List K → List (Int × K) → Except PyErr (List K)
  | acc, [] => .ok acc
  | acc, (i, v) :: rest =>
    match acc[i.toNat]? with
    | none => .error .runtimeError
    | some a =>
      if 0 ≤ i then scatterAdd (acc.set i.toNat (a + v)) rest else .error .runtimeError

/-- `categorical_dqn.py:28,33-37`: position of a source atom on the target grid. -/
def position (n : Nat) (vMin vMax deltaZ y : K) : K :=
  clamp ((clamp y vMin vMax - vMin) / deltaZ) 0 ((n : K) - 1)

/-- `categorical_dqn.py:52-54`: index (without the row offset) and amount of the lower share. -/
def lower (n : Nat) (vMin vMax deltaZ y p : K) : Int × K :=
  let bj := position n vMin vMax deltaZ y
  (⌊bj⌋, p * (1 - (bj - (⌊bj⌋ : Int))))

/-- `categorical_dqn.py:55-58`: index (without the row offset) and amount of the upper share. -/
def upper (n : Nat) (vMin vMax deltaZ y p : K) : Int × K :=
  let bj := position n vMin vMax deltaZ y
  (⌈bj⌉, p * (bj - (⌊bj⌋ : Int)))

/-- `(idx + offset).view(-1)` and `src.view(-1)`, `categorical_dqn.py:45-47,53,57`: row `i` has
offset `i * n_atoms`. -/
def flatPairs (g : K → K → Int × K) (n : Nat) : Nat → List (List K) → List (List K) →
    List (Int × K)
  | i, yr :: ys, pr :: ps =>
    (List.zipWith g yr pr).map (fun x => (x.1 + ((i * n : Nat) : Int), x.2)) ++
      flatPairs g n (i + 1) ys ps
  | _, _, _ => []

/-- View of a flat tensor as a matrix with `b` rows of `n` entries. -/
def unflatten (b n : Nat) (flat : List K) : List (List K) :=
  (List.range b).map fun i => (flat.drop (i * n)).take n

/-- `_apply_categorical_projection`, `categorical_dqn.py:7-58`. -/
def project (y yProbs : List (List K)) (z : List K) : Except PyErr (List (List K)) :=
  let n := z.length
  if (∀ r ∈ y, r.length = n) ∧ (∀ r ∈ yProbs, r.length = n) ∧ yProbs.length = y.length then
    match z[0]?, z[1]?, z.getLast? with
    | some z0, some z1, some zl =>
      let deltaZ := z1 - z0
      match scatterAdd (List.replicate (y.length * n) 0)
          (flatPairs (lower n z0 zl deltaZ) n 0 y yProbs) with
      | .error e => .error e
      | .ok zp =>
        match scatterAdd zp (flatPairs (upper n z0 zl deltaZ) n 0 y yProbs) with
        | .error e => .error e
        | .ok zp => .ok (unflatten y.length n zp)
    | _, _, _ => .error .indexError
  else .error .assertionError

/-- `Tz`, `categorical_dqn.py:139-144` and `categorical_double_dqn.py:45-51`: the atoms of the
target distribution of one transition. -/
def targetAtoms (reward terminal discount : K) (z : List K) : List K :=
  z.map fun v => reward + (1 - terminal) * discount * v

end Pfrl.Categorical
