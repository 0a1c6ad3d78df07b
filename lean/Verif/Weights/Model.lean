import Verif.Basic
import Mathlib.Analysis.SpecialFunctions.Pow.Real

/-!
# Model of `PriorityWeightError` (`pfrl/replay_buffers/prioritized.py:9-66`)

Floats are real numbers; `**` is `Real.rpow` (on a negative base with a fractional exponent Python
returns a complex number; all theorems have positive bases).
-/

namespace Pfrl.Weights

/-- The accepted values of `normalize_by_max` after `True` has been replaced by `"batch"`,
`prioritized.py:40-42`. -/
inductive Norm where
  | off
  | batch
  | memory
  deriving DecidableEq

/-- Instance attributes, `prioritized.py:31-45`. -/
structure PWE where
  alpha : ℝ
  beta : ℝ
  betaAdd : ℝ
  eps : ℝ
  norm : Norm
  errorMin : Option ℝ
  errorMax : Option ℝ

open Classical in
/-- `__init__`, `prioritized.py:28-45`. -/
noncomputable def PWE.new (alpha beta0 : ℝ) (betasteps : Option ℝ) (eps : ℝ) (norm : Norm)
    (errorMin errorMax : Option ℝ) : Except PyErr PWE :=
  if ¬ 0 ≤ alpha then .error .assertionError
  else if ¬ (0 ≤ beta0 ∧ beta0 ≤ 1) then .error .assertionError
  else
    match betasteps with
    | none => .ok ⟨alpha, beta0, 0, eps, norm, errorMin, errorMax⟩
    | some n =>
      if n = 0 then .error .zeroDivision
      else .ok ⟨alpha, beta0, (1 - beta0) / n, eps, norm, errorMin, errorMax⟩

/-- `_clip_error`, `prioritized.py:48-53`. -/
noncomputable def PWE.clip (w : PWE) (error : ℝ) : ℝ :=
  let error := match w.errorMin with
    | some m => max m error
    | none => error
  match w.errorMax with
  | some m => min m error
  | none => error

/-- `priority_from_errors`, `prioritized.py:47-55`. -/
noncomputable def PWE.priorityFromErrors (w : PWE) (errors : List ℝ) : List ℝ :=
  errors.map fun d => (w.clip d + w.eps) ^ w.alpha

/-- `np.min` of a non-empty list; raises on an empty one. -/
noncomputable def npMin : List ℝ → Except PyErr ℝ
  | [] => .error .valueError
  | p :: ps => .ok (ps.foldl min p)

/-- `weights_from_probabilities`, `prioritized.py:57-66`; `memLen` is `len(self.memory)`.  Returns
the weights and the object with the annealed `beta`. -/
noncomputable def PWE.weightsFromProbabilities (w : PWE) (memLen : Nat) (probs : List ℝ)
    (minProb : ℝ) : Except PyErr (List ℝ × PWE) :=
  let minP : Except PyErr ℝ := match w.norm with
    | .batch => npMin probs
    | _ => .ok minProb
  match minP with
  | .error e => .error e
  | .ok minP =>
    let weights := match w.norm with
      | .off => probs.map fun p => ((memLen : ℝ) * p) ^ (-w.beta)
      | _ => probs.map fun p => (p / minP) ^ (-w.beta)
    .ok (weights, { w with beta := min 1 (w.beta + w.betaAdd) })

/-- Several successive batches. -/
noncomputable def PWE.run (w : PWE) : List (Nat × List ℝ × ℝ) → Except PyErr (List (List ℝ) × PWE)
  | [] => .ok ([], w)
  | (n, ps, mp) :: rest =>
    match w.weightsFromProbabilities n ps mp with
    | .error e => .error e
    | .ok (ws, w') =>
      match PWE.run w' rest with
      | .error e => .error e
      | .ok (wss, w'') => .ok (ws :: wss, w'')

end Pfrl.Weights
