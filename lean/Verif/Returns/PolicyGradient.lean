import Mathlib.Analysis.SpecialFunctions.Log.Deriv
import Mathlib.Analysis.Calculus.Deriv.Add
import Mathlib.Analysis.Calculus.Deriv.Mul
import Mathlib.Tactic.FinCases
import Verif.Returns.A3C
import Verif.Returns.Reinforce

/-!
# Policy gradients of A3C, A2C and REINFORCE (C101)

The loss an actor-critic agent minimises is a function of one trajectory.  Here it is averaged over all trajectories the
environment and the current policy can produce.  The environment is any process with finitely many actions and finitely
many outcomes of a step; a state may contain the whole history, so nothing is assumed to be Markov.  The policy is
differentiated along one real parameter (any direction in the space of network parameters).  Returns come from the models
of the agents in `A3C.lean`, `A2C.lean` and `Reinforce.lean`.
-/

namespace Pfrl.Returns.PG

open Finset

set_option linter.unusedSectionVars false

variable {S A O : Type} [Fintype A] [Fintype O]

/-! ## Environments -/

/-- What `env.step` and the training loop tell the agent. -/
structure Outcome (S : Type) where
  reward : ℝ
  done : Bool
  reset : Bool
  next : S

/-- Any environment with finitely many actions and outcomes.  For A2C, `next` after an episode end is the first state of
the next episode. -/
structure Env (S A O : Type) [Fintype O] where
  prob : S → A → O → ℝ
  out : S → A → O → Outcome S
  sum_prob : ∀ s a, ∑ o, prob s a o = 1

/-- One step of a trajectory. -/
structure Step (S A : Type) where
  s : S
  a : A
  out : Outcome S

/-- Average over the first action, drawn with probabilities `w`, and its outcome; `rest` averages over what follows,
unless `stop` says that the trajectory ends.  `f` gets the trajectory and the state after it. -/
noncomputable def Env.choose (M : Env S A O) (stop : Outcome S → Bool) (w : A → ℝ)
    (rest : S → (List (Step S A) → S → ℝ) → ℝ) (s : S) (f : List (Step S A) → S → ℝ) : ℝ :=
  ∑ a, w a * ∑ o, M.prob s a o *
    if stop (M.out s a o) then f [⟨s, a, M.out s a o⟩] (M.out s a o).next
    else rest (M.out s a o).next fun tr e => f (⟨s, a, M.out s a o⟩ :: tr) e

/-- The expected value of `f` over the trajectories of at most `k` steps from `s` of the policy `w`. -/
noncomputable def Env.expect (M : Env S A O) (stop : Outcome S → Bool) (w : S → A → ℝ) :
    ℕ → S → (List (Step S A) → S → ℝ) → ℝ
  | 0, s, f => f [] s
  | k + 1, s, f => M.choose stop (w s) (M.expect stop w k) s f

/-! ## Model -/

/-- What an agent sees of a step, given the current values of states. -/
def toTurn (v : S → ℝ) (x : Step S A) : Turn ℝ := ⟨v x.s, x.out.reward, x.out.done, x.out.reset, v x.out.next⟩

/-- The entropy of an action distribution. -/
noncomputable def entropy (p : A → ℝ) : ℝ := -∑ a, p a * Real.log (p a)

/-- Arguments of `A3C`, `pfrl/agents/a3c.py:47-75`. -/
structure A3CCfg where
  gamma : ℝ
  tMax : ℕ
  beta : ℝ
  piLossCoef : ℝ
  keepLossScaleSame : Bool
  normalizeGradByTMax : Bool

/-- `pi_loss_factor`, `pfrl/agents/a3c.py:149-160`, for a segment of `n` steps. -/
noncomputable def A3CCfg.factor (c : A3CCfg) (n : ℕ) : ℝ :=
  c.piLossCoef * (if c.keepLossScaleSame ∧ n < c.tMax then (c.tMax : ℝ) / n else 1)
    / (if c.normalizeGradByTMax then (n : ℝ) else 1)

/-- One term of `pi_loss`, `pfrl/agents/a3c.py:186-192`.  The advantage is detached: it uses the values `v` of the current
parameters, which are not differentiated. -/
noncomputable def lossTerm (beta : ℝ) (v : S → ℝ) (p : S → A → ℝ) (x : Step S A) (R : ℝ) : ℝ :=
  -(R - v x.s) * Real.log (p x.s x.a) - beta * entropy (p x.s)

/-- The policy loss of A3C for the segment `tr`, as a function of the policy, `pfrl/agents/a3c.py:130-202`.  A new agent is
run on the segment; `updates` are the returns it used. -/
noncomputable def a3cLoss (c : A3CCfg) (v : S → ℝ) (p : S → A → ℝ) (tr : List (Step S A)) : ℝ :=
  match (A3C.new : A3C ℝ).run c.gamma c.tMax (tr.map (toTurn v)) with
  | .error _ => 0
  | .ok a => ((tr.zip a.updates.flatten).map fun xR => lossTerm c.beta v p xR.1 xR.2).sum * c.factor tr.length

/-- A3C ends its segment with the episode, `pfrl/agents/a3c.py:273-283`. -/
def a3cStop (o : Outcome S) : Bool := o.done || o.reset

/-- The contribution of one process to the action and entropy losses of A2C without GAE, before averaging,
`pfrl/agents/a2c.py:169-198`. -/
noncomputable def a2cSum (c : A2CCfg ℝ) (v : S → ℝ) (p : S → A → ℝ) (tr : List (Step S A)) : ℝ × ℝ :=
  match (A2C.new : A2C ℝ).run c (tr.map (toTurn v)) with
  | .error _ => (0, 0)
  | .ok a => (((tr.zip a.updates.flatten).map fun xR => (xR.2 - v xR.1.s) * Real.log (p xR.1.s xR.1.a)).sum,
      (tr.map fun x => entropy (p x.s)).sum)

/-- `action_loss * pi_loss_coef - dist_entropy * entropy_coeff`, `pfrl/agents/a2c.py:177-198`: means over all steps of all
processes. -/
noncomputable def a2cLoss (c : A2CCfg ℝ) (piLossCoef entropyCoeff : ℝ) (v : S → ℝ) (p : S → A → ℝ)
    (trs : List (List (Step S A))) : ℝ :=
  -((trs.map fun tr => (a2cSum c v p tr).1).sum / (c.updateSteps * trs.length)) * piLossCoef
    - (trs.map fun tr => (a2cSum c v p tr).2).sum / (c.updateSteps * trs.length) * entropyCoeff

/-- A2C never ends its rollout early. -/
def a2cStop (_ : Outcome S) : Bool := false

/-- The loss of REINFORCE with `batchsize` 1 for one episode, `pfrl/agents/reinforce.py:176-192`: the episode's rewards,
the last one twice (lines 130 and 145). -/
noncomputable def reinforceLoss (beta : ℝ) (p : S → A → ℝ) (tr : List (Step S A)) : ℝ :=
  (((returnsOf ((tr.map fun x => x.out.reward) ++ ((tr.getLast?.map fun x => x.out.reward).toList))).zip tr).map
    fun Rx => -Rx.1 * Real.log (p Rx.2.s Rx.2.a) - beta * entropy (p Rx.2.s)).sum

/-- Independent processes, one start state each. -/
noncomputable def Env.expectAll (M : Env S A O) (stop : Outcome S → Bool) (w : S → A → ℝ) (k : ℕ) :
    List S → (List (List (Step S A)) → ℝ) → ℝ
  | [], f => f []
  | s :: ss, f => M.expect stop w k s fun tr _ => M.expectAll stop w k ss fun trs => f (tr :: trs)

/-! ## Specification -/

/-- The return of the first step of `tr`: discounted rewards up to the first cut; if there is none, plus the discounted
value of the state after the trajectory. -/
noncomputable def Spec.ret (gamma : ℝ) (v : S → ℝ) (cut : Outcome S → Bool) : List (Step S A) → S → ℝ
  | [], e => v e
  | x :: tr, e => x.out.reward + gamma * if cut x.out then 0 else Spec.ret gamma v cut tr e

/-- A policy that is differentiable at `θ₀` and gives every action a positive probability. -/
structure Spec.Smooth (p : ℝ → S → A → ℝ) (p' : S → A → ℝ) (θ₀ : ℝ) : Prop where
  pos : ∀ s a, 0 < p θ₀ s a
  sum : ∀ θ s, ∑ a, p θ s a = 1
  deriv : ∀ s a, HasDerivAt (fun θ => p θ s a) (p' s a) θ₀

/-- The sum of `D (steps left after this one) state` over the steps of a trajectory of at most `k` steps. -/
def Spec.along (D : ℕ → S → ℝ) : ℕ → List (Step S A) → ℝ
  | _, [] => 0
  | k, x :: tr => D (k - 1) x.s + Spec.along D (k - 1) tr

/-- Episode ends as A2C sees them. -/
def a2cCut (o : Outcome S) : Bool := o.done || o.reset

/-! ## Lemmas on expectations -/

variable (M : Env S A O) {stop : Outcome S → Bool} {w : S → A → ℝ}

/-- The trajectories that can occur. -/
def Env.Gen (M : Env S A O) (stop : Outcome S → Bool) : ℕ → S → List (Step S A) → S → Prop
  | 0, s, tr, e => tr = [] ∧ e = s
  | k + 1, s, tr, e => ∃ a o,
      (stop (M.out s a o) = true ∧ tr = [⟨s, a, M.out s a o⟩] ∧ e = (M.out s a o).next) ∨
      (stop (M.out s a o) = false ∧ ∃ tr', tr = ⟨s, a, M.out s a o⟩ :: tr' ∧ M.Gen stop k (M.out s a o).next tr' e)

theorem expect_congr : ∀ (k : ℕ) (s : S) {f g : List (Step S A) → S → ℝ},
    (∀ tr e, M.Gen stop k s tr e → f tr e = g tr e) → M.expect stop w k s f = M.expect stop w k s g := by
  intro k
  induction k with
  | zero => intro s f g h; exact h [] s ⟨rfl, rfl⟩
  | succ k ih =>
    intro s f g h
    unfold Env.expect Env.choose
    refine sum_congr rfl fun a _ => congrArg _ (sum_congr rfl fun o _ => congrArg _ ?_)
    by_cases hs : stop (M.out s a o) = true
    · rw [if_pos hs, if_pos hs]
      exact h _ _ ⟨a, o, .inl ⟨hs, rfl, rfl⟩⟩
    · rw [if_neg hs, if_neg hs]
      refine ih _ fun tr e ht => h _ _ ⟨a, o, .inr ⟨by simpa using hs, tr, rfl, ht⟩⟩

theorem expect_add (k : ℕ) : ∀ (s : S) (f g : List (Step S A) → S → ℝ),
    M.expect stop w k s (fun tr e => f tr e + g tr e) = M.expect stop w k s f + M.expect stop w k s g := by
  induction k with
  | zero => intro s f g; rfl
  | succ k ih =>
    intro s f g
    simp only [Env.expect, Env.choose]
    rw [← sum_add_distrib]
    refine sum_congr rfl fun a _ => ?_
    rw [← mul_add, ← sum_add_distrib]
    refine congrArg (fun z : ℝ => w s a * z) (sum_congr rfl fun o _ => ?_)
    rw [← mul_add]
    congr 1
    split
    · rfl
    · exact ih _ _ _

theorem expect_mul (c : ℝ) (k : ℕ) : ∀ (s : S) (f : List (Step S A) → S → ℝ),
    M.expect stop w k s (fun tr e => c * f tr e) = c * M.expect stop w k s f := by
  induction k with
  | zero => intro s f; rfl
  | succ k ih =>
    intro s f
    simp only [Env.expect, Env.choose]
    rw [mul_sum]
    refine sum_congr rfl fun a _ => ?_
    rw [← mul_assoc, mul_comm c, mul_assoc]
    refine congrArg (fun z : ℝ => w s a * z) ?_
    rw [mul_sum]
    refine sum_congr rfl fun o _ => ?_
    rw [mul_left_comm c]
    refine congrArg (fun z : ℝ => M.prob s a o * z) ?_
    split
    · rfl
    · exact ih _ _

theorem expect_const (hw : ∀ s, ∑ a, w s a = 1) (c : ℝ) (k : ℕ) : ∀ s : S,
    M.expect stop w k s (fun _ _ => c) = c := by
  induction k with
  | zero => intro s; rfl
  | succ k ih =>
    intro s
    simp only [Env.expect, Env.choose, ih, ite_self]
    simp only [← sum_mul, M.sum_prob, one_mul, hw]

theorem choose_hasDeriv {s : S} {f : List (Step S A) → S → ℝ} {p : ℝ → S → A → ℝ} {p' : S → A → ℝ} {θ₀ : ℝ}
    (hp : Spec.Smooth p p' θ₀) (rest : S → (List (Step S A) → S → ℝ) → ℝ) :
    HasDerivAt (fun θ => M.choose stop (p θ s) rest s f) (M.choose stop (p' s) rest s f) θ₀ := by
  unfold Env.choose
  have := HasDerivAt.fun_sum (u := Finset.univ) (x := θ₀)
    (A := fun a θ => p θ s a * ∑ o, M.prob s a o *
      if stop (M.out s a o) then f [⟨s, a, M.out s a o⟩] (M.out s a o).next
      else rest (M.out s a o).next fun tr e => f (⟨s, a, M.out s a o⟩ :: tr) e)
    (fun a _ => (hp.deriv s a).mul_const _)
  exact this

theorem expect_hasDeriv {θ₀ : ℝ} (k : ℕ) : ∀ (s : S) {f : ℝ → List (Step S A) → S → ℝ} {f' : List (Step S A) → S → ℝ},
    (∀ tr e, HasDerivAt (fun θ => f θ tr e) (f' tr e) θ₀) →
    HasDerivAt (fun θ => M.expect stop w k s (f θ)) (M.expect stop w k s f') θ₀ := by
  induction k with
  | zero => intro s f f' h; exact h [] s
  | succ k ih =>
    intro s f f' h
    simp only [Env.expect, Env.choose]
    refine HasDerivAt.fun_sum fun a _ => HasDerivAt.const_mul _ (HasDerivAt.fun_sum fun o _ => HasDerivAt.const_mul _ ?_)
    by_cases hs : stop (M.out s a o) = true
    · simp only [if_pos hs]; exact h _ _
    · simp only [if_neg hs]
      exact ih _ fun tr e => h _ _

/-! ## Lemmas on scores -/

variable {gamma : ℝ} {v : S → ℝ} {cut : Outcome S → Bool}

/-- Sum of score times advantage. -/
noncomputable def score (gamma : ℝ) (v : S → ℝ) (cut : Outcome S → Bool) (φ : S → A → ℝ) :
    List (Step S A) → S → ℝ
  | [], _ => 0
  | x :: tr, e => φ x.s x.a * (Spec.ret gamma v cut (x :: tr) e - v x.s) + score gamma v cut φ tr e

theorem smooth_sum {p : ℝ → S → A → ℝ} {p' : S → A → ℝ} {θ₀ : ℝ} (hp : Spec.Smooth p p' θ₀) (s : S) :
    ∑ a, p' s a = 0 := by
  have h1 : HasDerivAt (fun θ => ∑ a, p θ s a) (∑ a, p' s a) θ₀ := HasDerivAt.fun_sum fun a _ => hp.deriv s a
  have h2 : (fun θ => ∑ a, p θ s a) = fun _ => 1 := funext fun θ => hp.sum θ s
  rw [h2] at h1
  exact h1.unique (hasDerivAt_const θ₀ (1 : ℝ))

/-- The return after a first step. -/
noncomputable def target (M : Env S A O) (stop : Outcome S → Bool) (w : S → A → ℝ) (gamma : ℝ) (v : S → ℝ)
    (cut : Outcome S → Bool) (k : ℕ) (o : Outcome S) : ℝ :=
  o.reward + gamma * if cut o then 0 else if stop o then v o.next else M.expect stop w k o.next (Spec.ret gamma v cut)

theorem choose_ret (hw : ∀ s, ∑ a, w s a = 1) (u : A → ℝ) (k : ℕ) (s : S) :
    M.choose stop u (M.expect stop w k) s (Spec.ret gamma v cut)
      = ∑ a, u a * ∑ o, M.prob s a o * target M stop w gamma v cut k (M.out s a o) := by
  unfold Env.choose
  refine sum_congr rfl fun a _ => congrArg _ (sum_congr rfl fun o _ => congrArg _ ?_)
  unfold target
  by_cases hs : stop (M.out s a o) = true
  · simp only [if_pos hs, Spec.ret]
  · simp only [if_neg hs, Spec.ret]
    rw [expect_add, expect_const M hw, expect_mul]
    congr 2
    by_cases hc : cut (M.out s a o) = true
    · simp only [if_pos hc]; exact expect_const M hw 0 k _
    · simp only [if_neg hc]

theorem expect_score {p : ℝ → S → A → ℝ} {p' : S → A → ℝ} {θ₀ : ℝ} (hp : Spec.Smooth p p' θ₀) (k : ℕ) : ∀ s : S,
    M.expect stop (p θ₀) k s (score gamma v cut fun s a => p' s a / p θ₀ s a)
      = M.expect stop (p θ₀) k s fun tr _ =>
        Spec.along (fun j s => M.choose stop (p' s) (M.expect stop (p θ₀) j) s (Spec.ret gamma v cut)) k tr := by
  have hw := hp.sum θ₀
  induction k with
  | zero => intro s; rfl
  | succ k ih =>
    intro s
    set φ : S → A → ℝ := fun s a => p' s a / p θ₀ s a with hφ
    set D : ℕ → S → ℝ := fun j s => M.choose stop (p' s) (M.expect stop (p θ₀) j) s (Spec.ret gamma v cut) with hD
    set U : Outcome S → ℝ := fun o => if stop o then 0 else
      M.expect stop (p θ₀) k o.next fun tr _ => Spec.along D k tr with hU
    have hR : M.expect stop (p θ₀) (k + 1) s (fun tr _ => Spec.along D (k + 1) tr)
        = D k s + ∑ a, p θ₀ s a * ∑ o, M.prob s a o * U (M.out s a o) := by
      simp only [Env.expect, Env.choose, Spec.along, Nat.add_sub_cancel, add_zero]
      have : ∀ a o, (if stop (M.out s a o) = true then D k s else
          M.expect stop (p θ₀) k (M.out s a o).next fun tr _ => D k s + Spec.along D k tr)
          = D k s + U (M.out s a o) := by
        intro a o
        by_cases hs : stop (M.out s a o) = true
        · simp [hU, hs]
        · simp only [hU, if_neg hs]
          rw [expect_add, expect_const M hw]
      simp only [this, mul_add, sum_add_distrib, ← sum_mul, M.sum_prob, one_mul, hw]
    have hL : M.expect stop (p θ₀) (k + 1) s (score gamma v cut φ)
        = ∑ a, p θ₀ s a * ∑ o, M.prob s a o *
          (φ s a * (target M stop (p θ₀) gamma v cut k (M.out s a o) - v s) + U (M.out s a o)) := by
      simp only [Env.expect, Env.choose]
      refine sum_congr rfl fun a _ => congrArg _ (sum_congr rfl fun o _ => congrArg _ ?_)
      by_cases hs : stop (M.out s a o) = true
      · simp only [if_pos hs, score, Spec.ret, target, hU]
      · simp only [if_neg hs, score, hU]
        rw [expect_add, expect_mul, ih]
        congr 2
        simp only [sub_eq_add_neg]
        rw [expect_add, expect_const M hw]
        congr 1
        simp only [Spec.ret, target, if_neg hs]
        rw [expect_add, expect_const M hw, expect_mul]
        congr 2
        by_cases hc : cut (M.out s a o) = true
        · simp only [if_pos hc]; exact expect_const M hw 0 k _
        · simp only [if_neg hc]
    rw [hL, hR]
    have hsplit : ∀ a, p θ₀ s a * ∑ o, M.prob s a o *
        (φ s a * (target M stop (p θ₀) gamma v cut k (M.out s a o) - v s) + U (M.out s a o))
        = p' s a * ∑ o, M.prob s a o * target M stop (p θ₀) gamma v cut k (M.out s a o) - p' s a * v s
          + p θ₀ s a * ∑ o, M.prob s a o * U (M.out s a o) := by
      intro a
      have hpa : p θ₀ s a * φ s a = p' s a := by
        simp only [hφ]
        exact mul_div_cancel₀ _ (hp.pos s a).ne'
      have h1 : ∑ o, M.prob s a o *
          (φ s a * (target M stop (p θ₀) gamma v cut k (M.out s a o) - v s) + U (M.out s a o))
          = φ s a * ((∑ o, M.prob s a o * target M stop (p θ₀) gamma v cut k (M.out s a o)) - v s)
            + ∑ o, M.prob s a o * U (M.out s a o) := by
        rw [mul_sub, mul_sum]
        have : φ s a * v s = ∑ o, M.prob s a o * (φ s a * v s) := by rw [← sum_mul, M.sum_prob, one_mul]
        rw [this, ← sum_sub_distrib, ← sum_add_distrib]
        refine sum_congr rfl fun o _ => ?_
        ring
      rw [h1, mul_add, ← mul_assoc, hpa]
      ring
    simp only [hsplit, sum_add_distrib, sum_sub_distrib]
    rw [← sum_mul, smooth_sum hp s, zero_mul, sub_zero]
    congr 1
    simp only [hD]
    rw [choose_ret M hw]

theorem choose_add_left (u₁ u₂ : A → ℝ) (rest) (s : S) (f) :
    M.choose stop (fun a => u₁ a + u₂ a) rest s f = M.choose stop u₁ rest s f + M.choose stop u₂ rest s f := by
  unfold Env.choose
  simp only [add_mul, sum_add_distrib]

/-- Gradient of the expected return when nothing is discounted and only ends of the trajectory cut the return. -/
theorem expect_ret_hasDeriv {p : ℝ → S → A → ℝ} {p' : S → A → ℝ} {θ₀ : ℝ} (hp : Spec.Smooth p p' θ₀)
    (hcut : ∀ o : Outcome S, cut o = true → stop o = true) (k : ℕ) : ∀ s : S,
    HasDerivAt (fun θ => M.expect stop (p θ) k s (Spec.ret 1 v cut))
      (M.expect stop (p θ₀) k s fun tr _ =>
        Spec.along (fun j s => M.choose stop (p' s) (M.expect stop (p θ₀) j) s (Spec.ret 1 v cut)) k tr) θ₀ := by
  have hw := hp.sum θ₀
  induction k with
  | zero => intro s; exact hasDerivAt_const θ₀ (v s)
  | succ k ih =>
    intro s
    set D : ℕ → S → ℝ := fun j s => M.choose stop (p' s) (M.expect stop (p θ₀) j) s (Spec.ret 1 v cut) with hD
    set U : Outcome S → ℝ := fun o => if stop o then 0 else
      M.expect stop (p θ₀) k o.next fun tr _ => Spec.along D k tr with hU
    have hR : M.expect stop (p θ₀) (k + 1) s (fun tr _ => Spec.along D (k + 1) tr)
        = D k s + ∑ a, p θ₀ s a * ∑ o, M.prob s a o * U (M.out s a o) := by
      simp only [Env.expect, Env.choose, Spec.along, Nat.add_sub_cancel, add_zero]
      have : ∀ a o, (if stop (M.out s a o) = true then D k s else
          M.expect stop (p θ₀) k (M.out s a o).next fun tr _ => D k s + Spec.along D k tr)
          = D k s + U (M.out s a o) := by
        intro a o
        by_cases hs : stop (M.out s a o) = true
        · simp [hU, hs]
        · simp only [hU, if_neg hs]
          rw [expect_add, expect_const M hw]
      simp only [this, mul_add, sum_add_distrib, ← sum_mul, M.sum_prob, one_mul, hw]
    rw [hR]
    have hL : ∀ θ, M.expect stop (p θ) (k + 1) s (Spec.ret 1 v cut)
        = ∑ a, p θ s a * ∑ o, M.prob s a o * target M stop (p θ) 1 v cut k (M.out s a o) := fun θ => by
      rw [← choose_ret M (hp.sum θ)]; rfl
    simp only [hL]
    have htarget : ∀ o, HasDerivAt (fun θ => target M stop (p θ) 1 v cut k o) (U o) θ₀ := by
      intro o
      simp only [target, hU, one_mul]
      by_cases hs : stop o = true
      · simp only [if_pos hs]
        exact hasDerivAt_const _ _
      · have hc : ¬ cut o = true := fun hc => hs (hcut o hc)
        simp only [if_neg hs, if_neg hc]
        exact (ih o.next).const_add _
    have h1 : HasDerivAt (fun θ => ∑ a, p θ s a * ∑ o, M.prob s a o * target M stop (p θ) 1 v cut k (M.out s a o))
        (∑ a, (p' s a * (∑ o, M.prob s a o * target M stop (p θ₀) 1 v cut k (M.out s a o))
          + p θ₀ s a * ∑ o, M.prob s a o * U (M.out s a o))) θ₀ :=
      HasDerivAt.fun_sum fun a _ => (hp.deriv s a).mul
        (HasDerivAt.fun_sum fun o _ => (htarget _).const_mul _)
    refine h1.congr_deriv ?_
    rw [sum_add_distrib]
    congr 1
    simp only [hD]
    rw [choose_ret M hw]

theorem entropy_hasDeriv {p : ℝ → S → A → ℝ} {p' : S → A → ℝ} {θ₀ : ℝ} (hp : Spec.Smooth p p' θ₀) (s : S) :
    HasDerivAt (fun θ => entropy (p θ s))
      (-∑ a, (p' s a * Real.log (p θ₀ s a) + p θ₀ s a * (p' s a / p θ₀ s a))) θ₀ := by
  unfold entropy
  exact (HasDerivAt.fun_sum fun a _ => (hp.deriv s a).mul ((hp.deriv s a).log (hp.pos s a).ne')).neg

theorem list_sum_hasDeriv {α : Type _} (l : List α) {f : ℝ → α → ℝ} {f' : α → ℝ} {θ₀ : ℝ}
    (h : ∀ x ∈ l, HasDerivAt (fun θ => f θ x) (f' x) θ₀) :
    HasDerivAt (fun θ => (l.map (f θ)).sum) ((l.map f').sum) θ₀ := by
  induction l with
  | nil => exact hasDerivAt_const _ _
  | cons x l ih =>
    simp only [List.map_cons, List.sum_cons]
    exact (h x (by simp)).add (ih fun y hy => h y (by simp [hy]))

/-! ## Lemmas on the agents -/

/-- The returns of all steps. -/
noncomputable def rets (gamma : ℝ) (v : S → ℝ) (cut : Outcome S → Bool) : List (Step S A) → S → List ℝ
  | [], _ => []
  | x :: tr, e => Spec.ret gamma v cut (x :: tr) e :: rets gamma v cut tr e

theorem score_eq (φ : S → A → ℝ) (tr : List (Step S A)) (e : S) :
    score gamma v cut φ tr e
      = ((tr.zip (rets gamma v cut tr e)).map fun xR => φ xR.1.s xR.1.a * (xR.2 - v xR.1.s)).sum := by
  induction tr with
  | nil => rfl
  | cons x tr ih => simp only [score, rets, List.zip_cons_cons, List.map_cons, List.sum_cons, ih]

theorem a3c_run_rollout (γ : ℝ) {tMax : ℕ} (h1 : 0 < tMax) : ∀ (init : List (Turn ℝ)) (last : Turn ℝ) (cur : List (Turn ℝ))
    {a : A3C ℝ}, A3CIn tMax a cur → Returns.Spec.Rollout tMax (cur ++ init) last →
    ∃ a', a.run γ tMax (init ++ [last]) = .ok a' ∧ a'.updates = a.updates ++ [Returns.Spec.a3cReturns γ (cur ++ init) last] := by
  intro init
  induction init with
  | nil =>
    intro last cur a h hr
    rw [List.append_nil] at hr
    obtain ⟨a', k1, k2⟩ := a3c_observe_spec γ h1 h last
    rcases k2 with ⟨_, _, k5⟩ | ⟨k4, _⟩
    · exact ⟨a', by simp only [List.nil_append, A3C.run, k1], by simpa using k5⟩
    · exfalso
      rcases hr.2.2 with h | h
      · have := k4.noEnd last (by simp)
        rw [h] at this
        cases this
      · have := k4.lt
        simp at this
        omega
  | cons x init ih =>
    intro last cur a h hr
    obtain ⟨a1, k1, k2⟩ := a3c_observe_spec γ h1 h x
    have hx : x.ended = false := hr.1 x (by simp)
    rcases k2 with ⟨k3, _, _⟩ | ⟨k4, k5⟩
    · exfalso
      rcases k3.2.2 with h | h
      · rw [hx] at h; cases h
      · have := hr.2.1
        simp at this
        omega
    · obtain ⟨a2, l1, l2⟩ := ih last (cur ++ [x]) k4 (by simpa using hr)
      refine ⟨a2, ?_, by rw [l2, k5]; simp⟩
      simp only [List.cons_append, A3C.run, k1]
      exact l1

theorem a3cReturns_cons (γ : ℝ) (x : Turn ℝ) (init : List (Turn ℝ)) (last : Turn ℝ) :
    Returns.Spec.a3cReturns γ (x :: init) last
      = (Returns.Spec.disc γ (((x :: init) ++ [last]).map Turn.reward)
          + if last.done then 0 else γ ^ (init.length + 2) * last.boot) :: Returns.Spec.a3cReturns γ init last := by
  unfold Returns.Spec.a3cReturns
  rw [List.length_cons, List.range_succ_eq_map, List.map_cons, List.map_map]
  congr 1
  apply List.map_congr_left
  intro i _
  simp [Nat.succ_eq_add_one, Nat.add_sub_add_right]

theorem gen_rollout (k : ℕ) : ∀ (s : S) (tr : List (Step S A)) (e : S), M.Gen a3cStop k s tr e → 0 < k →
    ∃ init last, tr = init ++ [last] ∧ e = last.out.next ∧ (∀ x ∈ init, a3cStop x.out = false) ∧ init.length < k ∧
      (a3cStop last.out = true ∨ init.length + 1 = k) := by
  induction k with
  | zero => intro s tr e _ h; omega
  | succ k ih =>
    intro s tr e h _
    obtain ⟨a, o, ⟨h1, rfl, rfl⟩ | ⟨h1, tr', rfl, h2⟩⟩ := h
    · exact ⟨[], _, rfl, rfl, by simp, by simp, .inl h1⟩
    · by_cases hk : k = 0
      · subst hk
        obtain ⟨rfl, rfl⟩ := h2
        exact ⟨[], _, rfl, rfl, by simp, by simp, .inr rfl⟩
      · obtain ⟨init, last, rfl, g2, g3, g4, g5⟩ := ih _ _ _ h2 (by omega)
        refine ⟨_ :: init, last, rfl, g2, ?_, by simpa using g4, ?_⟩
        · intro x hx
          rcases List.mem_cons.1 hx with rfl | hx
          · exact h1
          · exact g3 x hx
        · rcases g5 with h | h
          · exact .inl h
          · exact .inr (by simpa using h)

theorem a3cReturns_rets (γ : ℝ) (v : S → ℝ) (last : Step S A) : ∀ (init : List (Step S A)),
    (∀ x ∈ init, a3cStop x.out = false) →
    Returns.Spec.a3cReturns γ (init.map (toTurn v)) (toTurn v last)
      = rets γ v Outcome.done (init ++ [last]) last.out.next := by
  have hret : ∀ init : List (Step S A), (∀ x ∈ init, a3cStop x.out = false) →
      Spec.ret γ v Outcome.done (init ++ [last]) last.out.next
        = Returns.Spec.disc γ ((init.map (toTurn v) ++ [toTurn v last]).map Turn.reward)
          + if (toTurn v last).done then 0 else γ ^ (init.length + 1) * (toTurn v last).boot := by
    intro init
    induction init with
    | nil =>
      intro _
      simp only [List.nil_append, Spec.ret, List.map_nil, List.map_cons, disc_cons, disc_nil, toTurn, List.length_nil]
      by_cases hd : last.out.done = true
      · simp [hd]
      · simp [hd]
    | cons x init ih =>
      intro h
      have hx : x.out.done = false := by
        have := h x (by simp)
        simp only [a3cStop, Bool.or_eq_false_iff] at this
        exact this.1
      simp only [List.cons_append, Spec.ret, hx, Bool.false_eq_true, if_false, List.map_cons, disc_cons, List.length_cons]
      rw [ih fun y hy => h y (by simp [hy])]
      have hd : (toTurn v last).done = last.out.done := rfl
      have hr : (toTurn v x).reward = x.out.reward := rfl
      rw [hd, hr]
      by_cases hl : last.out.done = true
      · simp only [if_pos hl]; ring
      · simp only [if_neg hl]; ring
  intro init
  induction init with
  | nil =>
    intro h
    have := hret [] h
    simp only [List.nil_append] at this
    simp only [List.map_nil, List.nil_append, rets, this]
    simp [Returns.Spec.a3cReturns]
  | cons x init ih =>
    intro h
    rw [List.map_cons, a3cReturns_cons, ih fun y hy => h y (by simp [hy])]
    have := hret (x :: init) h
    simp only [List.cons_append, rets, List.map_cons, List.length_cons, List.length_map] at this ⊢
    rw [this]

/-- What the loss of A3C is for the trajectories that can occur. -/
theorem a3cLoss_eq (c : A3CCfg) (hc : 0 < c.tMax) (v : S → ℝ) (p : S → A → ℝ) (s : S) (tr : List (Step S A)) (e : S)
    (h : M.Gen a3cStop c.tMax s tr e) :
    a3cLoss c v p tr = ((tr.zip (rets c.gamma v Outcome.done tr e)).map fun xR => lossTerm c.beta v p xR.1 xR.2).sum
      * c.factor tr.length := by
  obtain ⟨init, last, rfl, rfl, g3, g4, g5⟩ := gen_rollout M _ s tr e h hc
  have hended : ∀ x : Step S A, (toTurn v x).ended = a3cStop x.out := fun x => rfl
  obtain ⟨a, k1, k2⟩ := a3c_run_rollout c.gamma hc (init.map (toTurn v)) (toTurn v last) [] (a := A3C.new)
    ⟨rfl, hc, by simp, by simp⟩
    ⟨by
      intro t ht
      simp only [List.nil_append, List.mem_map] at ht
      obtain ⟨x, hx, rfl⟩ := ht
      exact g3 x hx, by simpa using g4, by
      simp only [List.nil_append, List.length_map, hended]
      exact g5⟩
  unfold a3cLoss
  rw [List.map_append, List.map_singleton, k1]
  simp only [k2, A3C.new, List.nil_append, List.flatten_cons, List.flatten_nil, List.append_nil]
  rw [a3cReturns_rets c.gamma v last init g3]

theorem gen_length_a2c (k : ℕ) : ∀ (s : S) (tr : List (Step S A)) (e : S), M.Gen a2cStop k s tr e →
    tr.length = k ∧ ∀ v : S → ℝ, 0 < k → ((tr.map (toTurn v)).getLast?.map Turn.boot).getD 0 = v e := by
  induction k with
  | zero => intro s tr e h; exact ⟨by rw [h.1]; rfl, fun _ h => absurd h (by omega)⟩
  | succ k ih =>
    intro s tr e h
    obtain ⟨a, o, ⟨h1, _⟩ | ⟨h1, tr', rfl, h2⟩⟩ := h
    · cases h1
    · obtain ⟨g1, g2⟩ := ih _ _ _ h2
      refine ⟨by simp [g1], fun v _ => ?_⟩
      by_cases hk : k = 0
      · subst hk
        obtain ⟨rfl, rfl⟩ := h2
        simp [toTurn]
      · have hne : tr' ≠ [] := by
          intro hc
          rw [hc] at g1
          simp at g1
          omega
        have := g2 v (by omega)
        obtain ⟨y, l, rfl⟩ := List.exists_cons_of_ne_nil hne
        simp only [List.map_cons, List.getLast?_cons_cons] at this ⊢
        exact this

theorem recReturn_ret (γ : ℝ) (v : S → ℝ) (e : S) (tr : List (Step S A)) :
    recReturn γ (v e) (tr.map (toTurn v)) = Spec.ret γ v a2cCut tr e := by
  induction tr with
  | nil => rfl
  | cons x tr ih =>
    simp only [List.map_cons, recReturn, Spec.ret, ih]
    rfl

theorem rets_eq_map (γ : ℝ) (v : S → ℝ) (cut : Outcome S → Bool) (e : S) (tr : List (Step S A)) :
    rets γ v cut tr e = (List.range tr.length).map fun i => Spec.ret γ v cut (tr.drop i) e := by
  induction tr with
  | nil => rfl
  | cons x tr ih =>
    rw [rets, List.length_cons, List.range_succ_eq_map, List.map_cons, List.map_map, ih]
    rfl

theorem a2cSum_eq (c : A2CCfg ℝ) (hg : c.useGae = false) (hc : 0 < c.updateSteps) (v : S → ℝ) (p : S → A → ℝ) (s : S)
    (tr : List (Step S A)) (e : S) (h : M.Gen a2cStop c.updateSteps s tr e) :
    a2cSum c v p tr = (((tr.zip (rets c.gamma v a2cCut tr e)).map fun xR =>
      (xR.2 - v xR.1.s) * Real.log (p xR.1.s xR.1.a)).sum, (tr.map fun x => entropy (p x.s)).sum) := by
  obtain ⟨g1, g2⟩ := gen_length_a2c M _ s tr e h
  obtain ⟨a, k1, k2⟩ := a2c_returns c hc [tr.map (toTurn v)] (by simp [g1]) [] hc
  unfold a2cSum
  simp only [List.flatten_cons, List.flatten_nil, List.append_nil] at k1
  rw [k1]
  simp only [k2, List.map_cons, List.map_nil, List.flatten_cons, List.flatten_nil, List.append_nil]
  have : Returns.Spec.rolloutReturns c (tr.map (toTurn v)) = rets c.gamma v a2cCut tr e := by
    rw [rets_eq_map, Returns.Spec.rolloutReturns, List.length_map]
    apply List.map_congr_left
    intro i _
    rw [Returns.Spec.a2cReturn, hg]
    simp only [Bool.false_eq_true, if_false]
    rw [nStepReturn_eq_rec, g2 v hc, ← List.map_drop, recReturn_ret]
  rw [this]

/-! ## C101 -/

/-- **C101 (A3C, per step).** Averaged over all segments the environment and the current policy can produce, the gradient
of A3C's policy loss is minus the sum, over the steps of the segment, of the derivative of the expected (discounted,
bootstrapped) return from that step's state with respect to the choice made in that step alone, minus `beta` times the
gradient of the entropies.  The values used as a baseline have no influence on it. -/
theorem a3c_gradient_per_step (M : Env S A O) (c : A3CCfg) (hc : 0 < c.tMax) (hk : c.keepLossScaleSame = false)
    (hn : c.normalizeGradByTMax = false) (v : S → ℝ) (p : ℝ → S → A → ℝ) (p' : S → A → ℝ) (θ₀ : ℝ)
    (hp : Spec.Smooth p p' θ₀) (s : S) :
    ∃ (D : ℕ → S → ℝ) (h : ℝ),
      (∀ k s, HasDerivAt (fun θ => M.choose a3cStop (p θ s) (M.expect a3cStop (p θ₀) k) s
        (Spec.ret c.gamma v Outcome.done)) (D k s) θ₀) ∧
      HasDerivAt (fun θ => M.expect a3cStop (p θ₀) c.tMax s fun tr _ => (tr.map fun x => entropy (p θ x.s)).sum) h θ₀ ∧
      HasDerivAt (fun θ => M.expect a3cStop (p θ₀) c.tMax s fun tr _ => a3cLoss c v (p θ) tr)
        (-(c.piLossCoef * (M.expect a3cStop (p θ₀) c.tMax s (fun tr _ => Spec.along D c.tMax tr) + c.beta * h))) θ₀ := by
  set H : S → ℝ := fun s => -∑ a, (p' s a * Real.log (p θ₀ s a) + p θ₀ s a * (p' s a / p θ₀ s a)) with hH
  refine ⟨_, _, fun k s => choose_hasDeriv M hp _,
    expect_hasDeriv M c.tMax s (f' := fun tr _ => (tr.map fun x => H x.s).sum)
      fun tr e => list_sum_hasDeriv tr fun x _ => entropy_hasDeriv hp x.s, ?_⟩
  have hfac : ∀ n, c.factor n = c.piLossCoef := by
    intro n
    simp [A3CCfg.factor, hk, hn]
  have h1 : (fun θ => M.expect a3cStop (p θ₀) c.tMax s fun tr _ => a3cLoss c v (p θ) tr)
      = fun θ => M.expect a3cStop (p θ₀) c.tMax s fun tr e =>
        ((tr.zip (rets c.gamma v Outcome.done tr e)).map fun xR => lossTerm c.beta v (p θ) xR.1 xR.2).sum
          * c.piLossCoef := by
    funext θ
    refine expect_congr M _ _ fun tr e ht => ?_
    rw [a3cLoss_eq M c hc v (p θ) s tr e ht, hfac]
  rw [h1]
  have hterm : ∀ (x : Step S A) (R : ℝ), HasDerivAt (fun θ => lossTerm c.beta v (p θ) x R)
      (-(R - v x.s) * (p' x.s x.a / p θ₀ x.s x.a) - c.beta * H x.s) θ₀ := by
    intro x R
    unfold lossTerm
    exact (((hp.deriv x.s x.a).log (hp.pos _ _).ne').const_mul _).sub ((entropy_hasDeriv hp x.s).const_mul _)
  have h2 := expect_hasDeriv M (stop := a3cStop) (w := p θ₀) c.tMax s (θ₀ := θ₀)
    (f := fun θ tr e => ((tr.zip (rets c.gamma v Outcome.done tr e)).map fun xR =>
      lossTerm c.beta v (p θ) xR.1 xR.2).sum * c.piLossCoef)
    (fun tr e => (list_sum_hasDeriv (tr.zip (rets c.gamma v Outcome.done tr e))
      (f := fun θ xR => lossTerm c.beta v (p θ) xR.1 xR.2) fun xR _ => hterm xR.1 xR.2).mul_const _)
  refine h2.congr_deriv ?_
  have h3 : ∀ (tr : List (Step S A)) (e : S),
      ((tr.zip (rets c.gamma v Outcome.done tr e)).map fun xR =>
        -(xR.2 - v xR.1.s) * (p' xR.1.s xR.1.a / p θ₀ xR.1.s xR.1.a) - c.beta * H xR.1.s).sum * c.piLossCoef
      = (-c.piLossCoef) * (score c.gamma v Outcome.done (fun s a => p' s a / p θ₀ s a) tr e
          + c.beta * (tr.map fun x => H x.s).sum) := by
    intro tr e
    induction tr with
    | nil => simp [score]
    | cons x tr ih =>
      simp only [rets, List.zip_cons_cons, List.map_cons, List.sum_cons, score]
      rw [add_mul, ih]
      ring
  simp only [h3]
  rw [expect_mul, expect_add, expect_mul, expect_score M hp, neg_mul]

/-- **C101 (A3C, undiscounted).** Without discounting, the gradient of A3C's policy loss, averaged over the segments the
current policy produces, is minus the gradient of the expected return of the segment (its rewards, and the value of the
state after it unless the environment terminated), minus `beta` times the gradient of the entropies: descending the
loss ascends the expected return. -/
theorem a3c_policy_gradient_partial (M : Env S A O) (c : A3CCfg) (hc : 0 < c.tMax) (hγ : c.gamma = 1)
    (hk : c.keepLossScaleSame = false) (hn : c.normalizeGradByTMax = false) (v : S → ℝ) (p : ℝ → S → A → ℝ)
    (p' : S → A → ℝ) (θ₀ : ℝ) (hp : Spec.Smooth p p' θ₀) (s : S) :
    ∃ g h, HasDerivAt (fun θ => M.expect a3cStop (p θ) c.tMax s (Spec.ret c.gamma v Outcome.done)) g θ₀ ∧
      HasDerivAt (fun θ => M.expect a3cStop (p θ₀) c.tMax s fun tr _ => (tr.map fun x => entropy (p θ x.s)).sum) h θ₀ ∧
      HasDerivAt (fun θ => M.expect a3cStop (p θ₀) c.tMax s fun tr _ => a3cLoss c v (p θ) tr)
        (-(c.piLossCoef * (g + c.beta * h))) θ₀ := by
  obtain ⟨D, h, h1, h2, h3⟩ := a3c_gradient_per_step M c hc hk hn v p p' θ₀ hp s
  refine ⟨_, h, ?_, h2, h3⟩
  have hD : D = fun j s => M.choose a3cStop (p' s) (M.expect a3cStop (p θ₀) j) s (Spec.ret c.gamma v Outcome.done) := by
    funext j s
    exact (h1 j s).unique (choose_hasDeriv M hp _)
  rw [hD, hγ]
  refine expect_ret_hasDeriv M hp (fun o ho => ?_) c.tMax s
  simp [a3cStop, ho]

/-! ### Several processes -/

theorem expectAll_congr (k : ℕ) : ∀ (ss : List S) {f g : List (List (Step S A)) → ℝ},
    (∀ trs, (∀ tr ∈ trs, ∃ s e, M.Gen stop k s tr e) → trs.length = ss.length → f trs = g trs) →
    M.expectAll stop w k ss f = M.expectAll stop w k ss g := by
  intro ss
  induction ss with
  | nil => intro f g h; exact h [] (by simp) rfl
  | cons s ss ih =>
    intro f g h
    refine expect_congr M k s fun tr e ht => ih fun trs h1 h2 => h _ ?_ (by simp [h2])
    intro t ht'
    rcases List.mem_cons.1 ht' with rfl | ht'
    · exact ⟨s, e, ht⟩
    · exact h1 t ht'

theorem expectAll_hasDeriv {θ₀ : ℝ} (k : ℕ) : ∀ (ss : List S) {f : ℝ → List (List (Step S A)) → ℝ}
    {f' : List (List (Step S A)) → ℝ}, (∀ trs, HasDerivAt (fun θ => f θ trs) (f' trs) θ₀) →
    HasDerivAt (fun θ => M.expectAll stop w k ss (f θ)) (M.expectAll stop w k ss f') θ₀ := by
  intro ss
  induction ss with
  | nil => intro f f' h; exact h []
  | cons s ss ih =>
    intro f f' h
    exact expect_hasDeriv M k s fun tr _ => ih fun trs => h _

theorem expectAll_add (k : ℕ) : ∀ (ss : List S) (f g : List (List (Step S A)) → ℝ),
    M.expectAll stop w k ss (fun t => f t + g t) = M.expectAll stop w k ss f + M.expectAll stop w k ss g := by
  intro ss
  induction ss with
  | nil => intro f g; rfl
  | cons s ss ih =>
    intro f g
    simp only [Env.expectAll, ih]
    exact expect_add M k s _ _

theorem expectAll_mul (k : ℕ) (c : ℝ) : ∀ (ss : List S) (f : List (List (Step S A)) → ℝ),
    M.expectAll stop w k ss (fun t => c * f t) = c * M.expectAll stop w k ss f := by
  intro ss
  induction ss with
  | nil => intro f; rfl
  | cons s ss ih =>
    intro f
    simp only [Env.expectAll, ih]
    exact expect_mul M c k s _

theorem expectAll_const (hw : ∀ s, ∑ a, w s a = 1) (c : ℝ) (k : ℕ) : ∀ ss : List S,
    M.expectAll stop w k ss (fun _ => c) = c := by
  intro ss
  induction ss with
  | nil => rfl
  | cons s ss ih => simp only [Env.expectAll, ih]; exact expect_const M hw c k s

theorem expectAll_sum (hw : ∀ s, ∑ a, w s a = 1) (k : ℕ) (f : List (Step S A) → ℝ) : ∀ ss : List S,
    M.expectAll stop w k ss (fun trs => (trs.map f).sum) = (ss.map fun s => M.expect stop w k s fun tr _ => f tr).sum := by
  intro ss
  induction ss with
  | nil => rfl
  | cons s ss ih =>
    simp only [Env.expectAll, List.map_cons, List.sum_cons]
    have : (fun (tr : List (Step S A)) (_ : S) => M.expectAll stop w k ss fun trs => f tr + (trs.map f).sum)
        = fun tr _ => f tr + (ss.map fun s => M.expect stop w k s fun tr _ => f tr).sum := by
      funext tr _
      rw [expectAll_add, expectAll_const M hw, ih]
    rw [this, expect_add, expect_const M hw]

/-- The last state of a rollout, from the rollout. -/
def lastState (s : S) (tr : List (Step S A)) : S := (tr.getLast?.map fun x => x.out.next).getD s

theorem gen_lastState (k : ℕ) : ∀ (s : S) (tr : List (Step S A)) (e : S), M.Gen stop k s tr e → e = lastState s tr := by
  induction k with
  | zero => intro s tr e h; rw [h.1, h.2]; rfl
  | succ k ih =>
    intro s tr e h
    obtain ⟨a, o, ⟨h1, rfl, rfl⟩ | ⟨h1, tr', rfl, h2⟩⟩ := h
    · rfl
    · rw [ih _ _ _ h2]
      cases tr' with
      | nil => rfl
      | cons y l =>
        simp only [lastState, List.getLast?_cons_cons]
        rw [List.getLast?_eq_some_getLast (by simp)]
        rfl

theorem gen_start (k : ℕ) {s : S} {tr : List (Step S A)} {e : S} (h : M.Gen stop (k + 1) s tr e) :
    ∃ x l, tr = x :: l := by
  obtain ⟨a, o, ⟨_, rfl, _⟩ | ⟨_, tr', rfl, _⟩⟩ := h
  · exact ⟨_, _, rfl⟩
  · exact ⟨_, _, rfl⟩

/-- **C101 (A2C).** For any number of processes, each in any state, the gradient of A2C's loss (without GAE), averaged over
the rollouts the current policy produces, is minus the mean, over all steps of all processes, of the derivative of the
expected return from the step's state with respect to the choice made in that step alone, minus the mean of the gradients
of the entropies.  Returns end at episode ends. -/
theorem a2c_gradient_per_step (M : Env S A O) (c : A2CCfg ℝ) (hc : 0 < c.updateSteps) (hg : c.useGae = false)
    (piLossCoef entropyCoeff : ℝ) (v : S → ℝ) (p : ℝ → S → A → ℝ) (p' : S → A → ℝ) (θ₀ : ℝ) (hp : Spec.Smooth p p' θ₀)
    (ss : List S) :
    ∃ (D : ℕ → S → ℝ) (H : S → ℝ),
      (∀ k s, HasDerivAt (fun θ => M.choose a2cStop (p θ s) (M.expect a2cStop (p θ₀) k) s
        (Spec.ret c.gamma v a2cCut)) (D k s) θ₀) ∧
      (∀ s, HasDerivAt (fun θ => entropy (p θ s)) (H s) θ₀) ∧
      HasDerivAt (fun θ => M.expectAll a2cStop (p θ₀) c.updateSteps ss (a2cLoss c piLossCoef entropyCoeff v (p θ)))
        (-(piLossCoef * ((ss.map fun s => M.expect a2cStop (p θ₀) c.updateSteps s
              fun tr _ => Spec.along D c.updateSteps tr).sum / (c.updateSteps * ss.length))
          + entropyCoeff * ((ss.map fun s => M.expect a2cStop (p θ₀) c.updateSteps s
              fun tr _ => (tr.map fun x => H x.s).sum).sum / (c.updateSteps * ss.length)))) θ₀ := by
  set H : S → ℝ := fun s => -∑ a, (p' s a * Real.log (p θ₀ s a) + p θ₀ s a * (p' s a / p θ₀ s a)) with hH
  refine ⟨_, H, fun k s => choose_hasDeriv M hp _, fun s => entropy_hasDeriv hp s, ?_⟩
  have hw := hp.sum θ₀
  rcases ss with _ | ⟨s0, ss⟩
  · simp only [Env.expectAll, List.map_nil, List.sum_nil, zero_div, mul_zero, add_zero, neg_zero]
    have : (fun θ => a2cLoss c piLossCoef entropyCoeff v (p θ) []) = fun _ => 0 := by
      funext θ
      simp [a2cLoss]
    rw [this]
    exact hasDerivAt_const _ _
  set ss' := s0 :: ss with hss
  set N : ℝ := c.updateSteps * ss'.length with hN
  -- the loss as a sum over processes
  let L : ℝ → List (Step S A) → ℝ := fun θ tr =>
    -(piLossCoef / N) * ((tr.zip (rets c.gamma v a2cCut tr (lastState s0 tr))).map fun xR =>
        (xR.2 - v xR.1.s) * Real.log (p θ xR.1.s xR.1.a)).sum
      + -(entropyCoeff / N) * (tr.map fun x => entropy (p θ x.s)).sum
  let L' : List (Step S A) → ℝ := fun tr =>
    -(piLossCoef / N) * ((tr.zip (rets c.gamma v a2cCut tr (lastState s0 tr))).map fun xR =>
        (xR.2 - v xR.1.s) * (p' xR.1.s xR.1.a / p θ₀ xR.1.s xR.1.a)).sum
      + -(entropyCoeff / N) * (tr.map fun x => H x.s).sum
  have h1 : (fun θ => M.expectAll a2cStop (p θ₀) c.updateSteps ss' (a2cLoss c piLossCoef entropyCoeff v (p θ)))
      = fun θ => M.expectAll a2cStop (p θ₀) c.updateSteps ss' fun trs => (trs.map (L θ)).sum := by
    funext θ
    refine expectAll_congr M _ _ fun trs ht hl => ?_
    have hsum : ∀ tr ∈ trs, a2cSum c v (p θ) tr =
        (((tr.zip (rets c.gamma v a2cCut tr (lastState s0 tr))).map fun xR =>
          (xR.2 - v xR.1.s) * Real.log (p θ xR.1.s xR.1.a)).sum, (tr.map fun x => entropy (p θ x.s)).sum) := by
      intro tr htr
      obtain ⟨s, e, hgen⟩ := ht tr htr
      have he := gen_lastState M _ s tr e hgen
      obtain ⟨k, hk⟩ : ∃ k, c.updateSteps = k + 1 := ⟨c.updateSteps - 1, by omega⟩
      have hne := gen_start M k (by rw [hk] at hgen; exact hgen)
      have : lastState s tr = lastState s0 tr := by
        obtain ⟨x, l, rfl⟩ := hne
        simp only [lastState]
        rw [List.getLast?_eq_some_getLast (by simp)]
        rfl
      rw [a2cSum_eq M c hg hc v (p θ) s tr e hgen, he, this]
    have e1 : (trs.map fun tr => (a2cSum c v (p θ) tr).1) = trs.map fun tr =>
        ((tr.zip (rets c.gamma v a2cCut tr (lastState s0 tr))).map fun xR =>
          (xR.2 - v xR.1.s) * Real.log (p θ xR.1.s xR.1.a)).sum :=
      List.map_congr_left fun tr htr => by rw [hsum tr htr]
    have e2 : (trs.map fun tr => (a2cSum c v (p θ) tr).2) = trs.map fun tr => (tr.map fun x => entropy (p θ x.s)).sum :=
      List.map_congr_left fun tr htr => by rw [hsum tr htr]
    simp only [a2cLoss, e1, e2, hl, L, List.sum_map_add, List.sum_map_mul_left]
    simp only [hN]
    ring
  rw [h1]
  have hL : ∀ tr, HasDerivAt (fun θ => L θ tr) (L' tr) θ₀ := by
    intro tr
    exact ((list_sum_hasDeriv _ fun (xR : Step S A × ℝ) _ =>
      ((hp.deriv xR.1.s xR.1.a).log (hp.pos _ _).ne').const_mul (xR.2 - v xR.1.s)).const_mul _).add
        ((list_sum_hasDeriv tr fun x _ => entropy_hasDeriv hp x.s).const_mul _)
  refine (expectAll_hasDeriv M c.updateSteps ss' fun trs => list_sum_hasDeriv trs fun tr _ => hL tr).congr_deriv ?_
  rw [expectAll_sum M hw]
  have hone : ∀ s, M.expect a2cStop (p θ₀) c.updateSteps s (fun tr _ => L' tr)
      = -(piLossCoef / N) * M.expect a2cStop (p θ₀) c.updateSteps s (fun tr _ => Spec.along
          (fun j s => M.choose a2cStop (p' s) (M.expect a2cStop (p θ₀) j) s (Spec.ret c.gamma v a2cCut)) c.updateSteps tr)
        + -(entropyCoeff / N) * M.expect a2cStop (p θ₀) c.updateSteps s (fun tr _ => (tr.map fun x => H x.s).sum) := by
    intro s
    rw [← expect_score M hp, ← expect_mul, ← expect_mul, ← expect_add]
    refine expect_congr M _ _ fun tr e ht => ?_
    have he := gen_lastState M _ s tr e ht
    obtain ⟨k, hk⟩ : ∃ k, c.updateSteps = k + 1 := ⟨c.updateSteps - 1, by omega⟩
    obtain ⟨x, l, rfl⟩ := gen_start M k (by rw [hk] at ht; exact ht)
    have : lastState s (x :: l) = lastState s0 (x :: l) := by
      simp only [lastState]
      rw [List.getLast?_eq_some_getLast (by simp)]
      rfl
    rw [score_eq, he, this]
    simp only [L']
    congr 3
    apply List.map_congr_left
    intro xR _
    ring
  simp only [hone, List.sum_map_add, List.sum_map_mul_left]
  ring

/-! ### What is missing -/

theorem expect_a3cLoss (c : A3CCfg) (hc : 0 < c.tMax) (v : S → ℝ) (p : S → A → ℝ) (s : S) :
    M.expect a3cStop w c.tMax s (fun tr _ => a3cLoss c v p tr)
      = M.expect a3cStop w c.tMax s fun tr e =>
        ((tr.zip (rets c.gamma v Outcome.done tr e)).map fun xR => lossTerm c.beta v p xR.1 xR.2).sum
          * c.factor tr.length :=
  expect_congr M _ _ fun tr e ht => a3cLoss_eq M c hc v p s tr e ht

/-- Two actions, the first with probability `θ`. -/
noncomputable def coin (θ : ℝ) (_ : Bool) (a : Bool) : ℝ := if a then θ else 1 - θ

theorem coin_smooth : Spec.Smooth coin (fun _ a => if a then 1 else -1) (1 / 2) := by
  refine ⟨fun s a => ?_, fun θ s => ?_, fun s a => ?_⟩
  · cases a <;> norm_num [coin]
  · simp [coin]
  · cases a
    · simp only [coin, Bool.false_eq_true, if_false]
      simpa using (hasDerivAt_id (1 / 2 : ℝ)).const_sub 1
    · simp only [coin, if_true]
      exact hasDerivAt_id _

/-- An episode of two steps; in the first one action `true` earns 1, in the second action `false` earns 3/2. -/
noncomputable def twoSteps : Env Bool Bool Unit where
  prob _ _ _ := 1
  out s a _ := if s then ⟨if a then 0 else 3 / 2, true, false, true⟩ else ⟨if a then 1 else 0, false, false, true⟩
  sum_prob := by simp

/-- **C101, violated with discounting.** With `gamma = 1/2` A3C's expected update goes in the wrong direction: making the
first action more likely increases the expected discounted return (derivative 1/4), but also increases the expected loss
(derivative 1/2), so a gradient step makes it less likely.  The loss weights later steps by 1 instead of `gamma ^ t`. -/
theorem a3c_discounted_wrong_direction :
    ∃ (M : Env Bool Bool Unit) (c : A3CCfg) (v : Bool → ℝ) (p : ℝ → Bool → Bool → ℝ) (p' : Bool → Bool → ℝ) (θ₀ : ℝ),
      0 < c.tMax ∧ c.keepLossScaleSame = false ∧ c.normalizeGradByTMax = false ∧ Spec.Smooth p p' θ₀ ∧
      HasDerivAt (fun θ => M.expect a3cStop (p θ) c.tMax false (Spec.ret c.gamma v Outcome.done)) (1 / 4) θ₀ ∧
      HasDerivAt (fun θ => M.expect a3cStop (p θ₀) c.tMax false fun tr _ => a3cLoss c v (p θ) tr) (1 / 2) θ₀ := by
  refine ⟨twoSteps, ⟨1 / 2, 2, 0, 1, false, false⟩, fun _ => 0, coin, _, 1 / 2, by decide, rfl, rfl, coin_smooth, ?_, ?_⟩
  · have : (fun θ => twoSteps.expect a3cStop (coin θ) 2 false (Spec.ret (1 / 2) (fun _ => 0) Outcome.done))
        = fun θ => 1 / 4 * θ + 3 / 4 := by
      funext θ
      simp [Env.expect, Env.choose, twoSteps, a3cStop, Spec.ret, coin]
      ring
    rw [this]
    exact (((hasDerivAt_id (1 / 2 : ℝ)).const_mul (1 / 4)).add_const (3 / 4)).congr_deriv (by norm_num)
  · obtain ⟨D, h, h1, h2, h3⟩ := a3c_gradient_per_step twoSteps ⟨1 / 2, 2, 0, 1, false, false⟩ (by decide) rfl rfl
      (fun _ => 0) coin _ (1 / 2) coin_smooth false
    refine h3.congr_deriv ?_
    have d1 : D 0 true = -3 / 2 := by
      refine (h1 0 true).unique ?_
      have : (fun θ => twoSteps.choose a3cStop (coin θ true) (twoSteps.expect a3cStop (coin (1 / 2)) 0) true
          (Spec.ret (1 / 2) (fun _ => 0) Outcome.done)) = fun θ => -3 / 2 * θ + 3 / 2 := by
        funext θ
        simp [Env.choose, twoSteps, a3cStop, Spec.ret, coin]
        ring
      simp only [this]
      simpa using ((hasDerivAt_id (1 / 2 : ℝ)).const_mul (-3 / 2)).add_const (3 / 2)
    have d2 : D 1 false = 1 := by
      refine (h1 1 false).unique ?_
      have : (fun θ => twoSteps.choose a3cStop (coin θ false) (twoSteps.expect a3cStop (coin (1 / 2)) 1) false
          (Spec.ret (1 / 2) (fun _ => 0) Outcome.done)) = fun θ => 1 * θ + 3 / 8 := by
        funext θ
        simp [Env.expect, Env.choose, twoSteps, a3cStop, Spec.ret, coin]
        ring
      simp only [this]
      simpa using ((hasDerivAt_id (1 / 2 : ℝ)).const_mul 1).add_const (3 / 8)
    simp [Env.expect, Env.choose, twoSteps, a3cStop, Spec.along, coin, d1, d2]
    norm_num

/-- Action `true` ends the episode with reward 1; action `false` leads to a second step with reward 3/2. -/
noncomputable def shortOrLong : Env Bool Bool Unit where
  prob _ _ _ := 1
  out s a _ := if s then ⟨3 / 2, true, false, true⟩ else if a then ⟨1, true, false, true⟩ else ⟨0, false, false, true⟩
  sum_prob := by simp

/-- **C101, violated with `keep_loss_scale_same`.** The option scales up the loss of short segments, and thereby the credit
of actions that end episodes early: the update again goes in the wrong direction. -/
theorem a3c_scaled_wrong_direction :
    ∃ (M : Env Bool Bool Unit) (c : A3CCfg) (v : Bool → ℝ) (p : ℝ → Bool → Bool → ℝ) (p' : Bool → Bool → ℝ) (θ₀ : ℝ),
      0 < c.tMax ∧ c.gamma = 1 ∧ c.keepLossScaleSame = true ∧ c.normalizeGradByTMax = false ∧ Spec.Smooth p p' θ₀ ∧
      HasDerivAt (fun θ => M.expect a3cStop (p θ) c.tMax false (Spec.ret c.gamma v Outcome.done)) (-1 / 2) θ₀ ∧
      HasDerivAt (fun θ => M.expect a3cStop (p θ₀) c.tMax false fun tr _ => a3cLoss c v (p θ) tr) (-1 / 2) θ₀ := by
  refine ⟨shortOrLong, ⟨1, 2, 0, 1, true, false⟩, fun _ => 0, coin, _, 1 / 2, by decide, rfl, rfl, rfl, coin_smooth, ?_, ?_⟩
  · have : (fun θ => shortOrLong.expect a3cStop (coin θ) 2 false (Spec.ret 1 (fun _ => 0) Outcome.done))
        = fun θ => -1 / 2 * θ + 3 / 2 := by
      funext θ
      simp [Env.expect, Env.choose, shortOrLong, a3cStop, Spec.ret, coin]
      ring
    rw [this]
    simpa using ((hasDerivAt_id (1 / 2 : ℝ)).const_mul (-1 / 2)).add_const (3 / 2)
  · have : (fun θ => shortOrLong.expect a3cStop (coin (1 / 2)) 2 false fun tr _ =>
        a3cLoss ⟨1, 2, 0, 1, true, false⟩ (fun _ => 0) (coin θ) tr)
        = fun θ => (-11 / 8) * Real.log θ + (-9 / 8) * Real.log (1 - θ) := by
      funext θ
      have := expect_a3cLoss shortOrLong (w := coin (1 / 2)) ⟨1, 2, 0, 1, true, false⟩ (by decide) (fun _ => 0) (coin θ) false
      simp only at this
      rw [this]
      simp [Env.expect, Env.choose, shortOrLong, a3cStop, rets, Spec.ret, coin, lossTerm, A3CCfg.factor]
      ring
    simp only [this]
    have h1 : HasDerivAt (fun θ : ℝ => (-11 / 8) * Real.log θ) ((-11 / 8) * (1 / 2)⁻¹) (1 / 2) :=
      (Real.hasDerivAt_log (by norm_num)).const_mul _
    have h2 : HasDerivAt (fun θ : ℝ => (-9 / 8) * Real.log (1 - θ)) ((-9 / 8) * (-1 / (1 - 1 / 2))) (1 / 2) := by
      refine HasDerivAt.const_mul _ (HasDerivAt.log ?_ (by norm_num))
      simpa using (hasDerivAt_id (1 / 2 : ℝ)).const_sub 1
    refine (h1.add h2).congr_deriv ?_
    norm_num

/-- The first step decides the reward (1 for action `true`), the second one ends the episode. -/
noncomputable def firstDecides : Env Bool Bool Unit where
  prob _ _ _ := 1
  out s a _ := if s then ⟨0, true, false, true⟩ else ⟨if a then 1 else 0, false, false, true⟩
  sum_prob := by simp

/-- **C101, violated by REINFORCE.** The reward of the first step has no influence on the loss, whatever the episode, if
it has a second step. -/
theorem reinforce_first_reward_ignored (beta : ℝ) (p : S → A → ℝ) (s : S) (a : A) (o o' : Outcome S) (y : Step S A)
    (tr : List (Step S A)) :
    reinforceLoss beta p (⟨s, a, o⟩ :: y :: tr) = reinforceLoss beta p (⟨s, a, o'⟩ :: y :: tr) := by
  simp only [reinforceLoss, List.map_cons, List.getLast?_cons_cons, List.cons_append, returnsOf, List.drop_succ_cons,
    List.drop_zero]
  generalize (cumsumFrom (0 : ℝ) (y.out.reward :: (List.map (fun x => x.out.reward) tr ++
    (Option.map (fun x => x.out.reward) (y :: tr).getLast?).toList)).reverse).reverse = R
  cases R with
  | nil => rfl
  | cons r R => simp only [List.zip_cons_cons, List.map_cons]

/-- So REINFORCE learns nothing in an environment in which only the first action matters: the loss is constant, although
the expected return has derivative 1. -/
theorem reinforce_learns_nothing :
    ∃ (M : Env Bool Bool Unit) (p : ℝ → Bool → Bool → ℝ) (p' : Bool → Bool → ℝ) (θ₀ : ℝ), Spec.Smooth p p' θ₀ ∧
      HasDerivAt (fun θ => M.expect a3cStop (p θ) 2 false (Spec.ret 1 (fun _ => 0) Outcome.done)) 1 θ₀ ∧
      ∀ θ, M.expect a3cStop (p θ₀) 2 false (fun tr _ => reinforceLoss 0 (p θ) tr) = 0 := by
  refine ⟨firstDecides, coin, _, 1 / 2, coin_smooth, ?_, fun θ => ?_⟩
  · have : (fun θ => firstDecides.expect a3cStop (coin θ) 2 false (Spec.ret 1 (fun _ => 0) Outcome.done))
        = fun θ => θ := by
      funext θ
      simp [Env.expect, Env.choose, firstDecides, a3cStop, Spec.ret, coin]
    rw [this]
    exact hasDerivAt_id _
  · simp [Env.expect, Env.choose, firstDecides, a3cStop, reinforceLoss, returnsOf, cumsumFrom]

/-! ## Non-vacuity -/

/-- In an undiscounted two-step environment the averaged gradient of the loss is minus the derivative of the return. -/
example : HasDerivAt (fun θ => twoSteps.expect a3cStop (coin θ) 2 false (Spec.ret 1 (fun _ => 5) Outcome.done)) (-1 / 2) (1 / 2) ∧
    HasDerivAt (fun θ => twoSteps.expect a3cStop (coin (1 / 2)) 2 false fun tr _ =>
      a3cLoss ⟨1, 2, 0, 1, false, false⟩ (fun _ => 5) (coin θ) tr) (1 / 2) (1 / 2) := by
  have h0 : HasDerivAt (fun θ => twoSteps.expect a3cStop (coin θ) 2 false (Spec.ret 1 (fun _ => 5) Outcome.done))
      (-1 / 2) (1 / 2) := by
    have : (fun θ => twoSteps.expect a3cStop (coin θ) 2 false (Spec.ret 1 (fun _ => 5) Outcome.done))
        = fun θ => -1 / 2 * θ + 3 / 2 := by
      funext θ
      simp [Env.expect, Env.choose, twoSteps, a3cStop, Spec.ret, coin]
      ring
    rw [this]
    simpa using ((hasDerivAt_id (1 / 2 : ℝ)).const_mul (-1 / 2)).add_const (3 / 2)
  refine ⟨h0, ?_⟩
  obtain ⟨g, h, h1, _, h3⟩ := a3c_policy_gradient_partial twoSteps ⟨1, 2, 0, 1, false, false⟩ (by decide) rfl rfl rfl
    (fun _ => 5) coin _ (1 / 2) coin_smooth false
  have hg : g = -1 / 2 := h1.unique h0
  refine h3.congr_deriv ?_
  rw [hg]
  norm_num

/-- The hypotheses of `a2c_gradient_per_step`, with two processes in different states. -/
example := a2c_gradient_per_step twoSteps ⟨9 / 10, false, 1, 5⟩ (by decide) rfl 1 (1 / 100) (fun _ => 5) coin _ (1 / 2)
  coin_smooth [false, true]

end Pfrl.Returns.PG
