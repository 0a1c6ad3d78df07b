import Verif.Returns.PolicyGradient
import Verif.Returns.Gae
import Verif.Returns.Acer

/-!
# Critics (C104)

The targets the actor-critic agents compute for their value functions, averaged over all trajectories, as in
`PolicyGradient.lean`.  States may contain the whole history.
-/

namespace Pfrl.Returns.PG

open Finset

set_option linter.unusedSectionVars false

variable {S A O : Type} [Fintype A] [Fintype O]

/-! ## Model -/

/-- `v_loss` of A3C for the segment `tr`, `pfrl/agents/a3c.py:149-160,193-199`; the returns use the values `v` of the
current parameters and are constants, `u` is the value function being trained. -/
noncomputable def a3cValueLoss (c : A3CCfg) (vLossCoef : ℝ) (v u : S → ℝ) (tr : List (Step S A)) : ℝ :=
  match (A3C.new : A3C ℝ).run c.gamma c.tMax (tr.map (toTurn v)) with
  | .error _ => 0
  | .ok a => ((tr.zip a.updates.flatten).map fun xR => (u xR.1.s - xR.2) ^ 2).sum / 2
      * ({ c with piLossCoef := vLossCoef } : A3CCfg).factor tr.length

/-- `(advantages * advantages).mean() * v_loss_coef`, `pfrl/agents/a2c.py:186-194`, for a list of processes. -/
noncomputable def a2cValueLoss (c : A2CCfg ℝ) (vLossCoef : ℝ) (v u : S → ℝ) (trs : List (List (Step S A))) : ℝ :=
  (trs.map fun tr =>
    match (A2C.new : A2C ℝ).run c (tr.map (toTurn v)) with
    | .error _ => 0
    | .ok a => ((tr.zip a.updates.flatten).map fun xR => (xR.2 - u xR.1.s) ^ 2).sum).sum
    / (c.updateSteps * trs.length) * vLossCoef

/-- What PPO and TRPO store of a step, `pfrl/agents/ppo.py:36-47` and `pfrl/agents/ppo.py:56-90`. -/
noncomputable def toGae (v : S → ℝ) (x : Step S A) : Returns.Step ℝ :=
  ⟨x.out.reward, if x.out.done then 0 else 1, v x.s, v x.out.next⟩

/-- What `compute_loss` of ACER reads of a step with discrete actions, `pfrl/agents/acer.py:131-135` (the value is the mean
of the action values) and `pfrl/agents/acer.py:16-18,485-500` (the ratio to the
behaviour policy `mu` of the replayed episode; on-policy updates have no `mu`). -/
noncomputable def toAcer (pi : S → A → ℝ) (mu : Option (S → A → ℝ)) (q : S → A → ℝ) (x : Step S A) : AcerStep :=
  ⟨x.out.reward, ∑ a, pi x.s a * q x.s a, q x.s x.a, mu.map fun mu => pi x.s x.a / mu x.s x.a⟩

/-- `R`, `pfrl/agents/acer.py:640-654` and `pfrl/agents/acer.py:672-682`: the value after the segment unless it is
terminal. -/
noncomputable def acerBoot (pi : S → A → ℝ) (q : S → A → ℝ) (tr : List (Step S A)) (e : S) : ℝ :=
  if (tr.getLast?.map fun x => x.out.done).getD false then 0 else ∑ a, pi e a * q e a

/-- The Q-function loss of ACER with discrete actions, `pfrl/agents/acer.py:522,547-551`; `q` gives the targets, `u` is
trained. -/
noncomputable def acerQLoss (c : AcerCfg) (coef : ℝ) (normalize : Bool) (pi : S → A → ℝ)
    (mu : Option (S → A → ℝ)) (q u : S → A → ℝ) (tr : List (Step S A)) (e : S) : ℝ :=
  ((tr.zip (acerTargets c (acerBoot pi q tr e) (tr.map (toAcer pi mu q)))).map fun xT =>
    (xT.2.qTarget - u xT.1.s xT.1.a) ^ 2 / 2).sum * coef / (if normalize then (tr.length : ℝ) else 1)

/-! ## Specification -/

/-- `V` and `Q` are the true values of the policy `w`: they satisfy Bellman's equations.  Only termination ends the flow of
rewards; a reset by the training loop does not. -/
structure Spec.Values (M : Env S A O) (w : S → A → ℝ) (gamma : ℝ) (V : S → ℝ) (Q : S → A → ℝ) : Prop where
  q : ∀ s a, Q s a = ∑ o, M.prob s a o *
    ((M.out s a o).reward + gamma * if (M.out s a o).done then 0 else V (M.out s a o).next)
  v : ∀ s, V s = ∑ a, w s a * Q s a

/-- Probabilities. -/
structure Spec.Proper (M : Env S A O) (w : S → A → ℝ) : Prop where
  prob : ∀ s a o, 0 ≤ M.prob s a o
  nonneg : ∀ s a, 0 ≤ w s a
  sum : ∀ s, ∑ a, w s a = 1

/-- The sum of `D (steps left after this one) state action` over the steps of a trajectory of at most `k` steps. -/
def Spec.alongQ (D : ℕ → S → A → ℝ) : ℕ → List (Step S A) → ℝ
  | _, [] => 0
  | k, x :: tr => D (k - 1) x.s x.a + Spec.alongQ D (k - 1) tr

/-- The sum over the steps of a trajectory of a weight times the difference of a target and a prediction. -/
noncomputable def Spec.weighted (φ : S → A → ℝ) (tr : List (Step S A)) (targets : List ℝ) (pred : S → A → ℝ) : ℝ :=
  ((tr.zip targets).map fun xR => φ xR.1.s xR.1.a * (xR.2 - pred xR.1.s xR.1.a)).sum

/-! ## Lemmas: one rule for all targets -/

/-- A way to compute targets: traces `c`, predictions `q` for the action taken, `u` for the state. -/
structure Rule (S A : Type) where
  gamma : ℝ
  cut : Outcome S → Bool
  c : S → A → ℝ
  q : S → A → ℝ
  u : S → ℝ

/-- What a step contributes to the target of the step before it. -/
noncomputable def Rule.carry (r : Rule S A) : List (Step S A) → S → ℝ
  | [], e => r.u e
  | x :: tr, e => r.c x.s x.a * (x.out.reward + r.gamma * (if r.cut x.out then 0 else r.carry tr e) - r.q x.s x.a) + r.u x.s

/-- The target of a step. -/
noncomputable def Rule.tgt (r : Rule S A) (x : Step S A) (tr : List (Step S A)) (e : S) : ℝ :=
  x.out.reward + r.gamma * if r.cut x.out then 0 else r.carry tr e

/-- All targets. -/
noncomputable def Rule.tgts (r : Rule S A) : List (Step S A) → S → List ℝ
  | [], _ => []
  | x :: tr, e => r.tgt x tr e :: r.tgts tr e

/-- The expected target of an action. -/
noncomputable def Rule.expected (r : Rule S A) (M : Env S A O) (stop : Outcome S → Bool) (w : S → A → ℝ) (k : ℕ) (s : S)
    (a : A) : ℝ :=
  ∑ o, M.prob s a o * ((M.out s a o).reward + r.gamma * if r.cut (M.out s a o) then 0 else
    if stop (M.out s a o) then r.u (M.out s a o).next else M.expect stop w k (M.out s a o).next r.carry)

variable (M : Env S A O) {stop : Outcome S → Bool} {w : S → A → ℝ} (r : Rule S A)

/-- The expected target of one outcome. -/
theorem expect_tgt (hw : ∀ s, ∑ a, w s a = 1) (k : ℕ) (s : S) (a : A) (o : O) :
    (if stop (M.out s a o) then r.tgt ⟨s, a, M.out s a o⟩ [] (M.out s a o).next
      else M.expect stop w k (M.out s a o).next fun tr e => r.tgt ⟨s, a, M.out s a o⟩ tr e)
    = (M.out s a o).reward + r.gamma * if r.cut (M.out s a o) then 0 else
      if stop (M.out s a o) then r.u (M.out s a o).next else M.expect stop w k (M.out s a o).next r.carry := by
  by_cases hs : stop (M.out s a o) = true
  · simp only [if_pos hs, Rule.tgt, Rule.carry]
  · simp only [if_neg hs, Rule.tgt]
    rw [expect_add, expect_const M hw, expect_mul]
    congr 2
    by_cases hc : r.cut (M.out s a o) = true
    · simp only [if_pos hc]; exact expect_const M hw 0 k _
    · simp only [if_neg hc]

/-- The tower property: weighted errors can be computed with expected targets. -/
theorem expect_weighted (hw : ∀ s, ∑ a, w s a = 1) (φ pred : S → A → ℝ) (k : ℕ) : ∀ s : S,
    M.expect stop w k s (fun tr e => Spec.weighted φ tr (r.tgts tr e) pred)
      = M.expect stop w k s fun tr _ =>
        Spec.alongQ (fun j s a => φ s a * (r.expected M stop w j s a - pred s a)) k tr := by
  induction k with
  | zero => intro s; rfl
  | succ k ih =>
    intro s
    set D : ℕ → S → A → ℝ := fun j s a => φ s a * (r.expected M stop w j s a - pred s a) with hD
    set U : Outcome S → ℝ := fun o => if stop o then 0 else
      M.expect stop w k o.next fun tr _ => Spec.alongQ D k tr with hU
    have hR : M.expect stop w (k + 1) s (fun tr _ => Spec.alongQ D (k + 1) tr)
        = ∑ a, w s a * (D k s a + ∑ o, M.prob s a o * U (M.out s a o)) := by
      simp only [Env.expect, Env.choose, Spec.alongQ, Nat.add_sub_cancel, add_zero]
      refine sum_congr rfl fun a _ => congrArg (fun z : ℝ => w s a * z) ?_
      have : ∀ o, (if stop (M.out s a o) = true then D k s a else
          M.expect stop w k (M.out s a o).next fun tr _ => D k s a + Spec.alongQ D k tr)
          = D k s a + U (M.out s a o) := by
        intro o
        by_cases hs : stop (M.out s a o) = true
        · simp [hU, hs]
        · simp only [hU, if_neg hs]
          rw [expect_add, expect_const M hw]
      simp only [this, mul_add, sum_add_distrib, ← sum_mul, M.sum_prob, one_mul]
    rw [hR]
    simp only [Env.expect, Env.choose]
    refine sum_congr rfl fun a _ => congrArg (fun z : ℝ => w s a * z) ?_
    have hL : ∀ o, (if stop (M.out s a o) = true then
        Spec.weighted φ [⟨s, a, M.out s a o⟩] (r.tgts [⟨s, a, M.out s a o⟩] (M.out s a o).next) pred
        else M.expect stop w k (M.out s a o).next fun tr e =>
          Spec.weighted φ (⟨s, a, M.out s a o⟩ :: tr) (r.tgts (⟨s, a, M.out s a o⟩ :: tr) e) pred)
        = φ s a * ((M.out s a o).reward + r.gamma * (if r.cut (M.out s a o) then 0 else
            if stop (M.out s a o) then r.u (M.out s a o).next else M.expect stop w k (M.out s a o).next r.carry)
            - pred s a) + U (M.out s a o) := by
      intro o
      have ht := expect_tgt M r (stop := stop) hw k s a o
      by_cases hs : stop (M.out s a o) = true
      · rw [if_pos hs] at ht ⊢
        rw [← ht]
        simp [Spec.weighted, Rule.tgts, hU, hs]
      · rw [if_neg hs] at ht ⊢
        rw [← ht]
        simp only [Spec.weighted, Rule.tgts, List.zip_cons_cons, List.map_cons, List.sum_cons, hU, if_neg hs]
        have := ih (M.out s a o).next
        simp only [Spec.weighted] at this
        rw [expect_add, expect_mul, this]
        congr 2
        simp only [sub_eq_add_neg]
        rw [expect_add, expect_const M hw]
    simp only [hL, mul_add, sum_add_distrib]
    congr 1
    simp only [hD, Rule.expected]
    rw [mul_sub, mul_sum]
    have hc : φ s a * pred s a = ∑ o, M.prob s a o * (φ s a * pred s a) := by rw [← sum_mul, M.sum_prob, one_mul]
    rw [hc, ← sum_sub_distrib]
    refine sum_congr rfl fun o _ => ?_
    ring

/-- Averaging over the action of each step. -/
theorem expect_alongQ (hw : ∀ s, ∑ a, w s a = 1) (D : ℕ → S → A → ℝ) (F : ℕ → S → ℝ)
    (hF : ∀ j s, F j s = ∑ a, w s a * D j s a) (k : ℕ) : ∀ s : S,
    M.expect stop w k s (fun tr _ => Spec.alongQ D k tr) = M.expect stop w k s fun tr _ => Spec.along F k tr := by
  induction k with
  | zero => intro s; rfl
  | succ k ih =>
    intro s
    simp only [Env.expect, Env.choose, Spec.alongQ, Spec.along, Nat.add_sub_cancel, add_zero]
    set U : Outcome S → ℝ := fun o => if stop o then 0 else
      M.expect stop w k o.next fun tr _ => Spec.along F k tr with hU
    have h1 : ∀ a o, (if stop (M.out s a o) = true then D k s a else
        M.expect stop w k (M.out s a o).next fun tr _ => D k s a + Spec.alongQ D k tr) = D k s a + U (M.out s a o) := by
      intro a o
      by_cases hs : stop (M.out s a o) = true
      · simp [hU, hs]
      · simp only [hU, if_neg hs]
        rw [expect_add, expect_const M hw, ih]
    have h2 : ∀ a o, (if stop (M.out s a o) = true then F k s else
        M.expect stop w k (M.out s a o).next fun tr _ => F k s + Spec.along F k tr) = F k s + U (M.out s a o) := by
      intro a o
      by_cases hs : stop (M.out s a o) = true
      · simp [hU, hs]
      · simp only [hU, if_neg hs]
        rw [expect_add, expect_const M hw]
    simp only [h1, h2, mul_add, sum_add_distrib, ← sum_mul, M.sum_prob, one_mul, hw]
    rw [hF]

theorem expect_along_zero (hw : ∀ s, ∑ a, w s a = 1) (k : ℕ) (s : S) :
    M.expect stop w k s (fun tr _ => Spec.along (fun _ _ => 0) k tr) = 0 := by
  have : ∀ (tr : List (Step S A)) k, Spec.along (fun _ _ => 0) k tr = 0 := by
    intro tr
    induction tr with
    | nil => intro k; rfl
    | cons x tr ih => intro k; simp [Spec.along, ih]
  simp only [this]
  exact expect_const M hw 0 k s

/-- Contraction, for any rule whose traces `m = w c` leave the weight `1 - ∑ m` to a prediction with error at most
`ε`. -/
theorem expected_contracts {V : S → ℝ} {Q : S → A → ℝ} {ε : ℝ} (hprob : ∀ s a o, 0 ≤ M.prob s a o)
    (hq : ∀ s a, Q s a = ∑ o, M.prob s a o *
      ((M.out s a o).reward + r.gamma * if (M.out s a o).done then 0 else V (M.out s a o).next))
    (hcut : ∀ s a o, r.cut (M.out s a o) = (M.out s a o).done)
    (h0 : 0 ≤ r.gamma) (h1 : r.gamma ≤ 1) (hε : 0 ≤ ε) (hu : ∀ s, |r.u s - V s| ≤ ε)
    (hw : ∀ s, ∑ a, w s a = 1) (hm : ∀ s a, 0 ≤ w s a * r.c s a)
    (hH : ∀ s, |r.u s - V s - ∑ a, w s a * r.c s a * (r.q s a - Q s a)| ≤ (1 - ∑ a, w s a * r.c s a) * ε) (k : ℕ) :
    (∀ s, |M.expect stop w k s r.carry - V s| ≤ ε) ∧ ∀ s a, |r.expected M stop w k s a - Q s a| ≤ r.gamma * ε := by
  -- the expected target, given the expected carry
  have step : ∀ k, (∀ s, |M.expect stop w k s r.carry - V s| ≤ ε) →
      ∀ s a, |r.expected M stop w k s a - Q s a| ≤ r.gamma * ε := by
    intro k hk s a
    rw [hq, Rule.expected, ← sum_sub_distrib]
    have hterm : ∀ o, |M.prob s a o * ((M.out s a o).reward + r.gamma * if r.cut (M.out s a o) then 0 else
          if stop (M.out s a o) then r.u (M.out s a o).next else M.expect stop w k (M.out s a o).next r.carry)
        - M.prob s a o * ((M.out s a o).reward + r.gamma * if (M.out s a o).done then 0 else V (M.out s a o).next)|
        ≤ M.prob s a o * (r.gamma * ε) := by
      intro o
      rw [← mul_sub, abs_mul, abs_of_nonneg (hprob s a o)]
      refine mul_le_mul_of_nonneg_left ?_ (hprob s a o)
      rw [add_sub_add_left_eq_sub, ← mul_sub, abs_mul, abs_of_nonneg h0]
      refine mul_le_mul_of_nonneg_left ?_ h0
      rw [hcut]
      by_cases hd : (M.out s a o).done = true
      · simp only [if_pos hd, sub_self, abs_zero]; exact hε
      · simp only [if_neg hd]
        by_cases hs : stop (M.out s a o) = true
        · rw [if_pos hs]; exact hu _
        · rw [if_neg hs]; exact hk _
    refine (abs_sum_le_sum_abs _ _).trans ((sum_le_sum fun o _ => hterm o).trans_eq ?_)
    rw [← sum_mul, M.sum_prob, one_mul]
  have carry : ∀ k, ∀ s, |M.expect stop w k s r.carry - V s| ≤ ε := by
    intro k
    induction k with
    | zero => exact hu
    | succ k ih =>
      intro s
      have hT := step k ih
      have he : M.expect stop w (k + 1) s r.carry
          = ∑ a, w s a * (r.c s a * (r.expected M stop w k s a - r.q s a)) + r.u s := by
        simp only [Env.expect, Env.choose]
        have : ∀ a o, (if stop (M.out s a o) = true then r.carry [⟨s, a, M.out s a o⟩] (M.out s a o).next
            else M.expect stop w k (M.out s a o).next fun tr e => r.carry (⟨s, a, M.out s a o⟩ :: tr) e)
            = r.c s a * ((M.out s a o).reward + r.gamma * (if r.cut (M.out s a o) then 0 else
              if stop (M.out s a o) then r.u (M.out s a o).next else M.expect stop w k (M.out s a o).next r.carry)
              - r.q s a) + r.u s := by
          intro a o
          have ht := expect_tgt M r (stop := stop) hw k s a o
          by_cases hs : stop (M.out s a o) = true
          · rw [if_pos hs] at ht ⊢
            rw [← ht]
            rfl
          · rw [if_neg hs] at ht ⊢
            rw [← ht]
            have hcarry : (fun (tr : List (Step S A)) (e : S) => r.carry (⟨s, a, M.out s a o⟩ :: tr) e)
                = fun tr e => r.c s a * (r.tgt ⟨s, a, M.out s a o⟩ tr e + -r.q s a) + r.u s := rfl
            rw [hcarry, expect_add, expect_const M hw, expect_mul, expect_add, expect_const M hw]
            rfl
        simp only [this]
        have h2 : ∀ a, ∑ o, M.prob s a o * (r.c s a * ((M.out s a o).reward + r.gamma * (if r.cut (M.out s a o) then 0 else
              if stop (M.out s a o) then r.u (M.out s a o).next else M.expect stop w k (M.out s a o).next r.carry)
              - r.q s a) + r.u s) = r.c s a * (r.expected M stop w k s a - r.q s a) + r.u s := by
          intro a
          have e1 : r.u s = ∑ o, M.prob s a o * r.u s := by rw [← sum_mul, M.sum_prob, one_mul]
          have e2 : r.c s a * r.q s a = ∑ o, M.prob s a o * (r.c s a * r.q s a) := by
            rw [← sum_mul, M.sum_prob, one_mul]
          rw [mul_sub, e2, Rule.expected, mul_sum, ← sum_sub_distrib]
          conv_rhs => rw [e1]
          rw [← sum_add_distrib]
          refine sum_congr rfl fun o _ => ?_
          ring
        simp only [h2]
        simp only [mul_add, sum_add_distrib]
        rw [← sum_mul, hw, one_mul]
      rw [he]
      have e3 : ∑ a, w s a * (r.c s a * (r.expected M stop w k s a - r.q s a)) + r.u s - V s
          = ∑ a, w s a * r.c s a * (r.expected M stop w k s a - Q s a)
            + (r.u s - V s - ∑ a, w s a * r.c s a * (r.q s a - Q s a)) := by
        rw [show ∑ a, w s a * (r.c s a * (r.expected M stop w k s a - r.q s a)) + r.u s - V s
          = r.u s - V s + ∑ a, w s a * (r.c s a * (r.expected M stop w k s a - r.q s a)) by ring,
          show ∑ a, w s a * r.c s a * (r.expected M stop w k s a - Q s a)
            + (r.u s - V s - ∑ a, w s a * r.c s a * (r.q s a - Q s a))
          = r.u s - V s + (∑ a, w s a * r.c s a * (r.expected M stop w k s a - Q s a)
            - ∑ a, w s a * r.c s a * (r.q s a - Q s a)) by ring, ← sum_sub_distrib]
        congr 1
        refine sum_congr rfl fun a _ => ?_
        ring
      rw [e3]
      have hγε : r.gamma * ε ≤ ε := by nlinarith
      have h3 : |∑ a, w s a * r.c s a * (r.expected M stop w k s a - Q s a)| ≤ (∑ a, w s a * r.c s a) * ε := by
        refine (abs_sum_le_sum_abs _ _).trans ?_
        rw [sum_mul]
        refine sum_le_sum fun a _ => ?_
        rw [abs_mul, abs_of_nonneg (hm s a)]
        exact mul_le_mul_of_nonneg_left ((hT s a).trans hγε) (hm s a)
      calc |∑ a, w s a * r.c s a * (r.expected M stop w k s a - Q s a)
            + (r.u s - V s - ∑ a, w s a * r.c s a * (r.q s a - Q s a))|
          ≤ (∑ a, w s a * r.c s a) * ε + (1 - ∑ a, w s a * r.c s a) * ε := (abs_add_le _ _).trans (add_le_add h3 (hH s))
        _ = ε := by ring
  exact ⟨carry k, step k (carry k)⟩

/-! ### λ-returns -/

/-- The rule of n-step returns (`lam = 1`) and of generalised advantage estimation. -/
def lamRule (gamma lam : ℝ) (v : S → ℝ) (cut : Outcome S → Bool) : Rule S A :=
  ⟨gamma, cut, fun _ _ => lam, fun s _ => v s, v⟩

theorem lam_carry (gamma lam : ℝ) (v : S → ℝ) (cut : Outcome S → Bool) (x : Step S A) (tr : List (Step S A)) (e : S) :
    (lamRule gamma lam v cut).carry (x :: tr) e
      = lam * (x.out.reward + gamma * (if cut x.out then 0 else (lamRule gamma lam v cut).carry tr e) - v x.s) + v x.s :=
  rfl

theorem lam_tgt (gamma lam : ℝ) (v : S → ℝ) (cut : Outcome S → Bool) (x : Step S A) (tr : List (Step S A)) (e : S) :
    (lamRule gamma lam v cut).tgt x tr e
      = x.out.reward + gamma * if cut x.out then 0 else (lamRule gamma lam v cut).carry tr e := rfl

theorem lam_contracts {gamma lam : ℝ} {v : S → ℝ} {cut : Outcome S → Bool} {V : S → ℝ} {Q : S → A → ℝ} {ε : ℝ}
    (hp : Spec.Proper M w) (hV : Spec.Values M w gamma V Q) (hcut : ∀ s a o, cut (M.out s a o) = (M.out s a o).done)
    (h0 : 0 ≤ gamma) (h1 : gamma ≤ 1) (l0 : 0 ≤ lam) (l1 : lam ≤ 1) (hv : ∀ s, |v s - V s| ≤ ε) (hε : 0 ≤ ε) (k : ℕ)
    (s : S) (a : A) :
    |(lamRule gamma lam v cut).expected M stop w k s a - Q s a| ≤ gamma * ε := by
  refine (expected_contracts M (lamRule gamma lam v cut) (V := V) hp.prob hV.q hcut h0 h1 hε hv hp.sum
    (fun s a => mul_nonneg (hp.nonneg s a) l0) (fun s => ?_) k).2 s a
  have e1 : ∑ a, w s a * lam = lam := by rw [← sum_mul, hp.sum, one_mul]
  have e2 : ∑ a, w s a * lam * (v s - Q s a) = lam * (v s - V s) := by
    rw [hV.v s, mul_sub, mul_sum]
    have : lam * v s = ∑ a, w s a * (lam * v s) := by rw [← sum_mul, hp.sum, one_mul]
    rw [this, ← sum_sub_distrib]
    refine sum_congr rfl fun a _ => ?_
    ring
  simp only [lamRule, e1, e2]
  rw [show v s - V s - lam * (v s - V s) = (1 - lam) * (v s - V s) by ring, abs_mul, abs_of_nonneg (by linarith)]
  exact mul_le_mul_of_nonneg_left (hv s) (by linarith)

/-- The mean over actions of targets close to action values is close to the value. -/
theorem mean_close {gamma δ : ℝ} {V : S → ℝ} {Q : S → A → ℝ} (hV : Spec.Values M w gamma V Q) (hp : Spec.Proper M w)
    {T : S → A → ℝ} (hT : ∀ s a, |T s a - Q s a| ≤ δ) (s : S) : |∑ a, w s a * T s a - V s| ≤ δ := by
  rw [hV.v, ← sum_sub_distrib]
  refine (abs_sum_le_sum_abs _ _).trans ?_
  calc ∑ a, |w s a * T s a - w s a * Q s a| ≤ ∑ a, w s a * δ := by
        refine sum_le_sum fun a _ => ?_
        rw [← mul_sub, abs_mul, abs_of_nonneg (hp.nonneg s a)]
        exact mul_le_mul_of_nonneg_left (hT s a) (hp.nonneg s a)
    _ = δ := by rw [← sum_mul, hp.sum, one_mul]

theorem mean_weighted (hw : ∀ s, ∑ a, w s a = 1) (f : S → ℝ) (v : S → ℝ) (T : S → A → ℝ) (s : S) :
    ∑ a, w s a * (f s * (T s a - v s)) = f s * (∑ a, w s a * T s a - v s) := by
  have e : v s = ∑ a, w s a * v s := by rw [← sum_mul, hw, one_mul]
  conv_rhs => rw [e]
  rw [← sum_sub_distrib, mul_sum]
  refine sum_congr rfl fun a _ => ?_
  ring

theorem carry_one (gamma : ℝ) (v : S → ℝ) (cut : Outcome S → Bool) (e : S) (tr : List (Step S A)) :
    (lamRule gamma 1 v cut).carry tr e = Spec.ret gamma v cut tr e := by
  induction tr with
  | nil => rfl
  | cons x tr ih =>
    simp only [Rule.carry, Spec.ret]
    rw [ih]
    simp only [lamRule, one_mul, sub_add_cancel]
    rfl

theorem tgts_one (gamma : ℝ) (v : S → ℝ) (cut : Outcome S → Bool) (e : S) (tr : List (Step S A)) :
    (lamRule gamma 1 v cut).tgts tr e = rets gamma v cut tr e := by
  induction tr with
  | nil => rfl
  | cons x tr ih =>
    simp only [Rule.tgts, rets, ih, Rule.tgt, carry_one, Spec.ret]
    rfl

/-- Consecutive steps: the state after one is the state of the next. -/
def chain : List (Step S A) → S → Prop
  | [], _ => True
  | x :: tr, e => x.out.next = (tr.head?.map Step.s).getD e ∧ chain tr e

theorem gen_chain (k : ℕ) : ∀ (s : S) (tr : List (Step S A)) (e : S), M.Gen stop k s tr e →
    chain tr e ∧ (tr.head?.map Step.s).getD e = s := by
  induction k with
  | zero => intro s tr e h; rw [h.1, h.2]; exact ⟨trivial, rfl⟩
  | succ k ih =>
    intro s tr e h
    obtain ⟨a, o, ⟨h1, rfl, rfl⟩ | ⟨h1, tr', rfl, h2⟩⟩ := h
    · exact ⟨⟨rfl, trivial⟩, rfl⟩
    · obtain ⟨g1, g2⟩ := ih _ _ _ h2
      exact ⟨⟨g2.symm, g1⟩, rfl⟩

/-- The error of the first step. -/
noncomputable def headErr (r : Rule S A) : List (Step S A) → S → ℝ
  | [], _ => 0
  | x :: tr, e => r.tgt x tr e - r.q x.s x.a

theorem lam_head (gamma lam : ℝ) (v : S → ℝ) (cut : Outcome S → Bool) (e : S) (tr : List (Step S A)) :
    (lamRule gamma lam v cut).carry tr e
      = v ((tr.head?.map Step.s).getD e) + lam * headErr (lamRule gamma lam v cut) tr e := by
  cases tr with
  | nil => simp [Rule.carry, lamRule, headErr]
  | cons x tr =>
    rw [lam_carry, headErr, lam_tgt]
    simp only [lamRule, List.head?_cons, Option.map_some, Option.getD_some]
    ring

/-! ### Retrace -/

/-- The rule of ACER: Retrace (or, with `c = 1`, the off-policy corrected return). -/
noncomputable def acerRule (gamma : ℝ) (c : S → A → ℝ) (pi q : S → A → ℝ) : Rule S A :=
  ⟨gamma, Outcome.done, c, q, fun s => ∑ a, pi s a * q s a⟩

theorem retrace_tgts (gamma : ℝ) (c : AcerStep → ℝ) (c' : S → A → ℝ) (pi : S → A → ℝ)
    (mu : Option (S → A → ℝ)) (q : S → A → ℝ)
    (hc : ∀ x : Step S A, c (toAcer pi mu q x) = c' x.s x.a) (k : ℕ) : ∀ (s : S) (tr : List (Step S A)) (e : S),
    M.Gen a3cStop k s tr e →
    (List.range tr.length).map (fun i => Returns.Spec.retrace gamma (acerBoot pi q tr e) c ((tr.map (toAcer pi mu q)).drop i))
      = (acerRule gamma c' pi q).tgts tr e := by
  -- the value carried into the step before `tr`
  have key : ∀ (tr : List (Step S A)) (e : S) (R : ℝ), (∀ x ∈ tr.dropLast, x.out.done = false) →
      R = (if (tr.getLast?.map fun x => x.out.done).getD false then 0 else ∑ a, pi e a * q e a) →
      Returns.carry gamma R c (tr.map (toAcer pi mu q)) = (acerRule gamma c' pi q).carry tr e := by
    intro tr e R
    induction tr with
    | nil => intro _ hR; rw [hR]; rfl
    | cons x tr ih =>
      intro hd hR
      have hunf : Returns.carry gamma R c ((x :: tr).map (toAcer pi mu q))
          = c (toAcer pi mu q x) * (Returns.Spec.retrace gamma R c (toAcer pi mu q x :: tr.map (toAcer pi mu q))
            - (toAcer pi mu q x).q) + (toAcer pi mu q x).v := rfl
      rw [hunf, retrace_eq_carry, hc]
      have hcar : gamma * Returns.carry gamma R c (tr.map (toAcer pi mu q))
          = gamma * (if x.out.done then 0 else (acerRule gamma c' pi q).carry tr e) := by
        cases tr with
        | nil =>
          by_cases hx : x.out.done = true
          · rw [if_pos hx]
            have : R = 0 := by rw [hR]; simp [hx]
            simp [Returns.carry, this]
          · rw [if_neg hx]
            have : R = ∑ a, pi e a * q e a := by rw [hR]; simp [hx]
            simp [Returns.carry, Rule.carry, acerRule, this]
        | cons y tr =>
          have hx : x.out.done = false := hd x (by simp)
          rw [ih (fun z hz => hd z (by rw [List.dropLast_cons_cons]; exact List.mem_cons_of_mem _ hz))
            (by rw [hR, List.getLast?_cons_cons])]
          simp [hx]
      rw [hcar]
      rfl
  intro s tr e h
  rcases Nat.eq_zero_or_pos k with hk | hk
  · subst hk
    rw [h.1]
    rfl
  obtain ⟨init, last, rfl, rfl, g3, _, _⟩ := gen_rollout M k s tr e h hk
  have hdl : ∀ x ∈ init, x.out.done = false := by
    intro x hx
    have := g3 x hx
    simp only [a3cStop, Bool.or_eq_false_iff] at this
    exact this.1
  generalize hR : acerBoot pi q (init ++ [last]) last.out.next = R
  have hR' : R = if last.out.done then 0 else ∑ a, pi last.out.next a * q last.out.next a := by
    rw [← hR, acerBoot, List.getLast?_concat]
    rfl
  have main : ∀ l : List (Step S A), (∀ x ∈ l, x.out.done = false) →
      (List.range (l ++ [last]).length).map (fun i => Returns.Spec.retrace gamma R c (((l ++ [last]).map (toAcer pi mu q)).drop i))
        = (acerRule gamma c' pi q).tgts (l ++ [last]) last.out.next := by
    intro l
    induction l with
    | nil =>
      intro _
      have := key [] last.out.next (∑ a, pi last.out.next a * q last.out.next a) (by simp) (by simp)
      simp only [List.nil_append, List.length_singleton, List.range_one, List.map_cons, List.map_nil, List.drop_zero,
        Rule.tgts, Rule.tgt]
      rw [retrace_single, hR']
      by_cases hx : last.out.done = true
      · simp [hx, toAcer, acerRule]
      · simp [hx, toAcer, acerRule, Rule.carry]
    | cons x l ih =>
      intro hl
      have hx : x.out.done = false := hl x (by simp)
      have ht := key (l ++ [last]) last.out.next R (by
        rw [List.dropLast_concat]
        exact fun z hz => hl z (by simp [hz])) (by rw [List.getLast?_concat, hR']; rfl)
      rw [List.cons_append, List.length_cons, List.range_succ_eq_map, List.map_cons, List.map_map, Rule.tgts,
        ← ih fun z hz => hl z (by simp [hz])]
      congr 1
      rw [List.drop_zero, List.map_cons, retrace_eq_carry, ht, Rule.tgt]
      simp only [acerRule, hx]
      rfl
  exact main init hdl

/-! ### The agents -/

theorem a3c_run_gen (gamma : ℝ) {tMax : ℕ} (hc : 0 < tMax) (v : S → ℝ) (s : S) (tr : List (Step S A)) (e : S)
    (h : M.Gen a3cStop tMax s tr e) :
    ∃ a, (A3C.new : A3C ℝ).run gamma tMax (tr.map (toTurn v)) = .ok a ∧
      a.updates.flatten = (lamRule gamma 1 v Outcome.done).tgts tr e := by
  obtain ⟨init, last, rfl, rfl, g3, g4, g5⟩ := gen_rollout M _ s tr e h hc
  have hended : ∀ x : Step S A, (toTurn v x).ended = a3cStop x.out := fun x => rfl
  obtain ⟨a, k1, k2⟩ := a3c_run_rollout gamma hc (init.map (toTurn v)) (toTurn v last) [] (a := A3C.new)
    ⟨rfl, hc, by simp, by simp⟩
    ⟨by
      intro t ht
      simp only [List.nil_append, List.mem_map] at ht
      obtain ⟨x, hx, rfl⟩ := ht
      exact g3 x hx, by simpa using g4, by
      simp only [List.nil_append, List.length_map, hended]
      exact g5⟩
  refine ⟨a, by rw [List.map_append, List.map_singleton, k1], ?_⟩
  rw [tgts_one, ← a3cReturns_rets gamma v last init g3, k2]
  simp [A3C.new]

theorem a3cValueLoss_eq (c : A3CCfg) (hc : 0 < c.tMax) (coef : ℝ) (v u : S → ℝ) (s : S) (tr : List (Step S A)) (e : S)
    (h : M.Gen a3cStop c.tMax s tr e) :
    a3cValueLoss c coef v u tr
      = ((tr.zip ((lamRule c.gamma 1 v Outcome.done).tgts tr e)).map fun xR => (u xR.1.s - xR.2) ^ 2).sum / 2
        * ({ c with piLossCoef := coef } : A3CCfg).factor tr.length := by
  obtain ⟨a, k1, k2⟩ := a3c_run_gen M c.gamma hc v s tr e h
  simp only [a3cValueLoss, k1, k2]

/-- The derivative of half a sum of squares. -/
theorem squares_hasDeriv (l : List (Step S A × ℝ)) {u : ℝ → S → A → ℝ} {u' q : S → A → ℝ} {θ₀ : ℝ}
    (hu : ∀ s a, HasDerivAt (fun θ => u θ s a) (u' s a) θ₀) (hq : u θ₀ = q) :
    HasDerivAt (fun θ => (l.map fun xR => (u θ xR.1.s xR.1.a - xR.2) ^ 2).sum)
      (-2 * (l.map fun xR => u' xR.1.s xR.1.a * (xR.2 - q xR.1.s xR.1.a)).sum) θ₀ := by
  have := list_sum_hasDeriv l (f := fun θ xR => (u θ xR.1.s xR.1.a - xR.2) ^ 2)
    (f' := fun xR => -2 * (u' xR.1.s xR.1.a * (xR.2 - q xR.1.s xR.1.a))) (θ₀ := θ₀) (fun xR _ => by
      refine (((hu xR.1.s xR.1.a).sub_const xR.2).pow 2).congr_deriv ?_
      rw [← hq]
      norm_num
      ring)
  rw [List.sum_map_mul_left] at this
  exact this

theorem rolloutReturns_tgts (c : A2CCfg ℝ) (hc : 0 < c.updateSteps) (v : S → ℝ) (s : S) (tr : List (Step S A)) (e : S)
    (h : M.Gen a2cStop c.updateSteps s tr e) :
    Returns.Spec.rolloutReturns c (tr.map (toTurn v))
      = (lamRule c.gamma (if c.useGae then c.tau else 1) v a2cCut).tgts tr e := by
  obtain ⟨g1, g2⟩ := gen_length_a2c M _ s tr e h
  have hch := (gen_chain M _ s tr e h).1
  rw [Returns.Spec.rolloutReturns, g2 v hc]
  by_cases hg : c.useGae = true
  · simp only [Returns.Spec.a2cReturn, hg, if_true]
    clear g1 g2 h
    -- the value of the state before a suffix
    have hval : ∀ l : List (Step S A), ((l.map (toTurn v)).head?.map Turn.value).getD (v e)
        = v ((l.head?.map Step.s).getD e) := by
      intro l
      cases l <;> rfl
    have hrec : ∀ l : List (Step S A), chain l e → (lamRule c.gamma c.tau v a2cCut).carry l e
        = v ((l.head?.map Step.s).getD e) + c.tau * recGae c.gamma c.tau (v e) (l.map (toTurn v)) := by
      intro l
      induction l with
      | nil => intro _; simp [Rule.carry, lamRule, recGae]
      | cons x l ih =>
        intro hl
        have hx : (toTurn v x).ended = a2cCut x.out := rfl
        rw [lam_carry, ih hl.2]
        simp only [List.map_cons, recGae, hval, hx, List.head?_cons, Option.map_some, Option.getD_some]
        have hr : (toTurn v x).reward = x.out.reward := rfl
        have hv : (toTurn v x).value = v x.s := rfl
        rw [hr, hv]
        by_cases hcut : a2cCut x.out = true
        · simp only [if_pos hcut]; ring
        · simp only [if_neg hcut]; ring
    induction tr with
    | nil => rfl
    | cons x l ih =>
      rw [List.map_cons, List.length_cons, List.range_succ_eq_map, List.map_cons, List.map_map, Rule.tgts]
      have := ih hch.2
      simp only [Function.comp_def, List.drop_succ_cons]
      rw [this]
      congr 1
      rw [List.drop_zero, Returns.Spec.gaeReturn, gae_eq_rec, lam_tgt, hrec l hch.2]
      have hx : (toTurn v x).ended = a2cCut x.out := rfl
      have hr : (toTurn v x).reward = x.out.reward := rfl
      have hv : (toTurn v x).value = v x.s := rfl
      simp only [recGae, hval, hx, hr, hv, List.head?_cons, Option.map_some, Option.getD_some]
      by_cases hcut : a2cCut x.out = true
      · simp only [if_pos hcut]; ring
      · simp only [if_neg hcut]; ring
  · rw [if_neg hg, tgts_one, rets_eq_map, List.length_map]
    apply List.map_congr_left
    intro i _
    rw [Returns.Spec.a2cReturn, if_neg hg, nStepReturn_eq_rec, ← List.map_drop, recReturn_ret]

theorem a2c_run_gen (c : A2CCfg ℝ) (hc : 0 < c.updateSteps) (v : S → ℝ) (s : S) (tr : List (Step S A)) (e : S)
    (h : M.Gen a2cStop c.updateSteps s tr e) :
    ∃ a, (A2C.new : A2C ℝ).run c (tr.map (toTurn v)) = .ok a ∧
      a.updates.flatten = (lamRule c.gamma (if c.useGae then c.tau else 1) v a2cCut).tgts tr e := by
  obtain ⟨g1, _⟩ := gen_length_a2c M _ s tr e h
  obtain ⟨a, k1, k2⟩ := a2c_returns c hc [tr.map (toTurn v)] (by simp [g1]) [] hc
  simp only [List.flatten_cons, List.flatten_nil, List.append_nil] at k1
  refine ⟨a, k1, ?_⟩
  rw [k2, ← rolloutReturns_tgts M c hc v s tr e h]
  simp

/-- PPO and TRPO: the value targets and the advantages. -/
theorem gae_tgts (gamma lam : ℝ) (v : S → ℝ) (k : ℕ) (s : S) (tr : List (Step S A)) (e : S) (h : M.Gen a3cStop k s tr e) :
    (gaeEpisode gamma lam (tr.map (toGae v))).map AdvTarget.vTeacher = (lamRule gamma lam v Outcome.done).tgts tr e ∧
      (gaeEpisode gamma lam (tr.map (toGae v))).map AdvTarget.adv
        = (tr.zip ((lamRule gamma lam v Outcome.done).tgts tr e)).map fun xR => xR.2 - v xR.1.s := by
  have hch := (gen_chain M _ s tr e h).1
  have hd : ∀ x ∈ tr.dropLast, x.out.done = false := by
    rcases Nat.eq_zero_or_pos k with hk | hk
    · subst hk
      rw [h.1]
      simp
    · obtain ⟨init, last, rfl, rfl, g3, _, _⟩ := gen_rollout M k s tr e h hk
      intro x hx
      rw [List.dropLast_concat] at hx
      have := g3 x hx
      simp only [a3cStop, Bool.or_eq_false_iff] at this
      exact this.1
  clear h
  induction tr with
  | nil => exact ⟨rfl, rfl⟩
  | cons x tr ih =>
    obtain ⟨ih1, ih2⟩ := ih hch.2 (by
      cases tr with
      | nil => simp
      | cons y tr => exact fun z hz => hd z (by rw [List.dropLast_cons_cons]; exact List.mem_cons_of_mem _ hz))
    obtain ⟨adv, h1, h2⟩ := gaeEpisode_cons gamma lam (toGae v x) (tr.map (toGae v))
    have key : Returns.Spec.tdError gamma (toGae v x) + gamma * lam * adv
        = (lamRule gamma lam v Outcome.done).tgt x tr e - v x.s := by
      have hadv : adv = headErr (lamRule gamma lam v Outcome.done) tr e := by
        rw [h2]
        cases tr with
        | nil => rfl
        | cons y tr =>
          cases hg : gaeEpisode gamma lam ((y :: tr).map (toGae v)) with
          | nil =>
            have := gaeEpisode_length gamma lam ((y :: tr).map (toGae v))
            rw [hg] at this
            simp at this
          | cons z zs =>
            rw [hg] at ih2
            simp only [List.map_cons, Rule.tgts, List.zip_cons_cons, List.cons.injEq] at ih2
            exact ih2.1
      have hnext := hch.1
      have hcar := lam_head gamma lam v Outcome.done e tr
      rw [← hadv, ← hnext] at hcar
      rw [lam_tgt, hcar]
      simp only [Returns.Spec.tdError, toGae]
      by_cases hx : x.out.done = true
      · simp only [if_pos hx]
        have : tr = [] := by
          cases tr with
          | nil => rfl
          | cons y tr =>
            have := hd x (by simp)
            rw [hx] at this
            cases this
        subst this
        rw [hadv, headErr]
        ring
      · simp only [if_neg hx]
        ring
    rw [List.map_cons, h1, key]
    constructor
    · simp only [List.map_cons, Rule.tgts, ih1]
      congr 1
      simp only [toGae]
      ring
    · simp only [List.map_cons, Rule.tgts, List.zip_cons_cons, ih2]

/-- The traces of ACER as a function of state and action. -/
noncomputable def acerTrace (pi : S → A → ℝ) (mu : Option (S → A → ℝ)) (s : S) (a : A) : ℝ :=
  min 1 ((mu.map fun mu => pi s a / mu s a).getD 1)

theorem acer_tgts (c : AcerCfg) (hd : c.discrete = true) (pi : S → A → ℝ) (mu : Option (S → A → ℝ)) (q : S → A → ℝ) (k : ℕ)
    (s : S) (tr : List (Step S A)) (e : S) (h : M.Gen a3cStop k s tr e) :
    (acerTargets c (acerBoot pi q tr e) (tr.map (toAcer pi mu q))).map AcerTargets.qTarget
      = (acerRule c.gamma (acerTrace pi mu) pi q).tgts tr e := by
  rw [acer_targets_retrace, List.map_map, List.length_map]
  rw [← retrace_tgts M c.gamma c.trace (acerTrace pi mu) pi mu q (fun x => by
    simp only [AcerCfg.trace, hd, if_true, AcerStep.ratio, toAcer, acerTrace]) k s tr e h]
  rfl

theorem acer_contracts {gamma : ℝ} {pi : S → A → ℝ} {mu : Option (S → A → ℝ)} {q : S → A → ℝ} {V : S → ℝ} {Q : S → A → ℝ}
    {ε : ℝ} (hpi : Spec.Proper M pi) (hmu : Spec.Proper M (mu.getD pi)) (hV : Spec.Values M pi gamma V Q)
    (h0 : 0 ≤ gamma) (h1 : gamma ≤ 1) (hq : ∀ s a, |q s a - Q s a| ≤ ε) (hε : 0 ≤ ε) (k : ℕ) (s : S) (a : A) :
    |(acerRule gamma (acerTrace pi mu) pi q).expected M stop (mu.getD pi) k s a - Q s a| ≤ gamma * ε := by
  -- the traces times the behaviour policy
  have hm : ∀ s a, 0 ≤ mu.getD pi s a * acerTrace pi mu s a ∧ mu.getD pi s a * acerTrace pi mu s a ≤ pi s a := by
    intro s a
    have hp := hpi.nonneg s a
    have hb := hmu.nonneg s a
    cases mu with
    | none => simp only [acerTrace, Option.getD_none, Option.map_none, min_self, mul_one]; exact ⟨hp, le_refl _⟩
    | some m =>
      simp only [Option.getD_some] at hb
      simp only [acerTrace, Option.getD_some, Option.map_some]
      have hr : 0 ≤ pi s a / m s a := div_nonneg hp hb
      refine ⟨mul_nonneg hb (le_min zero_le_one hr), ?_⟩
      rcases hb.eq_or_lt with h | h
      · rw [← h]; simpa using hp
      · calc m s a * min 1 (pi s a / m s a) ≤ m s a * (pi s a / m s a) :=
              mul_le_mul_of_nonneg_left (min_le_right _ _) hb
          _ = pi s a := mul_div_cancel₀ _ h.ne'
  have hmean : ∀ s, (∑ a, pi s a * q s a) - V s = ∑ a, pi s a * (q s a - Q s a) := by
    intro s
    rw [hV.v, ← sum_sub_distrib]
    exact sum_congr rfl fun a _ => by ring
  refine (expected_contracts M (acerRule gamma (acerTrace pi mu) pi q) (V := V) hpi.prob hV.q (fun _ _ _ => rfl) h0 h1 hε
    (fun s => ?_) hmu.sum (fun s a => (hm s a).1) (fun s => ?_) k).2 s a
  · simp only [acerRule]
    rw [hmean]
    refine (abs_sum_le_sum_abs _ _).trans ?_
    calc ∑ a, |pi s a * (q s a - Q s a)| ≤ ∑ a, pi s a * ε := by
          refine sum_le_sum fun a _ => ?_
          rw [abs_mul, abs_of_nonneg (hpi.nonneg s a)]
          exact mul_le_mul_of_nonneg_left (hq s a) (hpi.nonneg s a)
      _ = ε := by rw [← sum_mul, hpi.sum, one_mul]
  · simp only [acerRule]
    rw [hmean, ← sum_sub_distrib]
    refine (abs_sum_le_sum_abs _ _).trans ?_
    have : (1 - ∑ a, mu.getD pi s a * acerTrace pi mu s a) * ε
        = ∑ a, (pi s a - mu.getD pi s a * acerTrace pi mu s a) * ε := by
      rw [← sum_mul, sum_sub_distrib, hpi.sum]
    rw [this]
    refine sum_le_sum fun a _ => ?_
    rw [← sub_mul, abs_mul, abs_of_nonneg (sub_nonneg.2 (hm s a).2)]
    exact mul_le_mul_of_nonneg_left (hq s a) (sub_nonneg.2 (hm s a).2)

/-! ## C104 -/

/-- **C104 (A3C).** Averaged over all segments, the gradient of A3C's value loss moves the value of each visited state
towards a target (`T (steps left) state`) that is closer to the true value of the current policy than the predictions are,
by the factor `gamma`.  Segments may end by termination, by a time limit or after `t_max` steps. -/
theorem a3c_critic_partial (M : Env S A O) (c : A3CCfg) (hc : 0 < c.tMax) (h0 : 0 ≤ c.gamma) (h1 : c.gamma ≤ 1)
    (hk : c.keepLossScaleSame = false) (hn : c.normalizeGradByTMax = false) (coef : ℝ) (w : S → A → ℝ)
    (hp : Spec.Proper M w) (v : S → ℝ) (u : ℝ → S → ℝ) (u' : S → ℝ) (θ₀ : ℝ) (hv : u θ₀ = v)
    (hu : ∀ s, HasDerivAt (fun θ => u θ s) (u' s) θ₀) (s : S) :
    ∃ T : ℕ → S → ℝ,
      (∀ V Q ε, Spec.Values M w c.gamma V Q → (∀ s, |v s - V s| ≤ ε) → ∀ j s, |T j s - V s| ≤ c.gamma * ε) ∧
      HasDerivAt (fun θ => M.expect a3cStop w c.tMax s fun tr _ => a3cValueLoss c coef v (u θ) tr)
        (-(coef * M.expect a3cStop w c.tMax s fun tr _ =>
          Spec.along (fun j s => u' s * (T j s - v s)) c.tMax tr)) θ₀ := by
  set r : Rule S A := lamRule c.gamma 1 v Outcome.done with hr
  refine ⟨fun j s => ∑ a, w s a * r.expected M a3cStop w j s a, ?_, ?_⟩
  · intro V Q ε hV hε j s
    exact mean_close M hV hp (lam_contracts M hp hV (fun _ _ _ => rfl) h0 h1 zero_le_one le_rfl hε
      ((abs_nonneg _).trans (hε s)) j) s
  · have e1 : (fun θ => M.expect a3cStop w c.tMax s fun tr _ => a3cValueLoss c coef v (u θ) tr)
        = fun θ => M.expect a3cStop w c.tMax s fun tr e =>
          ((tr.zip (r.tgts tr e)).map fun xR => (u θ xR.1.s - xR.2) ^ 2).sum / 2 * coef := by
      funext θ
      refine expect_congr M _ _ fun tr e ht => ?_
      rw [a3cValueLoss_eq M c hc coef v (u θ) s tr e ht]
      simp [A3CCfg.factor, hk, hn, hr]
    rw [e1]
    have e2 := expect_hasDeriv M (stop := a3cStop) (w := w) c.tMax s (θ₀ := θ₀)
      (f := fun θ tr e => ((tr.zip (r.tgts tr e)).map fun xR => (u θ xR.1.s - xR.2) ^ 2).sum / 2 * coef)
      (fun tr e => ((squares_hasDeriv (tr.zip (r.tgts tr e)) (u := fun θ s _ => u θ s) (u' := fun s _ => u' s)
        (q := fun s _ => v s) (fun s _ => hu s) (by funext s a; rw [hv])).div_const 2).mul_const coef)
    refine e2.congr_deriv ?_
    have e3 : (fun (tr : List (Step S A)) (e : S) =>
        -2 * ((tr.zip (r.tgts tr e)).map fun xR => u' xR.1.s * (xR.2 - v xR.1.s)).sum / 2 * coef)
        = fun tr e => -coef * Spec.weighted (fun s _ => u' s) tr (r.tgts tr e) (fun s _ => v s) := by
      funext tr e
      rw [Spec.weighted]
      ring
    rw [e3, expect_mul, expect_weighted M r hp.sum, expect_alongQ M hp.sum _ _
      (fun j s => (mean_weighted hp.sum u' v (r.expected M a3cStop w j) s).symm), neg_mul]

/-- **C104 (A3C, exact values).** True values are left alone: the expected gradient of the value loss is 0, in every
direction. -/
theorem a3c_critic_exact_partial (M : Env S A O) (c : A3CCfg) (hc : 0 < c.tMax) (h0 : 0 ≤ c.gamma) (h1 : c.gamma ≤ 1)
    (hk : c.keepLossScaleSame = false) (hn : c.normalizeGradByTMax = false) (coef : ℝ) (w : S → A → ℝ)
    (hp : Spec.Proper M w) (V : S → ℝ) (Q : S → A → ℝ) (hV : Spec.Values M w c.gamma V Q) (u : ℝ → S → ℝ) (u' : S → ℝ)
    (θ₀ : ℝ) (hv : u θ₀ = V) (hu : ∀ s, HasDerivAt (fun θ => u θ s) (u' s) θ₀) (s : S) :
    HasDerivAt (fun θ => M.expect a3cStop w c.tMax s fun tr _ => a3cValueLoss c coef V (u θ) tr) 0 θ₀ := by
  obtain ⟨T, h2, h3⟩ := a3c_critic_partial M c hc h0 h1 hk hn coef w hp V u u' θ₀ hv hu s
  refine h3.congr_deriv ?_
  have hT : ∀ j s, T j s - V s = 0 := fun j s => by
    have := h2 V Q 0 hV (by simp) j s
    rw [mul_zero] at this
    exact abs_eq_zero.1 (le_antisymm this (abs_nonneg _))
  simp only [hT, mul_zero]
  rw [expect_along_zero M hp.sum, mul_zero, neg_zero]

/-- **C104 (A2C).** The same for any number of processes, with and without generalised advantages, if episodes end only by
termination. -/
theorem a2c_critic_partial (M : Env S A O) (c : A2CCfg ℝ) (hc : 0 < c.updateSteps) (h0 : 0 ≤ c.gamma) (h1 : c.gamma ≤ 1)
    (t0 : 0 ≤ c.tau) (t1 : c.tau ≤ 1) (hreset : ∀ s a o, (M.out s a o).reset = true → (M.out s a o).done = true) (coef : ℝ)
    (w : S → A → ℝ) (hp : Spec.Proper M w) (v : S → ℝ) (u : ℝ → S → ℝ) (u' : S → ℝ) (θ₀ : ℝ) (hv : u θ₀ = v)
    (hu : ∀ s, HasDerivAt (fun θ => u θ s) (u' s) θ₀) (ss : List S) :
    ∃ T : ℕ → S → ℝ,
      (∀ V Q ε, Spec.Values M w c.gamma V Q → (∀ s, |v s - V s| ≤ ε) → ∀ j s, |T j s - V s| ≤ c.gamma * ε) ∧
      HasDerivAt (fun θ => M.expectAll a2cStop w c.updateSteps ss (a2cValueLoss c coef v (u θ)))
        (-(2 * coef * ((ss.map fun s => M.expect a2cStop w c.updateSteps s fun tr _ =>
          Spec.along (fun j s => u' s * (T j s - v s)) c.updateSteps tr).sum / (c.updateSteps * ss.length)))) θ₀ := by
  set lam : ℝ := if c.useGae then c.tau else 1 with hlam
  set r : Rule S A := lamRule c.gamma lam v a2cCut with hr
  have hcut : ∀ s a o, a2cCut (M.out s a o) = (M.out s a o).done := by
    intro s a o
    have := hreset s a o
    simp only [a2cCut]
    cases hd : (M.out s a o).done <;> cases hs : (M.out s a o).reset <;> simp_all
  have l0 : 0 ≤ lam := by rw [hlam]; split <;> [exact t0; exact zero_le_one]
  have l1 : lam ≤ 1 := by rw [hlam]; split <;> [exact t1; exact le_rfl]
  refine ⟨fun j s => ∑ a, w s a * r.expected M a2cStop w j s a, ?_, ?_⟩
  · intro V Q ε hV hε j s
    exact mean_close M hV hp (lam_contracts M hp hV hcut h0 h1 l0 l1 hε ((abs_nonneg _).trans (hε s)) j) s
  · rcases ss with _ | ⟨s0, ss⟩
    · simp only [Env.expectAll, List.map_nil, List.sum_nil, zero_div, mul_zero, neg_zero]
      have : (fun θ => a2cValueLoss c coef v (u θ) ([] : List (List (Step S A)))) = fun _ => 0 := by
        funext θ
        simp [a2cValueLoss]
      rw [this]
      exact hasDerivAt_const _ _
    set ss' := s0 :: ss with hss
    set N : ℝ := c.updateSteps * ss'.length with hN
    let L : ℝ → List (Step S A) → ℝ := fun θ tr =>
      coef / N * ((tr.zip (r.tgts tr (lastState s0 tr))).map fun xR => (u θ xR.1.s - xR.2) ^ 2).sum
    have hlast : ∀ s tr e, M.Gen a2cStop c.updateSteps s tr e → e = lastState s0 tr := by
      intro s tr e hgen
      have he := gen_lastState M _ s tr e hgen
      obtain ⟨k, hk⟩ : ∃ k, c.updateSteps = k + 1 := ⟨c.updateSteps - 1, by omega⟩
      obtain ⟨x, l, rfl⟩ := gen_start M k (by rw [hk] at hgen; exact hgen)
      rw [he]
      simp only [lastState]
      rw [List.getLast?_eq_some_getLast (by simp)]
      rfl
    have e1 : (fun θ => M.expectAll a2cStop w c.updateSteps ss' (a2cValueLoss c coef v (u θ)))
        = fun θ => M.expectAll a2cStop w c.updateSteps ss' fun trs => (trs.map (L θ)).sum := by
      funext θ
      refine expectAll_congr M _ _ fun trs ht hl => ?_
      have hone : ∀ tr ∈ trs, (match (A2C.new : A2C ℝ).run c (tr.map (toTurn v)) with
          | .error _ => 0
          | .ok a => ((tr.zip a.updates.flatten).map fun xR => (xR.2 - u θ xR.1.s) ^ 2).sum)
          = ((tr.zip (r.tgts tr (lastState s0 tr))).map fun xR => (u θ xR.1.s - xR.2) ^ 2).sum := by
        intro tr htr
        obtain ⟨s, e, hgen⟩ := ht tr htr
        obtain ⟨a, k1, k2⟩ := a2c_run_gen M c hc v s tr e hgen
        simp only [k1]
        rw [k2, hlast s tr e hgen]
        refine congrArg List.sum (List.map_congr_left fun xR _ => ?_)
        ring
      simp only [a2cValueLoss, hl, L, List.sum_map_mul_left]
      rw [List.map_congr_left hone]
      simp only [hN]
      ring
    rw [e1]
    have e2 : ∀ tr, HasDerivAt (fun θ => L θ tr) (coef / N * (-2 * Spec.weighted (fun s _ => u' s) tr
        (r.tgts tr (lastState s0 tr)) (fun s _ => v s))) θ₀ := fun tr =>
      (squares_hasDeriv (tr.zip (r.tgts tr (lastState s0 tr))) (u := fun θ s _ => u θ s) (u' := fun s _ => u' s)
        (q := fun s _ => v s) (fun s _ => hu s) (by funext s a; rw [hv])).const_mul _
    refine (expectAll_hasDeriv M c.updateSteps ss' fun trs => list_sum_hasDeriv trs fun tr _ => e2 tr).congr_deriv ?_
    rw [expectAll_sum M hp.sum]
    have e3 : ∀ s, M.expect a2cStop w c.updateSteps s (fun tr _ => coef / N * (-2 * Spec.weighted (fun s _ => u' s) tr
        (r.tgts tr (lastState s0 tr)) (fun s _ => v s)))
        = (-(2 * coef / N)) * M.expect a2cStop w c.updateSteps s fun tr _ =>
          Spec.along (fun j s => u' s * (∑ a, w s a * r.expected M a2cStop w j s a - v s)) c.updateSteps tr := by
      intro s
      rw [← expect_alongQ M hp.sum _ _ (fun j s => (mean_weighted hp.sum u' v (r.expected M a2cStop w j) s).symm),
        ← expect_weighted M r hp.sum, ← expect_mul]
      refine expect_congr M _ _ fun tr e ht => ?_
      rw [← hlast s tr e ht]
      ring
    simp only [e3, List.sum_map_mul_left]
    ring

/-- **C104 (A2C, exact values).** -/
theorem a2c_critic_exact_partial (M : Env S A O) (c : A2CCfg ℝ) (hc : 0 < c.updateSteps) (h0 : 0 ≤ c.gamma)
    (h1 : c.gamma ≤ 1) (t0 : 0 ≤ c.tau) (t1 : c.tau ≤ 1)
    (hreset : ∀ s a o, (M.out s a o).reset = true → (M.out s a o).done = true) (coef : ℝ)
    (w : S → A → ℝ) (hp : Spec.Proper M w) (V : S → ℝ) (Q : S → A → ℝ) (hV : Spec.Values M w c.gamma V Q)
    (u : ℝ → S → ℝ) (u' : S → ℝ) (θ₀ : ℝ) (hv : u θ₀ = V) (hu : ∀ s, HasDerivAt (fun θ => u θ s) (u' s) θ₀)
    (ss : List S) :
    HasDerivAt (fun θ => M.expectAll a2cStop w c.updateSteps ss (a2cValueLoss c coef V (u θ))) 0 θ₀ := by
  obtain ⟨T, h2, h3⟩ := a2c_critic_partial M c hc h0 h1 t0 t1 hreset coef w hp V u u' θ₀ hv hu ss
  refine h3.congr_deriv ?_
  have hT : ∀ j s, T j s - V s = 0 := fun j s => by
    have := h2 V Q 0 hV (by simp) j s
    rw [mul_zero] at this
    exact abs_eq_zero.1 (le_antisymm this (abs_nonneg _))
  simp only [hT, mul_zero, expect_along_zero M hp.sum]
  simp

/-- **C104 (PPO, TRPO).** For every weighting of the steps by state and action, in expectation over the episodes of at most
`k` steps (ended by termination, by a time limit or by the update), the errors of the value targets and the advantages are
those of targets that are closer to the true action values than the predictions are to the true values, by the factor
`gamma`.  With true values the expected advantages are the true advantages. -/
theorem gae_critic (M : Env S A O) (gamma lam : ℝ) (h0 : 0 ≤ gamma) (h1 : gamma ≤ 1) (l0 : 0 ≤ lam) (l1 : lam ≤ 1)
    (w : S → A → ℝ) (hp : Spec.Proper M w) (v : S → ℝ) :
    ∃ T : ℕ → S → A → ℝ,
      (∀ V Q ε, Spec.Values M w gamma V Q → (∀ s, |v s - V s| ≤ ε) → ∀ j s a, |T j s a - Q s a| ≤ gamma * ε) ∧
      ∀ (φ : S → A → ℝ) (k : ℕ) (s : S),
        M.expect a3cStop w k s (fun tr _ =>
            ((tr.zip (gaeEpisode gamma lam (tr.map (toGae v)))).map fun xR => φ xR.1.s xR.1.a * xR.2.adv).sum)
          = M.expect a3cStop w k s (fun tr _ => Spec.alongQ (fun j s a => φ s a * (T j s a - v s)) k tr) ∧
        M.expect a3cStop w k s (fun tr _ => Spec.weighted φ tr
            ((gaeEpisode gamma lam (tr.map (toGae v))).map AdvTarget.vTeacher) fun s _ => v s)
          = M.expect a3cStop w k s (fun tr _ => Spec.alongQ (fun j s a => φ s a * (T j s a - v s)) k tr) := by
  set r : Rule S A := lamRule gamma lam v Outcome.done with hr
  refine ⟨fun j s a => r.expected M a3cStop w j s a, ?_, ?_⟩
  · intro V Q ε hV hε j s a
    exact lam_contracts M hp hV (fun _ _ _ => rfl) h0 h1 l0 l1 hε ((abs_nonneg _).trans (hε s)) j s a
  · intro φ k s
    rw [← expect_weighted M r hp.sum]
    constructor
    · refine expect_congr M _ _ fun tr e ht => ?_
      have h2 := (gae_tgts M gamma lam v k s tr e ht).2
      have h3 : (tr.zip (gaeEpisode gamma lam (tr.map (toGae v)))).map (fun xR => φ xR.1.s xR.1.a * xR.2.adv)
          = (tr.zip ((gaeEpisode gamma lam (tr.map (toGae v))).map AdvTarget.adv)).map fun xR =>
            φ xR.1.s xR.1.a * xR.2 := by
        rw [List.zip_map_right, List.map_map]
        rfl
      rw [h3, h2, Spec.weighted]
      generalize r.tgts tr e = l
      clear h2 h3 ht
      induction tr generalizing l with
      | nil => rfl
      | cons x tr ih =>
        cases l with
        | nil => rfl
        | cons y l =>
          simp only [List.zip_cons_cons, List.map_cons, List.sum_cons]
          rw [ih]
    · refine expect_congr M _ _ fun tr e ht => ?_
      rw [(gae_tgts M gamma lam v k s tr e ht).1]

/-- **C104 (ACER).** With discrete actions, for replayed episodes of any behaviour policy `mu` (which need not cover the
actions of the current policy `pi`) as well as for on-policy segments: in expectation over what `mu` and the environment
do, the Q-function is moved towards targets that are closer to the action values of `pi` by the factor `gamma`. -/
theorem acer_critic_partial (M : Env S A O) (c : AcerCfg) (hd : c.discrete = true) (h0 : 0 ≤ c.gamma) (h1 : c.gamma ≤ 1)
    (coef : ℝ) (pi : S → A → ℝ) (mu : Option (S → A → ℝ)) (hpi : Spec.Proper M pi) (hmu : Spec.Proper M (mu.getD pi))
    (q : S → A → ℝ) (u : ℝ → S → A → ℝ) (u' : S → A → ℝ) (θ₀ : ℝ) (hq : u θ₀ = q)
    (hu : ∀ s a, HasDerivAt (fun θ => u θ s a) (u' s a) θ₀) (k : ℕ) (s : S) :
    ∃ T : ℕ → S → A → ℝ,
      (∀ V Q ε, Spec.Values M pi c.gamma V Q → (∀ s a, |q s a - Q s a| ≤ ε) → ∀ j s a, |T j s a - Q s a| ≤ c.gamma * ε) ∧
      HasDerivAt (fun θ => M.expect a3cStop (mu.getD pi) k s (acerQLoss c coef false pi mu q (u θ)))
        (-(coef * M.expect a3cStop (mu.getD pi) k s fun tr _ =>
          Spec.alongQ (fun j s a => u' s a * (T j s a - q s a)) k tr)) θ₀ := by
  set r : Rule S A := acerRule c.gamma (acerTrace pi mu) pi q with hr
  refine ⟨fun j s a => r.expected M a3cStop (mu.getD pi) j s a, ?_, ?_⟩
  · intro V Q ε hV hε j s a
    exact acer_contracts M hpi hmu hV h0 h1 hε ((abs_nonneg _).trans (hε s a)) j s a
  · have e1 : (fun θ => M.expect a3cStop (mu.getD pi) k s (acerQLoss c coef false pi mu q (u θ)))
        = fun θ => M.expect a3cStop (mu.getD pi) k s fun tr e =>
          ((tr.zip (r.tgts tr e)).map fun xR => (u θ xR.1.s xR.1.a - xR.2) ^ 2).sum / 2 * coef := by
      funext θ
      refine expect_congr M _ _ fun tr e ht => ?_
      rw [acerQLoss, hr, ← acer_tgts M c hd pi mu q k s tr e ht, List.zip_map_right, List.map_map]
      simp only [Bool.false_eq_true, if_false, div_one]
      congr 1
      rw [div_eq_mul_inv, ← List.sum_map_mul_right]
      refine congrArg List.sum (List.map_congr_left fun xR _ => ?_)
      simp only [Function.comp_apply, Prod.map_fst, Prod.map_snd, id_eq]
      ring
    rw [e1]
    have e2 := expect_hasDeriv M (stop := a3cStop) (w := mu.getD pi) k s (θ₀ := θ₀)
      (f := fun θ tr e => ((tr.zip (r.tgts tr e)).map fun xR => (u θ xR.1.s xR.1.a - xR.2) ^ 2).sum / 2 * coef)
      (fun tr e => ((squares_hasDeriv (tr.zip (r.tgts tr e)) (u := u) (u' := u') (q := q) hu hq).div_const 2).mul_const coef)
    refine e2.congr_deriv ?_
    have e3 : (fun (tr : List (Step S A)) (e : S) =>
        -2 * ((tr.zip (r.tgts tr e)).map fun xR => u' xR.1.s xR.1.a * (xR.2 - q xR.1.s xR.1.a)).sum / 2 * coef)
        = fun tr e => -coef * Spec.weighted u' tr (r.tgts tr e) q := by
      funext tr e
      rw [Spec.weighted]
      ring
    rw [e3, expect_mul, expect_weighted M r hmu.sum, neg_mul]

/-- The specification determines the values: with `gamma < 1` and finitely many states there are no two solutions. -/
theorem values_unique [Fintype S] (M : Env S A O) (w : S → A → ℝ) (hp : Spec.Proper M w) (gamma : ℝ) (h0 : 0 ≤ gamma)
    (h1 : gamma < 1) {V V' : S → ℝ} {Q Q' : S → A → ℝ} (hV : Spec.Values M w gamma V Q)
    (hV' : Spec.Values M w gamma V' Q') : V = V' ∧ Q = Q' := by
  have hVV : V = V' := by
    funext s
    obtain ⟨m, _, hm⟩ := exists_max_image Finset.univ (fun s => |V' s - V s|) ⟨s, mem_univ s⟩
    have hle : |V' m - V m| ≤ gamma * |V' m - V m| := by
      have hQ : ∀ s a, |Q' s a - Q s a| ≤ gamma * |V' m - V m| := by
        intro s a
        rw [hV.q, hV'.q, ← sum_sub_distrib]
        refine (abs_sum_le_sum_abs _ _).trans ?_
        calc ∑ o, |M.prob s a o * ((M.out s a o).reward + gamma * if (M.out s a o).done then 0 else V' (M.out s a o).next)
              - M.prob s a o * ((M.out s a o).reward + gamma * if (M.out s a o).done then 0 else V (M.out s a o).next)|
            ≤ ∑ o, M.prob s a o * (gamma * |V' m - V m|) := by
              refine sum_le_sum fun o _ => ?_
              rw [← mul_sub, abs_mul, abs_of_nonneg (hp.prob s a o)]
              refine mul_le_mul_of_nonneg_left ?_ (hp.prob s a o)
              rw [add_sub_add_left_eq_sub, ← mul_sub, abs_mul, abs_of_nonneg h0]
              refine mul_le_mul_of_nonneg_left ?_ h0
              split
              · simp
              · exact hm _ (mem_univ _)
          _ = gamma * |V' m - V m| := by rw [← sum_mul, M.sum_prob, one_mul]
      have := mean_close M hV hp hQ m
      rwa [← hV'.v m] at this
    have hz : |V' m - V m| ≤ 0 := by nlinarith [abs_nonneg (V' m - V m)]
    have := (hm s (mem_univ s)).trans hz
    have := abs_eq_zero.1 (le_antisymm this (abs_nonneg _))
    linarith
  refine ⟨hVV, ?_⟩
  funext s a
  rw [hV.q, hV'.q, hVV]

/-! ### What is missing -/

/-- One action.  From the first state the episode ends with reward 1, or continues with reward -1, with probability 1/2
each; the second step earns nothing.  Both states have the value 0. -/
noncomputable def luckyOrLong : Env Bool Unit Bool where
  prob _ _ _ := 1 / 2
  out s _ o := if s then ⟨0, true, false, true⟩ else if o then ⟨1, true, false, true⟩ else ⟨-1, false, false, true⟩
  sum_prob := by intro s a; norm_num

theorem luckyOrLong_proper : Spec.Proper luckyOrLong fun _ _ => 1 :=
  ⟨fun s a o => by norm_num [luckyOrLong], fun _ _ => zero_le_one, fun _ => by simp⟩

theorem luckyOrLong_values : Spec.Values luckyOrLong (fun _ _ => 1) 1 (fun _ => 0) (fun _ _ => 0) :=
  ⟨fun s a => by cases s <;> norm_num [luckyOrLong], fun s => by simp⟩

theorem expect_a3cValueLoss (c : A3CCfg) (hc : 0 < c.tMax) (coef : ℝ) (v u : S → ℝ) (s : S) :
    M.expect a3cStop w c.tMax s (fun tr _ => a3cValueLoss c coef v u tr)
      = M.expect a3cStop w c.tMax s fun tr e =>
        ((tr.zip ((lamRule c.gamma 1 v Outcome.done).tgts tr e)).map fun xR => (u xR.1.s - xR.2) ^ 2).sum / 2
        * ({ c with piLossCoef := coef } : A3CCfg).factor tr.length :=
  expect_congr M _ _ fun tr e ht => a3cValueLoss_eq M c hc coef v u s tr e ht

/-- **C104, violated with `normalize_grad_by_t_max`.** The values are exact, but the expected gradient is not 0: short
segments, here the lucky ones, weigh more. -/
theorem a3c_critic_normalized_biased :
    ∃ (M : Env Bool Unit Bool) (c : A3CCfg) (w : Bool → Unit → ℝ) (V : Bool → ℝ) (Q : Bool → Unit → ℝ) (u : ℝ → Bool → ℝ),
      0 < c.tMax ∧ c.gamma = 1 ∧ c.keepLossScaleSame = false ∧ c.normalizeGradByTMax = true ∧ Spec.Proper M w ∧
      Spec.Values M w c.gamma V Q ∧ u 0 = V ∧
      HasDerivAt (fun θ => M.expect a3cStop w c.tMax false fun tr _ => a3cValueLoss c 1 V (u θ) tr) (-1 / 4) 0 := by
  refine ⟨luckyOrLong, ⟨1, 2, 0, 1, false, true⟩, fun _ _ => 1, fun _ => 0, fun _ _ => 0, fun θ _ => θ, by decide, rfl, rfl,
    rfl, luckyOrLong_proper, luckyOrLong_values, rfl, ?_⟩
  have : (fun θ => luckyOrLong.expect a3cStop (fun _ _ => 1) 2 false fun tr _ =>
      a3cValueLoss ⟨1, 2, 0, 1, false, true⟩ 1 (fun _ => 0) (fun _ => θ) tr)
      = fun θ => 1 / 2 * θ ^ 2 + -1 / 4 * θ + 3 / 8 := by
    funext θ
    have := expect_a3cValueLoss luckyOrLong (w := fun _ _ => 1) ⟨1, 2, 0, 1, false, true⟩ (by decide) 1 (fun _ => 0)
      (fun _ => θ) false
    simp only at this
    rw [this]
    simp [Env.expect, Env.choose, luckyOrLong, a3cStop, Rule.tgts, Rule.tgt, Rule.carry, lamRule, A3CCfg.factor]
    ring
  simp only [this]
  refine ((((hasDerivAt_id (0 : ℝ)).pow 2).const_mul (1 / 2)).add ((hasDerivAt_id (0 : ℝ)).const_mul (-1 / 4))
    |>.add_const (3 / 8)).congr_deriv (by norm_num)

/-- **C104, violated with `keep_loss_scale_same`.** -/
theorem a3c_critic_scaled_biased :
    ∃ (M : Env Bool Unit Bool) (c : A3CCfg) (w : Bool → Unit → ℝ) (V : Bool → ℝ) (Q : Bool → Unit → ℝ) (u : ℝ → Bool → ℝ),
      0 < c.tMax ∧ c.gamma = 1 ∧ c.keepLossScaleSame = true ∧ c.normalizeGradByTMax = false ∧ Spec.Proper M w ∧
      Spec.Values M w c.gamma V Q ∧ u 0 = V ∧
      HasDerivAt (fun θ => M.expect a3cStop w c.tMax false fun tr _ => a3cValueLoss c 1 V (u θ) tr) (-1 / 2) 0 := by
  refine ⟨luckyOrLong, ⟨1, 2, 0, 1, true, false⟩, fun _ _ => 1, fun _ => 0, fun _ _ => 0, fun θ _ => θ, by decide, rfl, rfl,
    rfl, luckyOrLong_proper, luckyOrLong_values, rfl, ?_⟩
  have : (fun θ => luckyOrLong.expect a3cStop (fun _ _ => 1) 2 false fun tr _ =>
      a3cValueLoss ⟨1, 2, 0, 1, true, false⟩ 1 (fun _ => 0) (fun _ => θ) tr)
      = fun θ => θ ^ 2 + -1 / 2 * θ + 3 / 4 := by
    funext θ
    have := expect_a3cValueLoss luckyOrLong (w := fun _ _ => 1) ⟨1, 2, 0, 1, true, false⟩ (by decide) 1 (fun _ => 0)
      (fun _ => θ) false
    simp only at this
    rw [this]
    simp [Env.expect, Env.choose, luckyOrLong, a3cStop, Rule.tgts, Rule.tgt, Rule.carry, lamRule, A3CCfg.factor]
    ring
  simp only [this]
  refine ((((hasDerivAt_id (0 : ℝ)).pow 2).add ((hasDerivAt_id (0 : ℝ)).const_mul (-1 / 2)))
    |>.add_const (3 / 4)).congr_deriv (by norm_num)

/-- **C104, violated by ACER's default.** `normalize_loss_by_steps` (on by default) has the same effect on the
Q-function. -/
theorem acer_critic_normalized_biased :
    ∃ (M : Env Bool Unit Bool) (c : AcerCfg) (pi : Bool → Unit → ℝ) (V : Bool → ℝ) (Q : Bool → Unit → ℝ)
      (u : ℝ → Bool → Unit → ℝ), c.discrete = true ∧ c.gamma = 1 ∧ Spec.Proper M pi ∧ Spec.Values M pi c.gamma V Q ∧ u 0 = Q ∧
      HasDerivAt (fun θ => M.expect a3cStop pi 2 false (acerQLoss c 1 true pi none Q (u θ))) (-1 / 4) 0 := by
  refine ⟨luckyOrLong, ⟨1, true, 1, false⟩, fun _ _ => 1, fun _ => 0, fun _ _ => 0, fun θ _ _ => θ, rfl, rfl,
    luckyOrLong_proper, luckyOrLong_values, rfl, ?_⟩
  have : (fun θ => luckyOrLong.expect a3cStop (fun _ _ => 1) 2 false
      (acerQLoss ⟨1, true, 1, false⟩ 1 true (fun _ _ => 1) none (fun _ _ => 0) (fun _ _ => θ)))
      = fun θ => 1 / 2 * θ ^ 2 + -1 / 4 * θ + 3 / 8 := by
    funext θ
    simp [Env.expect, Env.choose, luckyOrLong, a3cStop, acerQLoss, acerBoot, toAcer, acerTargets, acerLoop, AcerCfg.trace,
      AcerStep.ratio]
    ring
  simp only [this]
  refine ((((hasDerivAt_id (0 : ℝ)).pow 2).const_mul (1 / 2)).add ((hasDerivAt_id (0 : ℝ)).const_mul (-1 / 4))
    |>.add_const (3 / 8)).congr_deriv (by norm_num)

/-- One state, reward 1 forever; a time limit resets the environment after each step. -/
noncomputable def timeLimited : Env Unit Unit Unit where
  prob _ _ _ := 1
  out _ _ _ := ⟨1, false, true, ()⟩
  sum_prob := by simp

/-- **C104, violated by A2C with a time limit.** With `gamma = 1/2` the true value is 2, and A3C leaves it alone; A2C treats
the reset as a termination, its target is 1, and the gradient moves the value away from the truth. -/
theorem a2c_critic_time_limit_biased :
    ∃ (M : Env Unit Unit Unit) (c : A2CCfg ℝ) (w : Unit → Unit → ℝ) (V : Unit → ℝ) (Q : Unit → Unit → ℝ) (u : ℝ → Unit → ℝ),
      0 < c.updateSteps ∧ c.gamma = 1 / 2 ∧ Spec.Proper M w ∧ Spec.Values M w c.gamma V Q ∧ u 0 = V ∧
      HasDerivAt (fun θ => M.expectAll a2cStop w c.updateSteps [()] (a2cValueLoss c 1 V (u θ))) 2 0 ∧
      ∀ cfg : A3CCfg, 0 < cfg.tMax → cfg.gamma = 1 / 2 → cfg.keepLossScaleSame = false → cfg.normalizeGradByTMax = false →
        HasDerivAt (fun θ => M.expect a3cStop w cfg.tMax () fun tr _ => a3cValueLoss cfg 1 V (u θ) tr) 0 0 := by
  have hp : Spec.Proper timeLimited fun _ _ => 1 :=
    ⟨fun s a o => by norm_num [timeLimited], fun _ _ => zero_le_one, fun _ => by simp⟩
  have hV : Spec.Values timeLimited (fun _ _ => 1) (1 / 2) (fun _ => 2) (fun _ _ => 2) :=
    ⟨fun s a => by norm_num [timeLimited], fun s => by simp⟩
  refine ⟨timeLimited, { gamma := 1 / 2, updateSteps := 1, useGae := false, tau := 1 }, fun _ _ => 1, fun _ => 2, fun _ _ => 2, fun θ _ => 2 + θ, by decide, rfl, hp, hV,
    by simp, ?_, ?_⟩
  · have : (fun θ => timeLimited.expectAll a2cStop (fun _ _ => 1) 1 [()]
        (a2cValueLoss { gamma := 1 / 2, updateSteps := 1, useGae := false, tau := 1 } 1 (fun _ => 2) (fun _ => 2 + θ))) = fun θ => θ ^ 2 + 2 * θ + 1 := by
      funext θ
      have hgen : timeLimited.Gen a2cStop 1 () [⟨(), (), ⟨1, false, true, ()⟩⟩] () :=
        ⟨(), (), .inr ⟨rfl, [], rfl, rfl, rfl⟩⟩
      obtain ⟨a, k1, k2⟩ := a2c_run_gen timeLimited { gamma := 1 / 2, updateSteps := 1, useGae := false, tau := 1 } (by decide) (fun _ => 2) () _ () hgen
      simp only [Env.expectAll, Env.expect, Env.choose, a2cStop, timeLimited, a2cValueLoss, Bool.false_eq_true, if_false,
        List.map_cons, List.map_nil] at k1 ⊢
      simp only [k1, k2]
      simp [Rule.tgts, Rule.tgt, lamRule, a2cCut]
      ring
    simp only [this]
    refine ((((hasDerivAt_id (0 : ℝ)).pow 2).add ((hasDerivAt_id (0 : ℝ)).const_mul 2))
      |>.add_const 1).congr_deriv (by norm_num)
  · intro cfg hc hg hk hn
    exact a3c_critic_exact_partial timeLimited cfg hc (by rw [hg]; norm_num) (by rw [hg]; norm_num) hk hn 1 _ hp _ _
      (by rw [hg]; exact hV) (fun θ _ => 2 + θ) (fun _ => 1) 0 (by simp)
      (fun s => by simpa using (hasDerivAt_id (0 : ℝ)).const_add 2) ()

/-! ## Non-vacuity -/

/-- An off-policy case: two actions, the behaviour policy always takes one of them. -/
noncomputable def twoArms : Env Unit Bool Unit where
  prob _ _ _ := 1
  out _ a _ := ⟨if a then 1 else 0, false, false, ()⟩
  sum_prob := by simp

theorem twoArms_values : Spec.Values twoArms (fun _ _ => 1 / 2) (1 / 2) (fun _ => 1) (fun _ a => if a then 3 / 2 else 1 / 2) :=
  ⟨fun s a => by cases a <;> norm_num [twoArms], fun s => by norm_num⟩

example : ∃ mu : Unit → Bool → ℝ, Spec.Proper twoArms mu ∧ Spec.Proper twoArms (fun _ _ => 1 / 2) ∧ mu () false = 0 :=
  ⟨fun _ a => if a then 1 else 0, ⟨fun _ _ _ => by norm_num [twoArms], fun _ a => by cases a <;> norm_num, fun _ => by simp⟩,
    ⟨fun _ _ _ => by norm_num [twoArms], fun _ _ => by norm_num, fun _ => by norm_num⟩, by simp⟩

/-- Exact values of a policy, an untrained critic with error 1, and the bound that follows for PPO's targets. -/
example : ∃ T : ℕ → Unit → Bool → ℝ, ∀ j a, |T j () a - (if a then 3 / 2 else 1 / 2)| ≤ 1 / 2 * 1 := by
  obtain ⟨T, h, _⟩ := gae_critic twoArms (1 / 2) (1 / 2) (by norm_num) (by norm_num) (by norm_num) (by norm_num)
    (fun _ _ => 1 / 2) ⟨fun _ _ _ => by norm_num [twoArms], fun _ _ => by norm_num, fun _ => by norm_num⟩ (fun _ => 0)
  exact ⟨T, fun j a => h _ _ 1 twoArms_values (fun _ => by norm_num) j () a⟩

end Pfrl.Returns.PG
