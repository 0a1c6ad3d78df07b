import Mathlib.Analysis.SpecialFunctions.Log.Deriv
import Mathlib.Analysis.SpecialFunctions.Pow.Real
import Mathlib.Analysis.Calculus.Deriv.MeanValue
import Mathlib.Algebra.Order.BigOperators.Ring.Finset
import Mathlib.Analysis.SpecialFunctions.Sigmoid
import Verif.Returns.Gae
import Verif.Returns.PolicyGradient
import Verif.Agents.LineSearch

/-!
# What a TRPO update does to the expected return (C131)

`TRPO` maximises a surrogate gain over one batch of episodes of the old policy and bounds the mean divergence of the new
policy from the old one.  Here gain and divergence are averaged over all episodes the old policy can produce (the batch
is taken to be infinite), and compared with the expected return of the new policy.  Environments are those of
`Verif.Returns.PolicyGradient`: finitely many actions and outcomes of a step, states of any kind, nothing Markov.
-/

namespace Pfrl.Trpo.Improve

open Finset Pfrl.Returns Pfrl.Returns.PG

set_option linter.unusedSectionVars false

variable {S A O I : Type} [Fintype A] [Fintype O] [Fintype I]

/-! ## Model -/

/-- What is stored of a step, `pfrl/agents/trpo.py:797-805`, with the predicted values, `pfrl/agents/ppo.py:110-142`. -/
def toStep (v : S → ℝ) (x : PG.Step S A) : Returns.Step ℝ :=
  ⟨x.out.reward, if x.out.done then 0 else 1, v x.s, v x.out.next⟩

/-- The hyperparameters.  Advantages are standardised to `(adv - shift) / scale`: `shift` and `scale` are 0 and 1 without
`standardize_advantages`, else the mean of all advantages and their standard deviation plus `1e-8`,
`pfrl/agents/trpo.py:440-442`. -/
structure Cfg where
  gamma : ℝ
  lam : ℝ
  entropyCoef : ℝ
  shift : ℝ
  scale : ℝ

/-- The advantages of an episode. -/
noncomputable def advs (c : Cfg) (v : S → ℝ) (tr : List (PG.Step S A)) : List ℝ :=
  (gaeEpisode c.gamma c.lam (tr.map (toStep v))).map fun a => (a.adv - c.shift) / c.scale

/-- What an episode contributes to the sum in `surrogate_gain`, `pfrl/agents/trpo.py:417-419`; `p` is the policy that acted. -/
noncomputable def gainSum (c : Cfg) (v : S → ℝ) (p q : S → A → ℝ) (tr : List (PG.Step S A)) : ℝ :=
  ((tr.zip (advs c v tr)).map fun xa => Real.exp (Real.log (q xa.1.s xa.1.a) - Real.log (p xa.1.s xa.1.a)) * xa.2).sum

/-- What an episode contributes to the sum in `mean_entropy`, `pfrl/agents/trpo.py:418`. -/
noncomputable def entropySum (q : S → A → ℝ) (tr : List (PG.Step S A)) : ℝ := (tr.map fun x => PG.entropy (q x.s)).sum

/-- What an episode contributes to the sum in `new_kl`, `pfrl/agents/trpo.py:666-670`. -/
noncomputable def klSum (p q : S → A → ℝ) (tr : List (PG.Step S A)) : ℝ :=
  (tr.map fun x => ∑ a, p x.s a * (Real.log (p x.s a) - Real.log (q x.s a))).sum

/-- Episodes: a random first state, then at most `H` steps of the policy. -/
structure World (S A O I : Type) [Fintype O] where
  env : PG.Env S A O
  start : I → S
  startProb : I → ℝ
  H : ℕ

/-- The expectation of `f` over the episodes of the policy `p`. -/
noncomputable def World.expect (W : World S A O I) (p : S → A → ℝ) (f : List (PG.Step S A) → S → ℝ) : ℝ :=
  ∑ i, W.startProb i * W.env.expect a3cStop p W.H (W.start i) f

/-- `torch.mean` over all transitions of infinitely many episodes of the policy `p`. -/
noncomputable def World.mean (W : World S A O I) (p : S → A → ℝ) (f : List (PG.Step S A) → ℝ) : ℝ :=
  W.expect p (fun tr _ => f tr) / W.expect p fun tr _ => (tr.length : ℝ)

/-- `_compute_gain` for the policy `q` on episodes of `p`, `pfrl/agents/trpo.py:415-420`. -/
noncomputable def World.gain (W : World S A O I) (c : Cfg) (v : S → ℝ) (p q : S → A → ℝ) : ℝ :=
  W.mean p (gainSum c v p q) + c.entropyCoef * W.mean p (entropySum q)

/-- `new_kl` for the policy `q` on episodes of `p`, `pfrl/agents/trpo.py:666-670`. -/
noncomputable def World.kl (W : World S A O I) (p q : S → A → ℝ) : ℝ := W.mean p (klSum p q)

/-! ## Specification -/

/-- The expected return of a policy: the discounted rewards of an episode, plus the discounted value predicted for the last
state if the episode was cut rather than ended. -/
noncomputable def Spec.J (W : World S A O I) (gamma : ℝ) (v : S → ℝ) (p : S → A → ℝ) : ℝ :=
  W.expect p (PG.Spec.ret gamma v Outcome.done)

/-- `p` gives every action a positive probability in every state. -/
structure Spec.IsPolicy (p : S → A → ℝ) : Prop where
  pos : ∀ s a, 0 < p s a
  sum : ∀ s, ∑ a, p s a = 1

/-- Outcomes and first states have probabilities. -/
structure Spec.Proper (W : World S A O I) : Prop where
  nonneg : ∀ s a o, 0 ≤ W.env.prob s a o
  start_nonneg : ∀ i, 0 ≤ W.startProb i
  start_sum : ∑ i, W.startProb i = 1

/-- Whatever the state and the number of steps left, what an episode can still return lies in an interval of width `B`. -/
def Spec.ReturnsWithin (W : World S A O I) (gamma : ℝ) (v : S → ℝ) (B : ℝ) : Prop :=
  ∃ lo, ∀ k s tr e, W.env.Gen a3cStop k s tr e →
    lo ≤ PG.Spec.ret gamma v Outcome.done tr e ∧ PG.Spec.ret gamma v Outcome.done tr e ≤ lo + B

/-! ## Pinsker's inequality -/

theorem log_mid {x : ℝ} (hx : 0 < x) : (1 ≤ x → 0 ≤ (x + 1) * Real.log x - 2 * (x - 1)) ∧
    (x ≤ 1 → (x + 1) * Real.log x - 2 * (x - 1) ≤ 0) := by
  have hd : ∀ y ∈ Set.Ioi (0 : ℝ), HasDerivAt (fun y => (y + 1) * Real.log y - 2 * (y - 1)) (Real.log y + (y + 1) * y⁻¹ - 2) y := by
    intro y hy
    have h1 := (((hasDerivAt_id y).add_const 1).fun_mul (Real.hasDerivAt_log (ne_of_gt hy))).fun_sub
      (((hasDerivAt_id y).sub_const 1).const_mul 2)
    simpa using h1
  have hm : MonotoneOn (fun y => (y + 1) * Real.log y - 2 * (y - 1)) (Set.Ioi (0 : ℝ)) := by
    refine monotoneOn_of_deriv_nonneg (convex_Ioi 0) (fun y hy => (hd y hy).continuousAt.continuousWithinAt) ?_ ?_
    · rw [interior_Ioi]; exact fun y hy => (hd y hy).differentiableAt.differentiableWithinAt
    · rw [interior_Ioi]
      intro y hy
      rw [(hd y hy).deriv]
      have := Real.one_sub_inv_le_log_of_pos (show 0 < y from hy)
      have e : (y + 1) * y⁻¹ = 1 + y⁻¹ := by
        have : y ≠ 0 := ne_of_gt hy
        field_simp
      rw [e]; linarith
  constructor
  · intro h
    have := hm (show (1 : ℝ) ∈ Set.Ioi 0 by norm_num) hx h
    simpa using this
  · intro h
    have := hm hx (show (1 : ℝ) ∈ Set.Ioi 0 by norm_num) h
    simpa using this

theorem pinsker_scalar {x : ℝ} (hx : 0 < x) : 3 * (x - 1) ^ 2 ≤ (2 * x + 4) * (x * Real.log x - x + 1) := by
  have hd : ∀ y ∈ Set.Ioi (0 : ℝ), HasDerivAt (fun y => (2 * y + 4) * (y * Real.log y - y + 1) - 3 * (y - 1) ^ 2)
      (4 * ((y + 1) * Real.log y - 2 * (y - 1))) y := by
    intro y hy
    have hy' : y ≠ 0 := ne_of_gt hy
    have h1 := ((((hasDerivAt_id y).const_mul 2).add_const 4).fun_mul
      ((((hasDerivAt_id y).fun_mul (Real.hasDerivAt_log hy')).fun_sub (hasDerivAt_id y)).add_const 1)).fun_sub
      ((((hasDerivAt_id y).sub_const 1).fun_pow 2).const_mul 3)
    refine h1.congr_deriv ?_
    have := mul_inv_cancel₀ hy'
    simp only [id_eq, Nat.cast_ofNat, Nat.add_one_sub_one, pow_one]
    linear_combination (2 * y + 4) * this
  have key : ∀ a b : ℝ, 0 < a → a ≤ b → (b ≤ 1 →
      (2 * b + 4) * (b * Real.log b - b + 1) - 3 * (b - 1) ^ 2 ≤ (2 * a + 4) * (a * Real.log a - a + 1) - 3 * (a - 1) ^ 2) ∧
      (1 ≤ a → (2 * a + 4) * (a * Real.log a - a + 1) - 3 * (a - 1) ^ 2 ≤
        (2 * b + 4) * (b * Real.log b - b + 1) - 3 * (b - 1) ^ 2) := by
    intro a b ha hab
    have hsub : Set.Icc a b ⊆ Set.Ioi 0 := fun y hy => lt_of_lt_of_le ha hy.1
    constructor
    · intro hb
      have : AntitoneOn (fun y => (2 * y + 4) * (y * Real.log y - y + 1) - 3 * (y - 1) ^ 2) (Set.Icc a b) := by
        refine antitoneOn_of_deriv_nonpos (convex_Icc a b) (fun y hy => (hd y (hsub hy)).continuousAt.continuousWithinAt) ?_ ?_
        · exact fun y hy => (hd y (hsub (interior_subset hy))).differentiableAt.differentiableWithinAt
        · intro y hy
          have hy' := interior_subset hy
          rw [(hd y (hsub hy')).deriv]
          have := (log_mid (hsub hy')).2 (hy'.2.trans hb)
          linarith
      exact this ⟨le_rfl, hab⟩ ⟨hab, le_rfl⟩ hab
    · intro ha1
      have : MonotoneOn (fun y => (2 * y + 4) * (y * Real.log y - y + 1) - 3 * (y - 1) ^ 2) (Set.Icc a b) := by
        refine monotoneOn_of_deriv_nonneg (convex_Icc a b) (fun y hy => (hd y (hsub hy)).continuousAt.continuousWithinAt) ?_ ?_
        · exact fun y hy => (hd y (hsub (interior_subset hy))).differentiableAt.differentiableWithinAt
        · intro y hy
          have hy' := interior_subset hy
          rw [(hd y (hsub hy')).deriv]
          have := (log_mid (hsub hy')).1 (ha1.trans hy'.1)
          linarith
      exact this ⟨le_rfl, hab⟩ ⟨hab, le_rfl⟩ hab
  rcases le_total x 1 with h | h
  · have := (key x 1 hx h).1 le_rfl
    norm_num at this
    linarith
  · have := (key 1 x one_pos h).2 le_rfl
    norm_num at this
    linarith

/-- The squared 1-distance of two distributions is at most twice their divergence. -/
theorem pinsker {p q : A → ℝ} (hp : ∀ a, 0 < p a) (hq : ∀ a, 0 < q a) (sp : ∑ a, p a = 1) (sq : ∑ a, q a = 1) :
    (∑ a, |q a - p a|) ^ 2 ≤ 2 * ∑ a, p a * (Real.log (p a) - Real.log (q a)) := by
  have h1 : (∑ a, |q a - p a|) ^ 2 ≤ (∑ a, (2 * p a + 4 * q a) / 3) *
      ∑ a, (p a * (Real.log (p a) - Real.log (q a)) - p a + q a) := by
    refine Finset.sum_sq_le_sum_mul_sum_of_sq_le_mul _ (fun a _ => by have := hp a; have := hq a; positivity) (fun a _ => ?_)
      (fun a _ => ?_)
    · have := pinsker_scalar (div_pos (hp a) (hq a))
      have h0 : 0 ≤ 3 * (p a / q a - 1) ^ 2 := by positivity
      have h2 : 0 < 2 * (p a / q a) + 4 := by have := div_pos (hp a) (hq a); linarith
      have h3 : 0 ≤ p a / q a * Real.log (p a / q a) - p a / q a + 1 := by
        by_contra hn
        have := mul_neg_of_pos_of_neg h2 (not_le.1 hn)
        linarith
      have h4 : p a * (Real.log (p a) - Real.log (q a)) - p a + q a
          = q a * (p a / q a * Real.log (p a / q a) - p a / q a + 1) := by
        rw [Real.log_div (hp a).ne' (hq a).ne']
        have := (hq a).ne'
        field_simp
      rw [h4]
      exact mul_nonneg (hq a).le h3
    · have := pinsker_scalar (div_pos (hp a) (hq a))
      have hq' := (hq a).ne'
      rw [Real.log_div (hp a).ne' hq'] at this
      have h4 := mul_le_mul_of_nonneg_left this (by have := hq a; positivity : 0 ≤ q a ^ 2 / 3)
      calc |q a - p a| ^ 2 = q a ^ 2 / 3 * (3 * (p a / q a - 1) ^ 2) := by
            rw [sq_abs]; field_simp; ring
        _ ≤ _ := h4
        _ = _ := by field_simp
  have h2 : ∑ a, (2 * p a + 4 * q a) / 3 = 2 := by
    rw [← Finset.sum_div, Finset.sum_add_distrib, ← Finset.mul_sum, ← Finset.mul_sum, sp, sq]; norm_num
  have h3 : ∑ a, (p a * (Real.log (p a) - Real.log (q a)) - p a + q a) = ∑ a, p a * (Real.log (p a) - Real.log (q a)) := by
    rw [Finset.sum_add_distrib, Finset.sum_sub_distrib, sp, sq]; ring
  rwa [h2, h3] at h1

/-! ## Lemmas on expectations -/

variable (M : PG.Env S A O) {p q : S → A → ℝ} {v : S → ℝ}

/-- The expectation of `g` at the state after a step, 0 if the episode has stopped. -/
noncomputable def next (u : A → ℝ) (g : S → ℝ) (s : S) : ℝ :=
  ∑ a, u a * ∑ o, M.prob s a o * if a3cStop (M.out s a o) then 0 else g (M.out s a o).next

theorem sq_weighted {ι : Type} [Fintype ι] {w x : ι → ℝ} (hw : ∀ i, 0 ≤ w i) (h1 : ∑ i, w i ≤ 1) :
    (∑ i, w i * x i) ^ 2 ≤ ∑ i, w i * x i ^ 2 := by
  set m := ∑ i, w i * x i with hm
  have h : 0 ≤ ∑ i, w i * (x i - m) ^ 2 := Finset.sum_nonneg fun i _ => mul_nonneg (hw i) (sq_nonneg _)
  have e : ∑ i, w i * (x i - m) ^ 2 = ∑ i, w i * x i ^ 2 - 2 * m * m + m ^ 2 * ∑ i, w i := by
    have e1 : 2 * m * m = ∑ i, 2 * m * (w i * x i) := by rw [← Finset.mul_sum]
    have e2 : m ^ 2 * ∑ i, w i = ∑ i, m ^ 2 * w i := Finset.mul_sum _ _ _
    rw [e1, e2, ← Finset.sum_sub_distrib, ← Finset.sum_add_distrib]
    exact Finset.sum_congr rfl fun i _ => by ring
  have := mul_le_mul_of_nonneg_left h1 (sq_nonneg m)
  nlinarith

theorem next_add (u : A → ℝ) (g h : S → ℝ) (s : S) : next M u (fun t => g t + h t) s = next M u g s + next M u h s := by
  unfold next
  rw [← Finset.sum_add_distrib]
  refine Finset.sum_congr rfl fun a _ => ?_
  rw [← mul_add, ← Finset.sum_add_distrib]
  refine congrArg _ (Finset.sum_congr rfl fun o _ => ?_)
  split <;> ring

theorem next_mul (u : A → ℝ) (c : ℝ) (g : S → ℝ) (s : S) : next M u (fun t => c * g t) s = c * next M u g s := by
  unfold next
  rw [Finset.mul_sum]
  refine Finset.sum_congr rfl fun a _ => ?_
  rw [Finset.mul_sum, Finset.mul_sum, Finset.mul_sum]
  refine Finset.sum_congr rfl fun o _ => ?_
  split <;> ring

theorem next_mono (hM : ∀ s a o, 0 ≤ M.prob s a o) {u : A → ℝ} (hu : ∀ a, 0 ≤ u a) {g h : S → ℝ} (hgh : ∀ t, g t ≤ h t) (s : S) :
    next M u g s ≤ next M u h s := by
  refine Finset.sum_le_sum fun a _ => mul_le_mul_of_nonneg_left (Finset.sum_le_sum fun o _ =>
    mul_le_mul_of_nonneg_left ?_ (hM s a o)) (hu a)
  split
  · exact le_rfl
  · exact hgh _

theorem next_sq (hM : ∀ s a o, 0 ≤ M.prob s a o) {u : A → ℝ} (hu : ∀ a, 0 ≤ u a) (h1 : ∑ a, u a = 1) (g : S → ℝ) (s : S) :
    next M u g s ^ 2 ≤ next M u (fun t => g t ^ 2) s := by
  unfold next
  refine (sq_weighted hu h1.le).trans (Finset.sum_le_sum fun a _ => mul_le_mul_of_nonneg_left ?_ (hu a))
  refine (sq_weighted (hM s a) (M.sum_prob s a).le).trans (Finset.sum_le_sum fun o _ => mul_le_mul_of_nonneg_left ?_ (hM s a o))
  split <;> simp

/-- Expectations of sums over the states of an episode. -/
noncomputable def along (p : S → A → ℝ) (f : S → ℝ) (k : ℕ) (s : S) : ℝ :=
  M.expect a3cStop p k s fun tr _ => (tr.map fun x => f x.s).sum

theorem along_zero (f : S → ℝ) (s : S) : along M p f 0 s = 0 := rfl

theorem along_succ (hp : Spec.IsPolicy p) (f : S → ℝ) (k : ℕ) (s : S) :
    along M p f (k + 1) s = f s + next M (p s) (along M p f k) s := by
  unfold along
  simp only [Env.expect, Env.choose]
  have h : ∀ a o, (if a3cStop (M.out s a o) = true then ((([⟨s, a, M.out s a o⟩] : List (PG.Step S A)).map fun x => f x.s).sum)
      else M.expect a3cStop p k (M.out s a o).next fun tr _ =>
        (((⟨s, a, M.out s a o⟩ :: tr : List (PG.Step S A)).map fun x => f x.s).sum))
      = f s + if a3cStop (M.out s a o) = true then 0 else
        M.expect a3cStop p k (M.out s a o).next fun tr _ => (tr.map fun x => f x.s).sum := by
    intro a o
    split
    · simp
    · simp only [List.map_cons, List.sum_cons]
      rw [expect_add, expect_const M hp.sum]
  simp only [h, mul_add, Finset.sum_add_distrib, ← Finset.sum_mul, M.sum_prob, one_mul, hp.sum]
  rfl

/-- Expectations of sums of ratio times advantage. -/
noncomputable def weighted (p : S → A → ℝ) (v : S → ℝ) (φ : S → A → ℝ) (k : ℕ) (s : S) : ℝ :=
  M.expect a3cStop p k s (score 1 v Outcome.done φ)

/-- The expected return after an action. -/
noncomputable def qval (p : S → A → ℝ) (γ : ℝ) (v : S → ℝ) (k : ℕ) (s : S) (a : A) : ℝ :=
  ∑ o, M.prob s a o * target M a3cStop p γ v Outcome.done k (M.out s a o)

theorem weighted_succ (hp : Spec.IsPolicy p) (φ : S → A → ℝ) (k : ℕ) (s : S) :
    weighted M p v φ (k + 1) s = ∑ a, p s a * (φ s a * (qval M p 1 v k s a - v s)) + next M (p s) (weighted M p v φ k) s := by
  unfold weighted
  simp only [Env.expect, Env.choose]
  have h : ∀ a o, (if a3cStop (M.out s a o) = true then score 1 v Outcome.done φ [⟨s, a, M.out s a o⟩] (M.out s a o).next
      else M.expect a3cStop p k (M.out s a o).next fun tr e => score 1 v Outcome.done φ (⟨s, a, M.out s a o⟩ :: tr) e)
      = φ s a * (target M a3cStop p 1 v Outcome.done k (M.out s a o) - v s) + if a3cStop (M.out s a o) = true then 0 else
        M.expect a3cStop p k (M.out s a o).next (score 1 v Outcome.done φ) := by
    intro a o
    unfold target
    by_cases hs : a3cStop (M.out s a o) = true
    · simp [if_pos hs, score, PG.Spec.ret]
    · simp only [if_neg hs, score, PG.Spec.ret]
      have hd : (M.out s a o).done = false := by
        simp only [a3cStop, Bool.or_eq_true, not_or, Bool.not_eq_true] at hs
        exact hs.1
      simp only [hd, Bool.false_eq_true, if_false, one_mul]
      rw [expect_add, PG.expect_mul]
      congr 2
      have := expect_add M (stop := a3cStop) (w := p) k (M.out s a o).next (fun _ _ => (M.out s a o).reward - v s)
        (PG.Spec.ret 1 v Outcome.done)
      rw [expect_const M hp.sum] at this
      rw [show (fun tr e => (M.out s a o).reward + PG.Spec.ret 1 v Outcome.done tr e - v s) =
        fun (tr : List (PG.Step S A)) e => (M.out s a o).reward - v s + PG.Spec.ret 1 v Outcome.done tr e from by
          funext tr e; ring, this]
      ring
  simp only [h, mul_add, Finset.sum_add_distrib]
  refine congrArg₂ (· + ·) (Finset.sum_congr rfl fun a _ => congrArg _ ?_) rfl
  unfold qval
  simp only [mul_sub, Finset.sum_sub_distrib, ← Finset.sum_mul, M.sum_prob, one_mul]
  rw [Finset.mul_sum]
  exact congrArg₂ (· - ·) (Finset.sum_congr rfl fun o _ => by ring) rfl

/-- The expected return from a state. -/
noncomputable def value (p : S → A → ℝ) (γ : ℝ) (v : S → ℝ) (k : ℕ) (s : S) : ℝ :=
  M.expect a3cStop p k s (PG.Spec.ret γ v Outcome.done)

variable {γ : ℝ}

theorem value_succ (hp : Spec.IsPolicy p) (k : ℕ) (s : S) : value M p γ v (k + 1) s = ∑ a, p s a * qval M p γ v k s a :=
  choose_ret M hp.sum (p s) k s

theorem qval_sub (k : ℕ) (s : S) (a : A) : qval M q γ v k s a - qval M p γ v k s a =
    ∑ o, M.prob s a o * if a3cStop (M.out s a o) then 0 else
      γ * (value M q γ v k (M.out s a o).next - value M p γ v k (M.out s a o).next) := by
  unfold qval
  rw [← Finset.sum_sub_distrib]
  refine Finset.sum_congr rfl fun o _ => ?_
  rw [← mul_sub]
  refine congrArg _ ?_
  unfold target value
  by_cases hs : a3cStop (M.out s a o) = true
  · simp [hs]
  · have hd : (M.out s a o).done = false := by
      simp only [a3cStop, Bool.or_eq_true, not_or, Bool.not_eq_true] at hs
      exact hs.1
    simp only [hs, hd, Bool.false_eq_true, if_false]
    ring

theorem expect_le (hM : ∀ s a o, 0 ≤ M.prob s a o) (hp : Spec.IsPolicy p) (k : ℕ) : ∀ (s : S) {f g : List (PG.Step S A) → S → ℝ},
    (∀ tr e, M.Gen a3cStop k s tr e → f tr e ≤ g tr e) → M.expect a3cStop p k s f ≤ M.expect a3cStop p k s g := by
  induction k with
  | zero => intro s f g h; exact h [] s ⟨rfl, rfl⟩
  | succ k ih =>
    intro s f g h
    unfold Env.expect Env.choose
    refine Finset.sum_le_sum fun a _ => mul_le_mul_of_nonneg_left (Finset.sum_le_sum fun o _ =>
      mul_le_mul_of_nonneg_left ?_ (hM s a o)) (hp.pos s a).le
    by_cases hs : a3cStop (M.out s a o) = true
    · rw [if_pos hs, if_pos hs]
      exact h _ _ ⟨a, o, .inl ⟨hs, rfl, rfl⟩⟩
    · rw [if_neg hs, if_neg hs]
      exact ih _ fun tr e ht => h _ _ ⟨a, o, .inr ⟨by simpa using hs, tr, rfl, ht⟩⟩

theorem expect_within (hM : ∀ s a o, 0 ≤ M.prob s a o) (hp : Spec.IsPolicy p) {k : ℕ} {s : S} {f : List (PG.Step S A) → S → ℝ}
    {lo hi : ℝ} (h : ∀ tr e, M.Gen a3cStop k s tr e → lo ≤ f tr e ∧ f tr e ≤ hi) :
    lo ≤ M.expect a3cStop p k s f ∧ M.expect a3cStop p k s f ≤ hi := by
  have h1 := expect_le M hM hp k s (f := fun _ _ => lo) (g := f) fun tr e ht => (h tr e ht).1
  have h2 := expect_le M hM hp k s (f := f) (g := fun _ _ => hi) fun tr e ht => (h tr e ht).2
  rw [expect_const M hp.sum] at h1 h2
  exact ⟨h1, h2⟩

theorem qval_within (hM : ∀ s a o, 0 ≤ M.prob s a o) (hp : Spec.IsPolicy p) {lo hi : ℝ}
    (h : ∀ k s tr e, M.Gen a3cStop k s tr e → lo ≤ PG.Spec.ret γ v Outcome.done tr e ∧ PG.Spec.ret γ v Outcome.done tr e ≤ hi)
    (k : ℕ) (s : S) (a : A) : lo ≤ qval M p γ v k s a ∧ qval M p γ v k s a ≤ hi := by
  have key : ∀ o, lo ≤ target M a3cStop p γ v Outcome.done k (M.out s a o) ∧
      target M a3cStop p γ v Outcome.done k (M.out s a o) ≤ hi := by
    intro o
    by_cases hs : a3cStop (M.out s a o) = true
    · have := h (k + 1) s _ _ ⟨a, o, .inl ⟨hs, rfl, rfl⟩⟩
      unfold target
      simpa [hs, PG.Spec.ret] using this
    · have hd : (M.out s a o).done = false := by
        simp only [a3cStop, Bool.or_eq_true, not_or, Bool.not_eq_true] at hs
        exact hs.1
      have hb := expect_within M hM hp (k := k) (s := (M.out s a o).next)
        (f := fun tr e => PG.Spec.ret γ v Outcome.done (⟨s, a, M.out s a o⟩ :: tr) e)
        (fun tr e ht => h (k + 1) s _ _ ⟨a, o, .inr ⟨by simpa using hs, tr, rfl, ht⟩⟩)
      have e : M.expect a3cStop p k (M.out s a o).next (fun tr e => PG.Spec.ret γ v Outcome.done (⟨s, a, M.out s a o⟩ :: tr) e)
          = target M a3cStop p γ v Outcome.done k (M.out s a o) := by
        unfold target
        simp only [PG.Spec.ret, hs, hd, Bool.false_eq_true, if_false]
        rw [expect_add, expect_const M hp.sum, PG.expect_mul]
      rwa [e] at hb
  unfold qval
  constructor
  · calc lo = ∑ o, M.prob s a o * lo := by rw [← Finset.sum_mul, M.sum_prob, one_mul]
      _ ≤ _ := Finset.sum_le_sum fun o _ => mul_le_mul_of_nonneg_left (key o).1 (hM s a o)
  · calc _ ≤ ∑ o, M.prob s a o * hi := Finset.sum_le_sum fun o _ => mul_le_mul_of_nonneg_left (key o).2 (hM s a o)
      _ = hi := by rw [← Finset.sum_mul, M.sum_prob, one_mul]

/-- The distance of the policies in a state. -/
def dist1 (p q : S → A → ℝ) (s : S) : ℝ := ∑ a, |q s a - p s a|

theorem diff_within (hp : Spec.IsPolicy p) (hq : Spec.IsPolicy q) {x : A → ℝ} {lo B : ℝ} (hx : ∀ a, lo ≤ x a ∧ x a ≤ lo + B)
    (s : S) : |∑ a, q s a * x a - ∑ a, p s a * x a| ≤ B / 2 * dist1 p q s := by
  have e : ∑ a, q s a * x a - ∑ a, p s a * x a = ∑ a, (q s a - p s a) * (x a - (lo + B / 2)) := by
    have h0 : ∑ a, (q s a - p s a) * (lo + B / 2) = 0 := by
      rw [← Finset.sum_mul, Finset.sum_sub_distrib, hp.sum, hq.sum]; ring
    rw [← Finset.sum_sub_distrib, ← sub_zero (∑ a, (q s a * x a - p s a * x a)), ← h0, ← Finset.sum_sub_distrib]
    exact Finset.sum_congr rfl fun a _ => by ring
  rw [e]
  refine (Finset.abs_sum_le_sum_abs _ _).trans ?_
  unfold dist1
  rw [Finset.mul_sum]
  refine Finset.sum_le_sum fun a _ => ?_
  rw [abs_mul, mul_comm]
  refine mul_le_mul_of_nonneg_right ?_ (abs_nonneg _)
  rw [abs_le]
  have := hx a
  constructor <;> linarith [this.1, this.2]

theorem abs_next_le (hM : ∀ s a o, 0 ≤ M.prob s a o) {u : A → ℝ} (hu : ∀ a, 0 ≤ u a) {g h : S → ℝ} (hgh : ∀ t, |g t| ≤ h t) (s : S) :
    |next M u g s| ≤ next M u h s := by
  rw [abs_le]
  constructor
  · have := next_mono M hM hu (g := fun t => -1 * h t) (h := g) (fun t => by have := (abs_le.1 (hgh t)).1; linarith) s
    rw [next_mul] at this
    linarith
  · exact next_mono M hM hu (fun t => (abs_le.1 (hgh t)).2) s

/-- How far the values of two policies can be apart. -/
theorem value_diff (hM : ∀ s a o, 0 ≤ M.prob s a o) (hp : Spec.IsPolicy p) (hq : Spec.IsPolicy q) (h0 : 0 ≤ γ) (h1 : γ ≤ 1)
    {lo B : ℝ} (hB : ∀ k s tr e, M.Gen a3cStop k s tr e →
      lo ≤ PG.Spec.ret γ v Outcome.done tr e ∧ PG.Spec.ret γ v Outcome.done tr e ≤ lo + B) (k : ℕ) : ∀ s,
    |value M q γ v k s - value M p γ v k s| ≤ B / 2 * along M p (dist1 p q) k s := by
  induction k with
  | zero => intro s; simp [value, along, Env.expect]
  | succ k ih =>
    intro s
    rw [value_succ M hq, value_succ M hp, along_succ M hp]
    set D : S → ℝ := fun t => value M q γ v k t - value M p γ v k t with hD
    have e1 : ∑ a, p s a * qval M q γ v k s a = ∑ a, p s a * qval M p γ v k s a + next M (p s) (fun t => γ * D t) s := by
      unfold next
      rw [← Finset.sum_add_distrib]
      refine Finset.sum_congr rfl fun a _ => ?_
      rw [← mul_add, ← qval_sub]
      ring
    have b1 := diff_within hp hq (qval_within M hM hq hB k s) s
    have b2 : |next M (p s) (fun t => γ * D t) s| ≤ B / 2 * next M (p s) (along M p (dist1 p q) k) s := by
      rw [← next_mul]
      refine abs_next_le M hM (fun a => (hp.pos s a).le) (fun t => ?_) s
      rw [abs_mul, abs_of_nonneg h0]
      calc γ * |D t| ≤ 1 * |D t| := mul_le_mul_of_nonneg_right h1 (abs_nonneg _)
        _ ≤ _ := by rw [one_mul]; exact ih t
    calc _ = |(∑ a, q s a * qval M q γ v k s a - ∑ a, p s a * qval M q γ v k s a) + next M (p s) (fun t => γ * D t) s| := by
          rw [e1]; congr 1; ring
      _ ≤ _ := abs_add_le _ _
      _ ≤ B / 2 * dist1 p q s + B / 2 * next M (p s) (along M p (dist1 p q) k) s := add_le_add b1 b2
      _ = _ := by ring

/-- How far the surrogate is from the values. -/
theorem difference (hM : ∀ s a o, 0 ≤ M.prob s a o) (hp : Spec.IsPolicy p) (hq : Spec.IsPolicy q) {B : ℝ} (hB0 : 0 ≤ B) {H : ℕ}
    (hB : ∀ k s, k ≤ H → |value M q 1 v k s - value M p 1 v k s| ≤ B) (k : ℕ) (hk : k ≤ H) : ∀ s,
    |value M q 1 v k s - value M p 1 v k s - (weighted M p v (fun s a => q s a / p s a) k s - weighted M p v (fun _ _ => 1) k s)| ≤
      B * along M p (dist1 p q) k s := by
  induction k with
  | zero => intro s; simp [value, weighted, along, Env.expect, score]
  | succ k ih =>
    intro s
    have ih := ih (by omega)
    rw [value_succ M hq, value_succ M hp, weighted_succ M hp, weighted_succ M hp, along_succ M hp]
    set D : S → ℝ := fun t => value M q 1 v k t - value M p 1 v k t with hD
    set G : S → ℝ := fun t => weighted M p v (fun s a => q s a / p s a) k t - weighted M p v (fun _ _ => 1) k t with hG
    have e1 : ∑ a, q s a * qval M q 1 v k s a = ∑ a, q s a * qval M p 1 v k s a + next M (q s) D s := by
      unfold next
      rw [← Finset.sum_add_distrib]
      refine Finset.sum_congr rfl fun a _ => ?_
      have := qval_sub M (p := p) (q := q) (v := v) (γ := 1) k s a
      simp only [one_mul] at this
      rw [← mul_add, ← this]
      ring
    have e2 : ∑ a, p s a * (q s a / p s a * (qval M p 1 v k s a - v s)) = ∑ a, q s a * qval M p 1 v k s a - v s := by
      have hv : v s = ∑ a, q s a * v s := by rw [← Finset.sum_mul, hq.sum, one_mul]
      conv_rhs => rw [hv]
      rw [← Finset.sum_sub_distrib]
      refine Finset.sum_congr rfl fun a _ => ?_
      have := (hp.pos s a).ne'
      field_simp
    have e3 : ∑ a, p s a * (1 * (qval M p 1 v k s a - v s)) = ∑ a, p s a * qval M p 1 v k s a - v s := by
      conv_rhs => rw [show v s = ∑ a, p s a * v s from by rw [← Finset.sum_mul, hp.sum, one_mul], ← Finset.sum_sub_distrib]
      exact Finset.sum_congr rfl fun a _ => by ring
    have e4 : next M (p s) (weighted M p v (fun s a => q s a / p s a) k) s
        = next M (p s) (weighted M p v (fun _ _ => 1) k) s + next M (p s) G s := by
      rw [← next_add]
      exact congrArg (fun g => next M (p s) g s) (funext fun t => by simp [hG])
    have e5 : next M (q s) D s - next M (p s) G s = (next M (q s) D s - next M (p s) D s) + next M (p s) (fun t => D t - G t) s := by
      have : next M (p s) D s = next M (p s) (fun t => D t - G t) s + next M (p s) G s := by
        rw [← next_add]; exact congrArg (fun g => next M (p s) g s) (funext fun t => by ring)
      rw [this]; ring
    have b1 : |next M (q s) D s - next M (p s) D s| ≤ B * dist1 p q s := by
      unfold next dist1
      rw [← Finset.sum_sub_distrib, Finset.mul_sum]
      refine (Finset.abs_sum_le_sum_abs _ _).trans (Finset.sum_le_sum fun a _ => ?_)
      rw [← sub_mul, abs_mul, mul_comm B]
      refine mul_le_mul_of_nonneg_left ?_ (abs_nonneg _)
      refine (Finset.abs_sum_le_sum_abs _ _).trans ?_
      calc _ ≤ ∑ o, M.prob s a o * B := by
            refine Finset.sum_le_sum fun o _ => ?_
            rw [abs_mul, abs_of_nonneg (hM s a o)]
            refine mul_le_mul_of_nonneg_left ?_ (hM s a o)
            split
            · simpa using hB0
            · exact hB _ _ (by omega)
        _ = B := by rw [← Finset.sum_mul, M.sum_prob, one_mul]
    have b2 : |next M (p s) (fun t => D t - G t) s| ≤ B * next M (p s) (along M p (dist1 p q) k) s := by
      rw [← next_mul]
      exact abs_next_le M hM (fun a => (hp.pos s a).le) (fun t => ih t) s
    calc _ = |(next M (q s) D s - next M (p s) D s) + next M (p s) (fun t => D t - G t) s| := by
          rw [e1, e2, e3, e4, ← e5]; congr 1; ring
      _ ≤ _ := abs_add_le _ _
      _ ≤ B * dist1 p q s + B * next M (p s) (along M p (dist1 p q) k) s := add_le_add b1 b2
      _ = _ := by ring

theorem along_mono (hM : ∀ s a o, 0 ≤ M.prob s a o) (hp : Spec.IsPolicy p) {f g : S → ℝ} (h : ∀ s, f s ≤ g s) (k : ℕ) (s : S) :
    along M p f k s ≤ along M p g k s :=
  expect_le M hM hp k s fun _ _ _ => List.sum_le_sum fun x _ => h x.s

theorem along_nonneg (hM : ∀ s a o, 0 ≤ M.prob s a o) (hp : Spec.IsPolicy p) {f : S → ℝ} (hf : ∀ s, 0 ≤ f s) (k : ℕ) (s : S) :
    0 ≤ along M p f k s := by
  have := along_mono M hM hp (f := fun _ => 0) (g := f) hf k s
  have h0 : along M p (fun _ => 0) k s = 0 := by
    unfold along
    have : (fun (tr : List (PG.Step S A)) (_ : S) => (tr.map fun _ => (0 : ℝ)).sum) = fun _ _ => 0 := by
      funext tr _; simp
    rw [this]; exact expect_const M hp.sum 0 k s
  linarith

theorem gen_length (k : ℕ) : ∀ (s : S) (tr : List (PG.Step S A)) (e : S), M.Gen a3cStop k s tr e → tr.length ≤ k := by
  induction k with
  | zero => rintro s tr e ⟨rfl, -⟩; simp
  | succ k ih =>
    rintro s tr e ⟨a, o, ⟨-, rfl, -⟩ | ⟨-, tr', rfl, h⟩⟩
    · simp
    · have := ih _ _ _ h
      simpa using this

theorem gen_length_pos (k : ℕ) (s : S) (tr : List (PG.Step S A)) (e : S) (h : M.Gen a3cStop (k + 1) s tr e) : 1 ≤ tr.length := by
  obtain ⟨a, o, ⟨-, rfl, -⟩ | ⟨-, tr', rfl, -⟩⟩ := h
  · simp
  · simp

theorem along_le (hM : ∀ s a o, 0 ≤ M.prob s a o) (hp : Spec.IsPolicy p) {f : S → ℝ} {c : ℝ} (hc : 0 ≤ c) (hf : ∀ s, f s ≤ c)
    (k : ℕ) (s : S) : along M p f k s ≤ c * k := by
  have := expect_le M hM hp k s (f := fun tr _ => (tr.map fun x => f x.s).sum) (g := fun _ _ => c * k) fun tr e ht => by
    have h1 : (tr.map fun x => f x.s).sum ≤ (tr.map fun _ => c).sum := List.sum_le_sum fun x _ => hf x.s
    rw [List.map_const', List.sum_replicate, nsmul_eq_mul] at h1
    have h2 : (tr.length : ℝ) ≤ k := by exact_mod_cast gen_length M k s tr e ht
    have := mul_le_mul_of_nonneg_right h2 hc
    linarith
  rwa [expect_const M hp.sum] at this

theorem along_sq (hM : ∀ s a o, 0 ≤ M.prob s a o) (hp : Spec.IsPolicy p) (f : S → ℝ) (k : ℕ) : ∀ s,
    along M p f k s ^ 2 ≤ k * along M p (fun t => f t ^ 2) k s := by
  induction k with
  | zero => intro s; simp [along_zero]
  | succ k ih =>
    intro s
    rw [along_succ M hp, along_succ M hp]
    have h1 := next_sq M hM (fun a => (hp.pos s a).le) (hp.sum s) (along M p f k) s
    have h2 : next M (p s) (fun t => along M p f k t ^ 2) s ≤ k * next M (p s) (along M p (fun t => f t ^ 2) k) s := by
      rw [← next_mul]
      exact next_mono M hM (fun a => (hp.pos s a).le) ih s
    set x := f s
    set m := next M (p s) (along M p f k) s
    set y := next M (p s) (along M p (fun t => f t ^ 2) k) s
    have h3 : m ^ 2 ≤ k * y := h1.trans h2
    push_cast
    rcases Nat.eq_zero_or_pos k with hk | hk
    · subst hk
      have h0 : m = 0 := by
        have : m ^ 2 ≤ 0 := by simpa using h3
        exact pow_eq_zero_iff (two_ne_zero) |>.1 (le_antisymm this (sq_nonneg m))
      have hy : y = 0 := by
        show next M (p s) (along M p (fun t => f t ^ 2) 0) s = 0
        unfold next
        simp [along_zero]
      rw [h0, hy]; simp
    · have hk' : (0 : ℝ) < k := by exact_mod_cast hk
      have h4 : m ^ 2 / k ≤ y := by rw [div_le_iff₀ hk']; linarith
      have h5 : 2 * x * m ≤ k * x ^ 2 + m ^ 2 / k := by
        have : 0 ≤ (k * x - m) ^ 2 / k := by positivity
        have e : (k * x - m) ^ 2 / k = k * x ^ 2 - 2 * x * m + m ^ 2 / k := by field_simp; ring
        linarith
      nlinarith

/-- Expectations of sums over the states and actions of an episode. -/
noncomputable def acts (p φ : S → A → ℝ) (k : ℕ) (s : S) : ℝ :=
  M.expect a3cStop p k s fun tr _ => (tr.map fun x => φ x.s x.a).sum

theorem acts_succ (hp : Spec.IsPolicy p) (φ : S → A → ℝ) (k : ℕ) (s : S) :
    acts M p φ (k + 1) s = ∑ a, p s a * φ s a + next M (p s) (acts M p φ k) s := by
  unfold acts
  simp only [Env.expect, Env.choose]
  have h : ∀ a o, (if a3cStop (M.out s a o) = true then ((([⟨s, a, M.out s a o⟩] : List (PG.Step S A)).map fun x => φ x.s x.a).sum)
      else M.expect a3cStop p k (M.out s a o).next fun tr _ =>
        (((⟨s, a, M.out s a o⟩ :: tr : List (PG.Step S A)).map fun x => φ x.s x.a).sum))
      = φ s a + if a3cStop (M.out s a o) = true then 0 else
        M.expect a3cStop p k (M.out s a o).next fun tr _ => (tr.map fun x => φ x.s x.a).sum := by
    intro a o
    split
    · simp
    · simp only [List.map_cons, List.sum_cons]
      rw [expect_add, expect_const M hp.sum]
  simp only [h, mul_add, Finset.sum_add_distrib, ← Finset.sum_mul, M.sum_prob, one_mul]
  rfl

theorem acts_ratio (hp : Spec.IsPolicy p) (hq : Spec.IsPolicy q) (k : ℕ) : ∀ s,
    acts M p (fun s a => q s a / p s a) k s = along M p (fun _ => 1) k s := by
  induction k with
  | zero => intro s; rfl
  | succ k ih =>
    intro s
    rw [acts_succ M hp, along_succ M hp, show acts M p (fun s a => q s a / p s a) k = along M p (fun _ => 1) k from funext ih]
    congr 1
    rw [← hq.sum s]
    exact Finset.sum_congr rfl fun a _ => mul_div_cancel₀ _ (hp.pos s a).ne'

theorem length_along (k : ℕ) (s : S) : M.expect a3cStop p k s (fun tr _ => (tr.length : ℝ)) = along M p (fun _ => 1) k s := by
  unfold along
  refine congrArg _ (funext fun tr => funext fun _ => ?_)
  simp

/-! ## Lemmas on the agent -/

/-- The advantage of the first transition. -/
def headAdv : List (AdvTarget ℝ) → ℝ
  | [] => 0
  | x :: _ => x.adv

theorem gae_gen (k : ℕ) (φ : S → A → ℝ) (sh sc : ℝ) : ∀ (s : S) (tr : List (PG.Step S A)) (e : S), M.Gen a3cStop k s tr e →
    headAdv (gaeEpisode 1 1 (tr.map (toStep v))) = PG.Spec.ret 1 v Outcome.done tr e - v s ∧
    ((tr.zip ((gaeEpisode 1 1 (tr.map (toStep v))).map fun a => (a.adv - sh) / sc)).map
        fun xa => φ xa.1.s xa.1.a * xa.2).sum
      = (score 1 v Outcome.done φ tr e - sh * (tr.map fun x => φ x.s x.a).sum) / sc := by
  induction k with
  | zero =>
    rintro s tr e ⟨rfl, rfl⟩
    simp [gaeEpisode, PG.Spec.ret, score, headAdv]
  | succ k ih =>
    rintro s tr e ⟨a, o, ⟨hs, rfl, rfl⟩ | ⟨hs, tr', rfl, h⟩⟩
    · simp only [List.map_cons, List.map_nil]
      obtain ⟨b, h1, h2⟩ := gaeEpisode_cons 1 1 (toStep v (⟨s, a, M.out s a o⟩ : PG.Step S A)) []
      have hb : b = 0 := by rw [h2]; rfl
      rw [h1]
      subst hb
      have e1 : Returns.Spec.tdError 1 (toStep v (⟨s, a, M.out s a o⟩ : PG.Step S A)) + 1 * 1 * 0
          = PG.Spec.ret 1 v Outcome.done [⟨s, a, M.out s a o⟩] (M.out s a o).next - v s := by
        simp only [Returns.Spec.tdError, toStep, PG.Spec.ret]
        split <;> ring
      refine ⟨e1, ?_⟩
      simp only [List.map_cons, List.zip_cons_cons, List.sum_cons, score, e1, gaeEpisode, List.reverse_nil, List.foldl_nil,
        List.map_nil, List.zip_nil_left, List.sum_nil]
      ring
    · obtain ⟨i1, i2⟩ := ih _ _ _ h
      have hd : (M.out s a o).done = false := by
        simp only [a3cStop, Bool.or_eq_false_iff] at hs
        exact hs.1
      simp only [List.map_cons]
      obtain ⟨b, h1, h2⟩ := gaeEpisode_cons 1 1 (toStep v (⟨s, a, M.out s a o⟩ : PG.Step S A)) (tr'.map (toStep v))
      have h2' : b = headAdv (gaeEpisode 1 1 (tr'.map (toStep v))) := by
        rw [h2]
        cases gaeEpisode 1 1 (tr'.map (toStep v)) <;> rfl
      replace h2 := h2'.trans i1
      rw [h1]
      have e1 : Returns.Spec.tdError 1 (toStep v (⟨s, a, M.out s a o⟩ : PG.Step S A)) + 1 * 1 * b
          = PG.Spec.ret 1 v Outcome.done (⟨s, a, M.out s a o⟩ :: tr') e - v s := by
        rw [h2]
        simp only [Returns.Spec.tdError, toStep, PG.Spec.ret, hd, Bool.false_eq_true, if_false]
        ring
      refine ⟨e1, ?_⟩
      simp only [List.map_cons, List.zip_cons_cons, List.sum_cons, score, e1, i2]
      ring

variable {W : World S A O I} {c : Cfg}

theorem expect_gainSum (hp : Spec.IsPolicy p) (hq : Spec.IsPolicy q) (hg : c.gamma = 1) (hl : c.lam = 1) (k : ℕ) (s : S) :
    M.expect a3cStop p k s (fun tr _ => gainSum c v p q tr)
      = (weighted M p v (fun s a => q s a / p s a) k s - c.shift * along M p (fun _ => 1) k s) / c.scale := by
  have h1 : M.expect a3cStop p k s (fun tr _ => gainSum c v p q tr) = M.expect a3cStop p k s (fun tr e =>
      c.scale⁻¹ * score 1 v Outcome.done (fun s a => q s a / p s a) tr e +
        (-(c.shift * c.scale⁻¹)) * (tr.map fun x => q x.s x.a / p x.s x.a).sum) := by
    refine expect_congr M k s fun tr e ht => ?_
    have := (gae_gen M (v := v) k (fun s a => q s a / p s a) c.shift c.scale s tr e ht).2
    unfold gainSum advs
    rw [hg, hl]
    have er : ∀ xa : PG.Step S A × ℝ, Real.exp (Real.log (q xa.1.s xa.1.a) - Real.log (p xa.1.s xa.1.a)) * xa.2
        = q xa.1.s xa.1.a / p xa.1.s xa.1.a * xa.2 := fun xa => by
      rw [Real.exp_sub, Real.exp_log (hq.pos _ _), Real.exp_log (hp.pos _ _)]
    simp only [er]
    rw [this]
    ring
  rw [h1, expect_add, PG.expect_mul, PG.expect_mul]
  have h2 := acts_ratio M hp hq k s
  unfold acts at h2
  rw [h2]
  unfold weighted
  ring

theorem one_ratio (hp : Spec.IsPolicy p) : (fun s a => p s a / p s a) = fun (_ : S) (_ : A) => (1 : ℝ) :=
  funext fun s => funext fun a => div_self (hp.pos s a).ne'

/-- The expected length of an episode. -/
theorem expect_length_bounds (hW : Spec.Proper W) (hp : Spec.IsPolicy p) (hH : 0 < W.H) :
    1 ≤ W.expect p (fun tr _ => (tr.length : ℝ)) ∧ W.expect p (fun tr _ => (tr.length : ℝ)) ≤ W.H := by
  unfold World.expect
  have key : ∀ i, 1 ≤ W.env.expect a3cStop p W.H (W.start i) (fun tr _ => (tr.length : ℝ)) ∧
      W.env.expect a3cStop p W.H (W.start i) (fun tr _ => (tr.length : ℝ)) ≤ W.H := by
    intro i
    refine expect_within W.env hW.nonneg hp fun tr e ht => ⟨?_, by exact_mod_cast gen_length W.env _ _ _ _ ht⟩
    obtain ⟨k, hk⟩ : ∃ k, W.H = k + 1 := ⟨W.H - 1, by omega⟩
    rw [hk] at ht
    exact_mod_cast gen_length_pos W.env k _ _ _ ht
  constructor
  · calc (1 : ℝ) = ∑ i, W.startProb i * 1 := by rw [← Finset.sum_mul, hW.start_sum, one_mul]
      _ ≤ _ := Finset.sum_le_sum fun i _ => mul_le_mul_of_nonneg_left (key i).1 (hW.start_nonneg i)
  · calc _ ≤ ∑ i, W.startProb i * (W.H : ℝ) := Finset.sum_le_sum fun i _ => mul_le_mul_of_nonneg_left (key i).2 (hW.start_nonneg i)
      _ = W.H := by rw [← Finset.sum_mul, hW.start_sum, one_mul]

/-- The expected distance along an episode is bounded by the mean divergence. -/
theorem dist_le_kl (hW : Spec.Proper W) (hp : Spec.IsPolicy p) (hq : Spec.IsPolicy q) (hH : 0 < W.H) :
    0 ≤ W.kl p q ∧ ∑ i, W.startProb i * along W.env p (dist1 p q) W.H (W.start i) ≤ W.H * Real.sqrt (2 * W.kl p q) := by
  obtain ⟨n1, n2⟩ := expect_length_bounds hW hp hH
  set n := W.expect p (fun tr _ => (tr.length : ℝ)) with hn
  set f : S → ℝ := fun s => ∑ a, p s a * (Real.log (p s a) - Real.log (q s a)) with hf
  have hpin : ∀ s, dist1 p q s ^ 2 ≤ 2 * f s := fun s => pinsker (hp.pos s) (hq.pos s) (hp.sum s) (hq.sum s)
  have hf0 : ∀ s, 0 ≤ f s := fun s => by have := hpin s; have := sq_nonneg (dist1 p q s); linarith
  have hK : W.expect p (fun tr _ => klSum p q tr) = ∑ i, W.startProb i * along W.env p f W.H (W.start i) := rfl
  have hkl : W.kl p q * n = ∑ i, W.startProb i * along W.env p f W.H (W.start i) := by
    unfold World.kl World.mean
    rw [hK, ← hn, div_mul_cancel₀ _ (by linarith)]
  have hK0 : 0 ≤ ∑ i, W.startProb i * along W.env p f W.H (W.start i) :=
    Finset.sum_nonneg fun i _ => mul_nonneg (hW.start_nonneg i) (along_nonneg W.env hW.nonneg hp hf0 _ _)
  have hkl0 : 0 ≤ W.kl p q := by
    by_contra hneg
    have := mul_neg_of_neg_of_pos (not_le.1 hneg) (by linarith : 0 < n)
    linarith
  refine ⟨hkl0, ?_⟩
  have h1 : (∑ i, W.startProb i * along W.env p (dist1 p q) W.H (W.start i)) ^ 2 ≤ (W.H * Real.sqrt (2 * W.kl p q)) ^ 2 := by
    refine (sq_weighted hW.start_nonneg hW.start_sum.le).trans ?_
    rw [mul_pow, Real.sq_sqrt (by linarith)]
    have hHr : (0 : ℝ) ≤ W.H := by positivity
    calc ∑ i, W.startProb i * along W.env p (dist1 p q) W.H (W.start i) ^ 2
        ≤ ∑ i, W.startProb i * (W.H * (2 * along W.env p f W.H (W.start i))) := by
          refine Finset.sum_le_sum fun i _ => mul_le_mul_of_nonneg_left ?_ (hW.start_nonneg i)
          refine (along_sq W.env hW.nonneg hp (dist1 p q) W.H (W.start i)).trans (mul_le_mul_of_nonneg_left ?_ hHr)
          refine (along_mono W.env hW.nonneg hp hpin W.H (W.start i)).trans (le_of_eq ?_)
          unfold along
          rw [← PG.expect_mul]
          refine congrArg _ (funext fun tr => funext fun _ => ?_)
          rw [List.sum_map_mul_left]
      _ = W.H * (2 * (W.kl p q * n)) := by
          rw [hkl, Finset.mul_sum, Finset.mul_sum]
          exact Finset.sum_congr rfl fun i _ => by ring
      _ ≤ W.H * (2 * (W.kl p q * W.H)) := by
          refine mul_le_mul_of_nonneg_left (mul_le_mul_of_nonneg_left (mul_le_mul_of_nonneg_left n2 hkl0) (by norm_num)) hHr
      _ = _ := by ring
  exact le_of_sq_le_sq h1 (by positivity)

/-! ## C131 -/

/-- **C131** Whatever the environment, the discount and the critic: if the mean divergence of a new policy from the old one is
`kl`, its expected return differs from that of the old policy by at most `B * H * sqrt (kl / 2)`, where `H` is the largest
number of steps of an episode and `B` the range of its returns. -/
theorem return_change (hW : Spec.Proper W) (hH : 0 < W.H) (hp : Spec.IsPolicy p) (hq : Spec.IsPolicy q) {gamma B : ℝ}
    (h0 : 0 ≤ gamma) (h1 : gamma ≤ 1) (hB : Spec.ReturnsWithin W gamma v B) :
    |Spec.J W gamma v q - Spec.J W gamma v p| ≤ B * W.H * Real.sqrt (W.kl p q / 2) := by
  obtain ⟨lo, hB⟩ := hB
  obtain ⟨i0, -⟩ : ∃ i, W.startProb i ≠ 0 := by
    by_contra hn
    push Not at hn
    have := hW.start_sum
    simp [hn] at this
  have hB0 : 0 ≤ B := by
    have := hB 0 (W.start i0) [] (W.start i0) ⟨rfl, rfl⟩
    linarith [this.1, this.2]
  obtain ⟨hk0, hd⟩ := dist_le_kl hW hp hq hH
  have h2 : |Spec.J W gamma v q - Spec.J W gamma v p| ≤ B / 2 * ∑ i, W.startProb i * along W.env p (dist1 p q) W.H (W.start i) := by
    unfold Spec.J World.expect
    rw [← Finset.sum_sub_distrib, Finset.mul_sum]
    refine (Finset.abs_sum_le_sum_abs _ _).trans (Finset.sum_le_sum fun i _ => ?_)
    rw [← mul_sub, abs_mul, abs_of_nonneg (hW.start_nonneg i), mul_left_comm]
    exact mul_le_mul_of_nonneg_left (value_diff W.env hW.nonneg hp hq h0 h1 hB W.H (W.start i)) (hW.start_nonneg i)
  refine h2.trans ((mul_le_mul_of_nonneg_left hd (by linarith)).trans (le_of_eq ?_))
  rw [show 2 * W.kl p q = 2 ^ 2 * (W.kl p q / 2) from by ring, Real.sqrt_mul (by norm_num), Real.sqrt_sq (by norm_num)]
  ring

/-- **C131** Without discounting (`gamma = 1`, `lambd = 1`), whatever the critic: the expected return of the new policy is at
least that of the old one, plus the improvement of the surrogate (not counting the entropy bonus), less an error of second
order: `tau` bounds the distance of the two policies in a state, `kl` is their mean divergence. -/
theorem surrogate_improves_return_partial (hW : Spec.Proper W) (hH : 0 < W.H) (hp : Spec.IsPolicy p) (hq : Spec.IsPolicy q)
    (hg : c.gamma = 1) (hl : c.lam = 1) (hs : 0 < c.scale) {B tau : ℝ} (hB : Spec.ReturnsWithin W 1 v B)
    (htau : ∀ s, ∑ a, |q s a - p s a| ≤ tau) :
    Spec.J W 1 v p + c.scale * W.expect p (fun tr _ => (tr.length : ℝ)) *
        ((W.gain c v p q - W.gain c v p p) - c.entropyCoef * (W.mean p (entropySum q) - W.mean p (entropySum p)))
      - B * W.H ^ 2 * tau * Real.sqrt (W.kl p q / 2) ≤ Spec.J W 1 v q := by
  obtain ⟨lo, hB⟩ := hB
  obtain ⟨i0, -⟩ : ∃ i, W.startProb i ≠ 0 := by
    by_contra hn
    push Not at hn
    have := hW.start_sum
    simp [hn] at this
  have hB0 : 0 ≤ B := by
    have := hB 0 (W.start i0) [] (W.start i0) ⟨rfl, rfl⟩
    linarith [this.1, this.2]
  have ht0 : 0 ≤ tau := le_trans (Finset.sum_nonneg fun a _ => abs_nonneg _) (htau (W.start i0))
  obtain ⟨hk0, hd⟩ := dist_le_kl hW hp hq hH
  obtain ⟨n1, n2⟩ := expect_length_bounds hW hp hH
  set n := W.expect p (fun tr _ => (tr.length : ℝ)) with hn
  have hlen : n = ∑ i, W.startProb i * along W.env p (fun _ => 1) W.H (W.start i) := by
    rw [hn]; unfold World.expect
    exact Finset.sum_congr rfl fun i _ => by rw [length_along]
  have hgain : ∀ r, Spec.IsPolicy r → c.scale * n * W.mean p (gainSum c v p r) =
      ∑ i, W.startProb i * weighted W.env p v (fun s a => r s a / p s a) W.H (W.start i) - c.shift * n := by
    intro r hr
    unfold World.mean
    rw [← hn]
    have hn0 : n ≠ 0 := by linarith
    have : W.expect p (fun tr _ => gainSum c v p r tr) =
        (∑ i, W.startProb i * weighted W.env p v (fun s a => r s a / p s a) W.H (W.start i) - c.shift * n) / c.scale := by
      rw [hlen]
      unfold World.expect
      rw [Finset.mul_sum, ← Finset.sum_sub_distrib, Finset.sum_div]
      refine Finset.sum_congr rfl fun i _ => ?_
      rw [expect_gainSum W.env hp hr hg hl]
      ring
    rw [this]
    have := hs.ne'
    field_simp
  have hG : c.scale * n * ((W.gain c v p q - W.gain c v p p) - c.entropyCoef * (W.mean p (entropySum q) - W.mean p (entropySum p)))
      = ∑ i, W.startProb i * (weighted W.env p v (fun s a => q s a / p s a) W.H (W.start i)
        - weighted W.env p v (fun _ _ => 1) W.H (W.start i)) := by
    have h1 := hgain q hq
    have h2 := hgain p hp
    rw [one_ratio hp] at h2
    simp only [mul_sub, Finset.sum_sub_distrib]
    unfold World.gain
    linear_combination h1 - h2
  have hval : ∀ k s, k ≤ W.H → |value W.env q 1 v k s - value W.env p 1 v k s| ≤ B / 2 * (tau * W.H) := by
    intro k s hk
    refine (value_diff W.env hW.nonneg hp hq zero_le_one le_rfl hB k s).trans (mul_le_mul_of_nonneg_left ?_ (by linarith))
    refine (along_le W.env hW.nonneg hp ht0 htau k s).trans (mul_le_mul_of_nonneg_left (by exact_mod_cast hk) ht0)
  have hdiff : |(Spec.J W 1 v q - Spec.J W 1 v p) - ∑ i, W.startProb i * (weighted W.env p v (fun s a => q s a / p s a) W.H (W.start i)
        - weighted W.env p v (fun _ _ => 1) W.H (W.start i))|
      ≤ B / 2 * (tau * W.H) * ∑ i, W.startProb i * along W.env p (dist1 p q) W.H (W.start i) := by
    unfold Spec.J World.expect
    rw [← Finset.sum_sub_distrib, ← Finset.sum_sub_distrib, Finset.mul_sum]
    refine (Finset.abs_sum_le_sum_abs _ _).trans (Finset.sum_le_sum fun i _ => ?_)
    rw [← mul_sub, ← mul_sub, abs_mul, abs_of_nonneg (hW.start_nonneg i), mul_left_comm]
    exact mul_le_mul_of_nonneg_left (difference W.env hW.nonneg hp hq (by positivity) hval W.H le_rfl (W.start i))
      (hW.start_nonneg i)
  rw [hG]
  have h3 := (abs_le.1 hdiff).1
  have h4 : B / 2 * (tau * W.H) * ∑ i, W.startProb i * along W.env p (dist1 p q) W.H (W.start i)
      ≤ B * W.H ^ 2 * tau * Real.sqrt (W.kl p q / 2) := by
    refine (mul_le_mul_of_nonneg_left hd (by positivity)).trans (le_of_eq ?_)
    rw [show 2 * W.kl p q = 2 ^ 2 * (W.kl p q / 2) from by ring, Real.sqrt_mul (by norm_num), Real.sqrt_sq (by norm_num)]
    ring
  linarith

/-- **C131** A TRPO update changes the expected return by at most `B * H * sqrt (max_kl / 2)`, whatever step it tries, whichever
policies the parameters stand for and whatever the gain: the parameters the line search leaves are the old ones or pass its
test. -/
theorem update_changes_return {R : Type} (policy : List (List R) → S → A → ℝ) (hpol : ∀ θ, Spec.IsPolicy (policy θ))
    (P : Policy R) (gain maxKl : ℝ) (maxBacktrack : Nat) (params : List (List R)) (full : List R)
    (hkl : ∀ θ, P.klAt θ = .fin (W.kl (policy params) (policy θ)))
    (hW : Spec.Proper W) (hH : 0 < W.H) {gamma B : ℝ} (h0 : 0 ≤ gamma) (h1 : gamma ≤ 1) (hB : Spec.ReturnsWithin W gamma v B) :
    |Spec.J W gamma v (policy (lineSearch P (.fin gain) maxKl maxBacktrack params full).params)
      - Spec.J W gamma v (policy params)| ≤ B * W.H * Real.sqrt (maxKl / 2) := by
  have hB0 : 0 ≤ B * W.H := by
    obtain ⟨lo, hB⟩ := hB
    obtain ⟨i0, -⟩ : ∃ i, W.startProb i ≠ 0 := by
      by_contra hn
      push Not at hn
      have := hW.start_sum
      simp [hn] at this
    have := hB 0 (W.start i0) [] (W.start i0) ⟨rfl, rfl⟩
    have : 0 ≤ B := by linarith [this.1, this.2]
    positivity
  rcases line_search_safe P gain maxKl maxBacktrack params full with ⟨i, -, -, ⟨g, k, -, h2, -, h3⟩, -⟩ | ⟨h, -⟩
  · rw [hkl] at h2
    injection h2 with h2
    refine (return_change hW hH (hpol params) (hpol _) h0 h1 hB).trans (mul_le_mul_of_nonneg_left ?_ hB0)
    exact Real.sqrt_le_sqrt (by rw [h2]; linarith)
  · rw [h, sub_self, abs_zero]
    positivity

/-- **C131** Without discounting and without entropy bonus, a TRPO update lowers the expected return at most by an error of
second order. -/
theorem update_does_not_lose_partial {R : Type} (policy : List (List R) → S → A → ℝ) (hpol : ∀ θ, Spec.IsPolicy (policy θ))
    (P : Policy R) (maxKl : ℝ) (maxBacktrack : Nat) (params : List (List R)) (full : List R)
    (hkl : ∀ θ, P.klAt θ = .fin (W.kl (policy params) (policy θ)))
    (hgain : ∀ θ, P.gainAt θ = .fin (W.gain c v (policy params) (policy θ)))
    (hW : Spec.Proper W) (hH : 0 < W.H) (hg : c.gamma = 1) (hl : c.lam = 1) (he : c.entropyCoef = 0) (hs : 0 < c.scale)
    {B tau : ℝ} (hB : Spec.ReturnsWithin W 1 v B) (htau : ∀ θ s, ∑ a, |policy θ s a - policy params s a| ≤ tau) :
    Spec.J W 1 v (policy params) - B * W.H ^ 2 * tau * Real.sqrt (maxKl / 2) ≤ Spec.J W 1 v
      (policy (lineSearch P (.fin (W.gain c v (policy params) (policy params))) maxKl maxBacktrack params full).params) := by
  obtain ⟨lo, hB'⟩ := hB
  obtain ⟨i0, -⟩ : ∃ i, W.startProb i ≠ 0 := by
    by_contra hn
    push Not at hn
    have := hW.start_sum
    simp [hn] at this
  have hB0 : 0 ≤ B := by
    have := hB' 0 (W.start i0) [] (W.start i0) ⟨rfl, rfl⟩
    linarith [this.1, this.2]
  have ht0 : 0 ≤ tau := le_trans (Finset.sum_nonneg fun a _ => abs_nonneg _) (htau params (W.start i0))
  rcases line_search_safe P (W.gain c v (policy params) (policy params)) maxKl maxBacktrack params full with
    ⟨i, -, -, ⟨g, k, h1, h2, h4, h3⟩, -⟩ | ⟨h, -⟩
  · rw [hkl] at h2
    rw [hgain] at h1
    injection h2 with h2
    injection h1 with h1
    have key := surrogate_improves_return_partial hW hH (hpol params) (hpol (lineSearch P (.fin (W.gain c v (policy params)
      (policy params))) maxKl maxBacktrack params full).params) hg hl hs ⟨lo, hB'⟩ (htau _)
    rw [he, zero_mul, sub_zero, h1, h2] at key
    have n1 := (expect_length_bounds hW (hpol params) hH).1
    have b1 : 0 ≤ c.scale * W.expect (policy params) (fun tr _ => (tr.length : ℝ)) *
        (g - W.gain c v (policy params) (policy params)) :=
      mul_nonneg (mul_nonneg hs.le (by linarith)) (by linarith)
    have b2 : B * W.H ^ 2 * tau * Real.sqrt (k / 2) ≤ B * W.H ^ 2 * tau * Real.sqrt (maxKl / 2) :=
      mul_le_mul_of_nonneg_left (Real.sqrt_le_sqrt (by linarith)) (by positivity)
    linarith
  · rw [h]
    have : 0 ≤ B * W.H ^ 2 * tau * Real.sqrt (maxKl / 2) := by positivity
    linarith

/-! ### Limits -/

/-- Two steps: the first chooses where to go, the second earns 1 if its action is `true`. -/
noncomputable def twoRooms : World (Option Bool) Bool Unit Unit where
  env := { prob := fun _ _ _ => 1
           out := fun s a _ => match s with
             | none => ⟨0, false, false, some a⟩
             | some _ => ⟨if a then 1 else 0, true, false, none⟩
           sum_prob := by simp }
  start := fun _ => none
  startProb := fun _ => 1
  H := 2

/-- The probability of `true` is `x` in the first state, `y` and `z` in the two rooms. -/
noncomputable def rooms (x y z : ℝ) : Option Bool → Bool → ℝ
  | none, a => if a then x else 1 - x
  | some true, a => if a then y else 1 - y
  | some false, a => if a then z else 1 - z

theorem rooms_policy {x y z : ℝ} (hx : 0 < x ∧ x < 1) (hy : 0 < y ∧ y < 1) (hz : 0 < z ∧ z < 1) :
    Spec.IsPolicy (rooms x y z) := by
  constructor
  · intro s a
    rcases s with _ | b
    · rcases a <;> simp [rooms] <;> linarith [hx.1, hx.2]
    · rcases b
      · rcases a <;> simp [rooms] <;> linarith [hz.1, hz.2]
      · rcases a <;> simp [rooms] <;> linarith [hy.1, hy.2]
  · intro s
    rcases s with _ | b
    · simp [rooms]
    · rcases b <;> simp [rooms]

theorem rooms_J (x y z : ℝ) : Spec.J twoRooms 1 (fun _ => 0) (rooms x y z) = x * y + (1 - x) * z := by
  simp [Spec.J, World.expect, twoRooms, Env.expect, Env.choose, a3cStop, PG.Spec.ret, rooms]

/-- **C131 (limit)** A new policy may pass the test of the line search for every sufficiently large `max_kl` and lose
return: the surrogate is the same as before, the return falls from 1/2 to 3/8. -/
theorem accepted_update_may_lose (shift scale : ℝ) :
    twoRooms.gain ⟨1, 1, 0, shift, scale⟩ (fun _ => 0) (rooms (1 / 2) (1 / 2) (1 / 2)) (rooms (1 / 4) (3 / 4) (1 / 4))
      = twoRooms.gain ⟨1, 1, 0, shift, scale⟩ (fun _ => 0) (rooms (1 / 2) (1 / 2) (1 / 2)) (rooms (1 / 2) (1 / 2) (1 / 2)) ∧
    Spec.J twoRooms 1 (fun _ => 0) (rooms (1 / 4) (3 / 4) (1 / 4)) = 3 / 8 ∧
    Spec.J twoRooms 1 (fun _ => 0) (rooms (1 / 2) (1 / 2) (1 / 2)) = 1 / 2 := by
  have hp : Spec.IsPolicy (rooms (1 / 2) (1 / 2) (1 / 2)) := rooms_policy (by norm_num) (by norm_num) (by norm_num)
  have hq : Spec.IsPolicy (rooms (1 / 4) (3 / 4) (1 / 4)) := rooms_policy (by norm_num) (by norm_num) (by norm_num)
  refine ⟨?_, by rw [rooms_J]; norm_num, by rw [rooms_J]; norm_num⟩
  have key : weighted twoRooms.env (rooms (1 / 2) (1 / 2) (1 / 2)) (fun _ => 0)
      (fun s a => rooms (1 / 4) (3 / 4) (1 / 4) s a / rooms (1 / 2) (1 / 2) (1 / 2) s a) 2 none = weighted twoRooms.env
      (rooms (1 / 2) (1 / 2) (1 / 2)) (fun _ => 0)
      (fun s a => rooms (1 / 2) (1 / 2) (1 / 2) s a / rooms (1 / 2) (1 / 2) (1 / 2) s a) 2 none := by
    simp [weighted, twoRooms, Env.expect, Env.choose, a3cStop, PG.Spec.ret, rooms, score]
    norm_num
  have h : ∀ r, Spec.IsPolicy r → twoRooms.expect (rooms (1 / 2) (1 / 2) (1 / 2)) (fun tr _ => gainSum ⟨1, 1, 0, shift, scale⟩
      (fun _ => 0) (rooms (1 / 2) (1 / 2) (1 / 2)) r tr) = (weighted twoRooms.env (rooms (1 / 2) (1 / 2) (1 / 2)) (fun _ => 0)
      (fun s a => r s a / rooms (1 / 2) (1 / 2) (1 / 2) s a) 2 none
        - shift * along twoRooms.env (rooms (1 / 2) (1 / 2) (1 / 2)) (fun _ => 1) 2 none) / scale := by
    intro r hr
    unfold World.expect
    simp only [Finset.univ_unique, Finset.sum_singleton]
    rw [expect_gainSum twoRooms.env hp hr rfl rfl]
    simp [twoRooms]
  unfold World.gain World.mean
  rw [h _ hq, h _ hp, key]
  simp

/-! ## Non-vacuity -/

/-- The hypotheses of `return_change` and `surrogate_improves_return_partial`: returns are between 0 and 1. -/
example : Spec.Proper twoRooms ∧ 0 < twoRooms.H ∧ Spec.IsPolicy (rooms (1 / 2) (1 / 2) (1 / 2)) ∧
    Spec.IsPolicy (rooms (1 / 2) (3 / 4) (1 / 2)) ∧ Spec.ReturnsWithin twoRooms 1 (fun _ => 0) 1 ∧
    ∀ s, ∑ a, |rooms (1 / 2) (3 / 4) (1 / 2) s a - rooms (1 / 2) (1 / 2) (1 / 2) s a| ≤ 1 / 2 := by
  refine ⟨⟨by simp [twoRooms], by simp [twoRooms], by simp [twoRooms]⟩, by simp [twoRooms],
    rooms_policy (by norm_num) (by norm_num) (by norm_num), rooms_policy (by norm_num) (by norm_num) (by norm_num),
    ⟨0, ?_⟩, ?_⟩
  · have h1 : ∀ k b tr e, twoRooms.env.Gen a3cStop k (some b) tr e →
        0 ≤ PG.Spec.ret 1 (fun _ => (0 : ℝ)) Outcome.done tr e ∧ PG.Spec.ret 1 (fun _ => (0 : ℝ)) Outcome.done tr e ≤ 0 + 1 := by
      intro k b tr e h
      cases k with
      | zero => obtain ⟨rfl, rfl⟩ := h; simp [PG.Spec.ret]
      | succ k =>
        obtain ⟨a, o, ⟨-, rfl, rfl⟩ | ⟨hs, -⟩⟩ := h
        · rcases a <;> simp [PG.Spec.ret, twoRooms]
        · simp [twoRooms, a3cStop] at hs
    intro k s tr e h
    rcases s with _ | b
    · cases k with
      | zero => obtain ⟨rfl, rfl⟩ := h; simp [PG.Spec.ret]
      | succ k =>
        obtain ⟨a, o, ⟨hs, -⟩ | ⟨-, tr', rfl, h2⟩⟩ := h
        · simp [twoRooms, a3cStop] at hs
        · have := h1 k a tr' e h2
          simpa [PG.Spec.ret, twoRooms] using this
    · exact h1 k b tr e h
  · intro s
    rcases s with _ | b
    · simp [rooms]
    · rcases b
      · simp [rooms]
      · simp [rooms]; norm_num [abs_of_pos, abs_of_neg]

/-- The hypotheses of `update_changes_return` and `update_does_not_lose_partial` on the line search: a family of policies, and
the gain and the divergence it computes. -/
example : (∀ θ : List (List ℝ), Spec.IsPolicy (rooms (1 / 2) (Real.sigmoid (θ.flatten.getD 0 0)) (1 / 2))) ∧
    ∃ P : Policy ℝ, (∀ θ, P.klAt θ = .fin (twoRooms.kl (rooms (1 / 2) (Real.sigmoid 0) (1 / 2))
        (rooms (1 / 2) (Real.sigmoid (θ.flatten.getD 0 0)) (1 / 2)))) ∧
      ∀ θ, P.gainAt θ = .fin (twoRooms.gain ⟨1, 1, 0, 0, 1⟩ (fun _ => 0) (rooms (1 / 2) (Real.sigmoid 0) (1 / 2))
        (rooms (1 / 2) (Real.sigmoid (θ.flatten.getD 0 0)) (1 / 2))) :=
  ⟨fun _ => rooms_policy (by norm_num) ⟨Real.sigmoid_pos _, Real.sigmoid_lt_one _⟩ (by norm_num),
    ⟨fun a s b => a + s * b, fun _ => .fin _, fun _ => .fin _⟩, fun _ => rfl, fun _ => rfl⟩

end Pfrl.Trpo.Improve
