import Verif.Numeric.NormFloat
import Verif.Returns.Gae
import Verif.Returns.A3C

/-!
# Rounding in returns and advantages (C142)

The discounted sums of `pfrl/agents/ppo.py`, `pfrl/agents/a2c.py`, `pfrl/agents/a3c.py` and `pfrl/replay_buffer.py` with floating point
numbers: `rnd` rounds the result of every operation.  Overflow is not modelled.
-/

namespace Pfrl.Floats

open Pfrl.Tree (rne pow_pos' eps_pos eps_lt float_mult float_zero)
open Pfrl.Returns (Step AdvTarget Turn)

/-! ## Model -/

/-- One iteration of the loop of `_add_advantage_and_value_target_to_episode`, `pfrl/agents/ppo.py:39-47`; `nonterminal` is `0.0` or `1.0`. -/
def fgaeStep (rnd : ℚ → ℚ) (γ lam : ℚ) (acc : ℚ × List (AdvTarget ℚ)) (tr : Step ℚ) : ℚ × List (AdvTarget ℚ) :=
  let tdErr := rnd (rnd (tr.reward + rnd (rnd (γ * tr.nonterminal) * tr.nextVPred)) - tr.vPred)
  let adv := rnd (tdErr + rnd (rnd (γ * lam) * acc.1))
  (adv, ⟨adv, rnd (adv + tr.vPred)⟩ :: acc.2)

/-- `_add_advantage_and_value_target_to_episode`, `pfrl/agents/ppo.py:36-47`. -/
def fgaeEpisode (rnd : ℚ → ℚ) (γ lam : ℚ) (episode : List (Step ℚ)) : List (AdvTarget ℚ) :=
  (episode.reverse.foldl (fgaeStep rnd γ lam) (0, [])).2

/-- The loop of `pfrl/agents/a3c.py:181-185` for the rewards of a rollout, from `R`, the value bootstrapped from: the returns in the order of the
rollout.  The conversion to a `float32` tensor (`a3c.py:186`) is not included. -/
def fa3cReturns (rnd : ℚ → ℚ) (γ R : ℚ) (rewards : List ℚ) : List ℚ :=
  (rewards.reverse.foldl (fun acc r => (rnd (rnd (acc.1 * γ) + r), rnd (rnd (acc.1 * γ) + r) :: acc.2)) (R, [])).2

/-- `masks[i]`, `pfrl/agents/a2c.py:278-283`. -/
def mask (s : Turn ℚ) : ℚ := if s.done || s.reset then 0 else 1

/-- `returns[i]` after the loop of `pfrl/agents/a2c.py:163-167`, for the steps from `i` to the end of the rollout; `g` is `gamma` in the precision
of the tensors.  The loop goes backwards and reads only the entry it has written last. -/
def fplainReturn (rnd : ℚ → ℚ) (g boot : ℚ) : List (Turn ℚ) → ℚ
  | [] => boot
  | s :: rest => rnd (s.reward + rnd (rnd (g * fplainReturn rnd g boot rest) * mask s))

/-- `value_preds[i + 1]`, for the steps after `i`: the last one is set at `pfrl/agents/a2c.py:152`. -/
def nextValue (boot : ℚ) : List (Turn ℚ) → ℚ
  | [] => boot
  | s :: _ => s.value

/-- `gae` in the loop of `pfrl/agents/a2c.py:153-161`, for the steps from `i` to the end of the rollout; `g` and `gt` are `gamma` and
`gamma * tau` in the precision of the tensors. -/
def fgae (rnd : ℚ → ℚ) (g gt boot : ℚ) : List (Turn ℚ) → ℚ
  | [] => 0
  | s :: rest =>
    let delta := rnd (rnd (s.reward + rnd (rnd (g * nextValue boot rest) * mask s)) - s.value)
    rnd (delta + rnd (rnd (gt * mask s) * fgae rnd g gt boot rest))

/-- `returns[i]` with `use_gae`, `pfrl/agents/a2c.py:161`. -/
def fgaeReturn (rnd : ℚ → ℚ) (g gt boot : ℚ) (s : Turn ℚ) (rest : List (Turn ℚ)) : ℚ := rnd (fgae rnd g gt boot (s :: rest) + s.value)

/-- The terms from number `i` on of `sum((gamma**i) * exp[i]["reward"] for i in range(len(exp)))`, `pfrl/replay_buffer.py:184-187`, added to `acc`;
`power i` is the floating point number Python computes for `gamma**i`. -/
def fnstepFrom (rnd : ℚ → ℚ) (power : ℕ → ℚ) : ℚ → ℕ → List ℚ → ℚ
  | acc, _, [] => acc
  | acc, i, r :: rs => fnstepFrom rnd power (rnd (acc + rnd (power i * r))) (i + 1) rs

/-- The reward of an n-step transition, `pfrl/replay_buffer.py:184-187`. -/
def fnstep (rnd : ℚ → ℚ) (power : ℕ → ℚ) (rewards : List ℚ) : ℚ := fnstepFrom rnd power 0 0 rewards

/-! ## Specification -/

/-- Bound on the error made by one term of a discounted sum with discount `c`: the factor used differs from `c` by at most `η`, the terms by at most
`τ` from their exact values, which are at most `D`, and the exact sums are at most `G`. -/
def Spec.termErr (p : ℕ) (emin : ℤ) (c η D τ G : ℚ) : ℚ :=
  (1 + Tree.Spec.eps p) * τ + Tree.Spec.eps p * D + (((1 + Tree.Spec.eps p) ^ 2 - 1) * (c + η) + η) * G + 4 * 2 ^ emin

/-- Bound on the error of a discounted sum of `n` terms: a constant if the discount is below 1 by more than a few roundings. -/
def Spec.sumErr (p : ℕ) (emin : ℤ) (c η D τ G : ℚ) (n : ℕ) : ℚ :=
  if (c + η) * (1 + Tree.Spec.eps p) ^ 2 < 1 then Spec.termErr p emin c η D τ G / (1 - (c + η) * (1 + Tree.Spec.eps p) ^ 2)
  else n * (((c + η) * (1 + Tree.Spec.eps p) ^ 2) ^ n * Spec.termErr p emin c η D τ G)

/-- Bound on the error of a temporal difference error, for rewards and values with `|reward| + 2 |value| ≤ D` and a discount known up to `η`. -/
def Spec.tdErr (p : ℕ) (emin : ℤ) (η D : ℚ) : ℚ := 4 * Tree.Spec.eps p * D + 5 * 2 ^ emin + η * D

/-- A stored transition with numbers of the format, at most `R` and `V`. -/
structure Spec.StepOk (p : ℕ) (emin : ℤ) (R V : ℚ) (s : Step ℚ) : Prop where
  reward : Tree.Spec.Float p emin s.reward ∧ |s.reward| ≤ R
  value : Tree.Spec.Float p emin s.vPred ∧ |s.vPred| ≤ V
  next : |s.nextVPred| ≤ V
  nonterminal : s.nonterminal = 0 ∨ s.nonterminal = 1

/-- A step of a rollout with numbers of the format, at most `R` and `V`. -/
structure Spec.TurnOk (p : ℕ) (emin : ℤ) (R V : ℚ) (s : Turn ℚ) : Prop where
  reward : Tree.Spec.Float p emin s.reward ∧ |s.reward| ≤ R
  value : Tree.Spec.Float p emin s.value ∧ |s.value| ≤ V

/-! ## Lemmas -/

variable {p : ℕ} {emin : ℤ} {rnd : ℚ → ℚ}

/-- One more term of a discounted sum. -/
theorem sum_step (hr : Spec.Rounding p emin rnd) (hp : 7 ≤ p) {c C η D τ G t T a A : ℚ} (ht : Tree.Spec.Float p emin t) (hc0 : 0 ≤ c)
    (hc : |c - C| ≤ η) (htT : |t - T| ≤ τ) (hT : |T| ≤ D) (hA : |A| ≤ G) :
    |rnd (t + rnd (c * a)) - (T + C * A)| ≤ (C + η) * (1 + Tree.Spec.eps p) ^ 2 * |a - A| +
      Spec.termErr p emin C η D τ G := by
  unfold Spec.termErr
  have hE0 := eps_pos (p := p)
  have hE1 := eps_small hp
  have hθ := pow_pos' emin
  set ε := Tree.Spec.eps p with hε
  set θ : ℚ := 2 ^ emin with hθd
  have h1 : |rnd (c * a) - c * a| ≤ ε * |c * a| + 2 * θ := hr.err (by omega) _
  set u := rnd (c * a) with hu
  have h2 : |rnd (t + u) - (t + u)| ≤ ε * |t + u| := hr.err_add ht (hr.float _)
  have hG : 0 ≤ G := (abs_nonneg _).trans hA
  have hcm : c ≤ C + η := by have := (abs_le.1 hc).2; linarith
  have hη : 0 ≤ η := (abs_nonneg _).trans hc
  have ha : |a| ≤ |a - A| + G := by
    have := abs_add_le (a - A) A
    rw [sub_add_cancel] at this
    linarith
  set M := (C + η) * (|a - A| + G) with hM
  have hCη : 0 ≤ C + η := hc0.trans hcm
  have hM0 : 0 ≤ M := mul_nonneg hCη (add_nonneg (abs_nonneg _) hG)
  have hca : |c * a| ≤ M := by
    rw [abs_mul, abs_of_nonneg hc0]
    exact mul_le_mul hcm ha (abs_nonneg _) hCη
  have h1' : |u - c * a| ≤ ε * M + 2 * θ := h1.trans (by have := mul_le_mul_of_nonneg_left hca hE0.le; linarith)
  have hu' : |u| ≤ (1 + ε) * M + 2 * θ := by
    have := abs_add_le (u - c * a) (c * a)
    rw [sub_add_cancel] at this
    linarith
  have ht' : |t| ≤ τ + D := by
    have := abs_add_le (t - T) T
    rw [sub_add_cancel] at this
    linarith
  have htu : |t + u| ≤ τ + D + ((1 + ε) * M + 2 * θ) := (abs_add_le _ _).trans (by linarith)
  have h2' : |rnd (t + u) - (t + u)| ≤ ε * (τ + D + ((1 + ε) * M + 2 * θ)) := h2.trans (mul_le_mul_of_nonneg_left htu hE0.le)
  have h3 : |t + u - (t + c * a)| ≤ ε * M + 2 * θ := by rwa [add_sub_add_left_eq_sub]
  have h4 : |t + c * a - (T + C * A)| ≤ τ + ((C + η) * |a - A| + η * G) := by
    have e : t + c * a - (T + C * A) = (t - T) + (c * (a - A) + (c - C) * A) := by ring
    rw [e]
    refine (abs_add_le _ _).trans (add_le_add htT ((abs_add_le _ _).trans (add_le_add ?_ ?_)))
    · rw [abs_mul, abs_of_nonneg hc0]
      exact mul_le_mul_of_nonneg_right hcm (abs_nonneg _)
    · rw [abs_mul]
      exact mul_le_mul hc hA (abs_nonneg _) hη
  refine (abs_tri (abs_tri h2' h3) h4).trans ?_
  have hεθ : ε * θ ≤ 1 / 64 * θ := mul_le_mul_of_nonneg_right hE1 hθ.le
  have e : ε * (τ + D + ((1 + ε) * M + 2 * θ)) + (ε * M + 2 * θ) + (τ + ((C + η) * |a - A| + η * G)) =
      (C + η) * (1 + ε) ^ 2 * |a - A| + ((1 + ε) * τ + ε * D + (((1 + ε) ^ 2 - 1) * (C + η) + η) * G + (2 * (ε * θ) + 2 * θ)) := by
    rw [hM]; ring
  rw [e]
  linarith

theorem le_termErr {c η D τ G : ℚ} (hc : 0 ≤ c) (hη : 0 ≤ η) (hD : 0 ≤ D) (hτ : 0 ≤ τ) (hG : 0 ≤ G) : τ ≤ Spec.termErr p emin c η D τ G := by
  have hE0 := eps_pos (p := p)
  have hθ := pow_pos' emin
  have h1 : 0 ≤ (1 + Tree.Spec.eps p) ^ 2 - 1 := by nlinarith
  have h2 : 0 ≤ (((1 + Tree.Spec.eps p) ^ 2 - 1) * (c + η) + η) * G := by positivity
  have h4 := mul_nonneg hE0.le hτ
  have h5 := mul_nonneg hE0.le hD
  unfold Spec.termErr
  linarith

theorem sumErr_nonneg {c η D τ G : ℚ} (hc : 0 ≤ c) (hη : 0 ≤ η) (hD : 0 ≤ D) (hτ : 0 ≤ τ) (hG : 0 ≤ G) (n : ℕ) :
    0 ≤ Spec.sumErr p emin c η D τ G n := by
  have hE0 := eps_pos (p := p)
  have hK : 0 ≤ Spec.termErr p emin c η D τ G := hτ.trans (le_termErr hc hη hD hτ hG)
  unfold Spec.sumErr
  split
  · exact div_nonneg hK (by linarith)
  · positivity

theorem sumErr_step {c η D τ G : ℚ} (hK : 0 ≤ Spec.termErr p emin c η D τ G) (n : ℕ) :
    (c + η) * (1 + Tree.Spec.eps p) ^ 2 * Spec.sumErr p emin c η D τ G n + Spec.termErr p emin c η D τ G ≤ Spec.sumErr p emin c η D τ G (n + 1) := by
  unfold Spec.sumErr
  set ρ := (c + η) * (1 + Tree.Spec.eps p) ^ 2 with hρd
  set K := Spec.termErr p emin c η D τ G
  split
  · next h =>
    have hd : 1 - ρ ≠ 0 := by linarith
    have h2 : ρ * (K / (1 - ρ)) + K = K / (1 - ρ) := by field_simp; ring
    exact h2.le
  · next h =>
    have h1 : (1 : ℚ) ≤ ρ ^ (n + 1) := one_le_pow₀ (by linarith)
    have h2 := mul_le_mul_of_nonneg_right h1 hK
    have e : ((n + 1 : ℕ) : ℚ) * (ρ ^ (n + 1) * K) = ρ * (n * (ρ ^ n * K)) + ρ ^ (n + 1) * K := by push_cast; rw [pow_succ]; ring
    rw [e]
    linarith

theorem le_sumErr {c η D τ G : ℚ} (hc : 0 ≤ c) (hη : 0 ≤ η) (hD : 0 ≤ D) (hτ : 0 ≤ τ) (hG : 0 ≤ G) (n : ℕ) :
    τ ≤ Spec.sumErr p emin c η D τ G (n + 1) := by
  have hE0 := eps_pos (p := p)
  have h1 := le_termErr (p := p) (emin := emin) hc hη hD hτ hG
  have h2 := sumErr_step (p := p) (emin := emin) (D := D) (τ := τ) (G := G) (hτ.trans h1) n
  have h3 := sumErr_nonneg (p := p) (emin := emin) hc hη hD hτ hG n
  have h4 : 0 ≤ (c + η) * (1 + Tree.Spec.eps p) ^ 2 * Spec.sumErr p emin c η D τ G n := by positivity
  linarith

/-- The bound after one more term. -/
theorem sum_step_bound (hr : Spec.Rounding p emin rnd) (hp : 7 ≤ p) {c C η D τ G t T a A : ℚ} (hC : 0 ≤ C) (ht : Tree.Spec.Float p emin t)
    (hc0 : 0 ≤ c) (hc : |c - C| ≤ η) (htT : |t - T| ≤ τ) (hT : |T| ≤ D) (hA : |A| ≤ G) {n : ℕ}
    (h : |a - A| ≤ Spec.sumErr p emin C η D τ G n) : |rnd (t + rnd (c * a)) - (T + C * A)| ≤ Spec.sumErr p emin C η D τ G (n + 1) := by
  refine (sum_step hr hp ht hc0 hc htT hT hA).trans ?_
  have hη := (abs_nonneg _).trans hc
  have hτ := (abs_nonneg _).trans htT
  have hK := hτ.trans (le_termErr (p := p) (emin := emin) hC hη ((abs_nonneg _).trans hT) hτ ((abs_nonneg _).trans hA))
  refine le_trans ?_ (sumErr_step hK n)
  have hE0 := eps_pos (p := p)
  have := mul_le_mul_of_nonneg_left h (by positivity : 0 ≤ (C + η) * (1 + Tree.Spec.eps p) ^ 2)
  linarith

/-- The error of a temporal difference error; `W` is the exact discounted next value and `w` the computed one. -/
theorem td_err (hr : Spec.Rounding p emin rnd) (hp : 7 ≤ p) {R V D η r v w W : ℚ} (hrf : Tree.Spec.Float p emin r) (hR : |r| ≤ R)
    (hvf : Tree.Spec.Float p emin v) (hV : |v| ≤ V) (hD : R + 2 * V ≤ D) (hη : 0 ≤ η) (hwf : Tree.Spec.Float p emin w)
    (hw : |w - W| ≤ Tree.Spec.eps p * V + 2 * 2 ^ emin + η * V) (hw' : |w| ≤ V + (Tree.Spec.eps p * V + 2 * 2 ^ emin)) :
    |rnd (rnd (r + w) - v) - (r + W - v)| ≤ Spec.tdErr p emin η D := by
  have hE0 := eps_pos (p := p)
  have hE1 := eps_small hp
  have hθ := pow_pos' emin
  unfold Spec.tdErr
  set ε := Tree.Spec.eps p with hε
  set θ : ℚ := 2 ^ emin with hθd
  have hR0 : 0 ≤ R := (abs_nonneg _).trans hR
  have hV0 : 0 ≤ V := (abs_nonneg _).trans hV
  have hεθ : ε * θ ≤ 1 / 64 * θ := mul_le_mul_of_nonneg_right hE1 hθ.le
  have hεV : ε * V ≤ 1 / 64 * V := mul_le_mul_of_nonneg_right hE1 hV0
  have h1 : |rnd (r + w) - (r + w)| ≤ ε * |r + w| := hr.err_add hrf hwf
  set s := rnd (r + w)
  have h2 : |rnd (s - v) - (s - v)| ≤ ε * |s - v| := err_sub hr (hr.float _) hvf
  have hrw : |r + w| ≤ D - 1 / 2 * V + 2 * θ := (abs_add_le _ _).trans (by linarith)
  have hD0 : 0 ≤ D := by linarith
  have hεD : ε * D ≤ 1 / 64 * D := mul_le_mul_of_nonneg_right hE1 hD0
  have h1' : |s - (r + w)| ≤ ε * (D + 2 * θ) := h1.trans (mul_le_mul_of_nonneg_left (by linarith) hE0.le)
  have hs : |s| ≤ D - 1 / 2 * V + 2 * θ + ε * (D + 2 * θ) := by
    have := abs_add_le (s - (r + w)) (r + w)
    rw [sub_add_cancel] at this
    linarith
  have hsv : |s - v| ≤ 2 * D + 3 * θ := by
    have e : s - v = s + -v := by ring
    rw [e]
    refine (abs_add_le _ _).trans ?_
    rw [abs_neg]
    linarith
  have h2' : |rnd (s - v) - (s - v)| ≤ ε * (2 * D + 3 * θ) := h2.trans (mul_le_mul_of_nonneg_left hsv hE0.le)
  have h3 : |s - v - (r + w - v)| ≤ ε * (D + 2 * θ) := by rwa [sub_sub_sub_cancel_right]
  have h4 : |r + w - v - (r + W - v)| ≤ ε * V + 2 * θ + η * V := by
    have e : r + w - v - (r + W - v) = w - W := by ring
    rwa [e]
  refine (abs_tri (abs_tri h2' h3) h4).trans ?_
  have g1 : ε * V ≤ ε * D := mul_le_mul_of_nonneg_left (by linarith) hE0.le
  have g2 : η * V ≤ η * D := mul_le_mul_of_nonneg_left (by linarith) hη
  have e : ε * (2 * D + 3 * θ) + ε * (D + 2 * θ) + (ε * V + 2 * θ + η * V) = 3 * (ε * D) + ε * V + 5 * (ε * θ) + 2 * θ + η * V := by ring
  rw [e]
  linarith

/-- A discounted next value. -/
theorem next_err (hr : Spec.Rounding p emin rnd) (hp : 7 ≤ p) {g γ η V v : ℚ} (hg0 : 0 ≤ g) (hg1 : g ≤ 1) (hg : |g - γ| ≤ η) (hv : |v| ≤ V) :
    |rnd (g * v) - γ * v| ≤ Tree.Spec.eps p * V + 2 * 2 ^ emin + η * V ∧ |rnd (g * v)| ≤ V + (Tree.Spec.eps p * V + 2 * 2 ^ emin) := by
  have hE0 := eps_pos (p := p)
  have hV0 : 0 ≤ V := (abs_nonneg _).trans hv
  have hgv : |g * v| ≤ V := by
    have := abs_mul_le (a := g) (by rwa [abs_of_nonneg hg0] : |g| ≤ 1) hv
    linarith
  have h1 : |rnd (g * v) - g * v| ≤ Tree.Spec.eps p * V + 2 * 2 ^ emin := by
    have := hr.err (by omega) (g * v)
    have h := mul_le_mul_of_nonneg_left hgv hE0.le
    linarith
  constructor
  · refine abs_tri h1 ?_
    rw [← sub_mul]
    exact abs_mul_le hg hv
  · have := abs_add_le (rnd (g * v) - g * v) (g * v)
    rw [sub_add_cancel] at this
    linarith

theorem next_zero {V η : ℚ} (hV : 0 ≤ V) (hη : 0 ≤ η) : |(0 : ℚ) - 0| ≤ Tree.Spec.eps p * V + 2 * 2 ^ emin + η * V ∧
    |(0 : ℚ)| ≤ V + (Tree.Spec.eps p * V + 2 * 2 ^ emin) := by
  have hE0 := eps_pos (p := p)
  have hθ := pow_pos' emin
  constructor <;> simp only [sub_zero, abs_zero] <;> positivity

theorem mul_abs_le {γ W V : ℚ} (h0 : 0 ≤ γ) (h1 : γ ≤ 1) (h : |W| ≤ V) : |γ * W| ≤ V := by
  have := abs_mul_le (a := γ) (by rwa [abs_of_nonneg h0] : |γ| ≤ 1) h
  linarith

theorem td_le {r W v R V D : ℚ} (hr : |r| ≤ R) (hW : |W| ≤ V) (hv : |v| ≤ V) (hD : R + 2 * V ≤ D) : |r + W - v| ≤ D := by
  rw [abs_le] at *
  constructor <;> linarith [hr.1, hr.2, hW.1, hW.2, hv.1, hv.2]

theorem disc_step_le {T C A D G : ℚ} (hT : |T| ≤ D) (hC : 0 ≤ C) (hA : |A| ≤ G) (hG : D + C * G ≤ G) : |T + C * A| ≤ G := by
  refine (abs_add_le _ _).trans ?_
  rw [abs_mul, abs_of_nonneg hC]
  have := mul_le_mul_of_nonneg_left hA hC
  linarith

/-- A bound `G` on discounted sums with terms of at most `D`: `D / (1 - c)`, for example. -/
theorem disc_le {c D G : ℚ} (hc : 0 ≤ c) (hG : D + c * G ≤ G) (hG0 : 0 ≤ G) (l : List ℚ) (h : ∀ x ∈ l, |x| ≤ D) : |Returns.Spec.disc c l| ≤ G := by
  induction l with
  | nil => simpa using hG0
  | cons x l ih =>
    rw [Returns.disc_cons]
    exact disc_step_le (h x (by simp)) hc (ih fun y hy => h y (by simp [hy])) hG

/-- The same for returns. -/
theorem return_le {γ R G boot : ℚ} (hγ : 0 ≤ γ) (hG : R + γ * G ≤ G) (hb : |boot| ≤ G) (l : List (Turn ℚ)) (h : ∀ s ∈ l, |s.reward| ≤ R) :
    |Returns.Spec.nStepReturn γ boot l| ≤ G := by
  have hG0 : 0 ≤ G := (abs_nonneg _).trans hb
  rw [Returns.nStepReturn_eq_rec]
  induction l with
  | nil => exact hb
  | cons s l ih =>
    rw [Returns.recReturn]
    refine disc_step_le (h s (by simp)) hγ ?_ hG
    split
    · simpa using hG0
    · exact ih fun y hy => h y (by simp [hy])

/-- The temporal difference errors of a stored transition. -/
theorem tdError_le {γ R V D : ℚ} (h0 : 0 ≤ γ) (h1 : γ ≤ 1) (hD : R + 2 * V ≤ D) {s : Step ℚ} (hs : Spec.StepOk p emin R V s) :
    |Returns.Spec.tdError γ s| ≤ D := by
  unfold Returns.Spec.tdError
  have hV : 0 ≤ V := (abs_nonneg _).trans hs.next
  rcases hs.nonterminal with h | h
  · rw [h]
    exact td_le hs.reward.2 (by simpa using hV) hs.value.2 hD
  · rw [h, mul_one]
    exact td_le hs.reward.2 (mul_abs_le h0 h1 hs.next) hs.value.2 hD

theorem mask_cases (s : Turn ℚ) : (mask s = 0 ∧ s.ended = true) ∨ (mask s = 1 ∧ s.ended = false) := by
  unfold mask Returns.Turn.ended
  cases h : (s.done || s.reset) <;> simp

/-- The advantage by recursion. -/
def fadv (rnd : ℚ → ℚ) (γ lam : ℚ) : List (Step ℚ) → ℚ
  | [] => 0
  | tr :: ep => rnd (rnd (rnd (tr.reward + rnd (rnd (γ * tr.nonterminal) * tr.nextVPred)) - tr.vPred) + rnd (rnd (γ * lam) * fadv rnd γ lam ep))

/-- The entries by recursion. -/
def fentries (rnd : ℚ → ℚ) (γ lam : ℚ) : List (Step ℚ) → List (AdvTarget ℚ)
  | [] => []
  | tr :: ep => ⟨fadv rnd γ lam (tr :: ep), rnd (fadv rnd γ lam (tr :: ep) + tr.vPred)⟩ :: fentries rnd γ lam ep

theorem fgae_rec (γ lam : ℚ) (ep : List (Step ℚ)) : ep.reverse.foldl (fgaeStep rnd γ lam) (0, []) = (fadv rnd γ lam ep, fentries rnd γ lam ep) := by
  rw [List.foldl_reverse]
  induction ep with
  | nil => rfl
  | cons tr ep ih => rw [List.foldr_cons, ih]; rfl

theorem fentries_length (γ lam : ℚ) (ep : List (Step ℚ)) : (fentries rnd γ lam ep).length = ep.length := by
  induction ep with
  | nil => rfl
  | cons tr ep ih => simp [fentries, ih]

theorem fentries_getElem (γ lam : ℚ) (ep : List (Step ℚ)) : ∀ t (h : t < ep.length) (h' : t < (fentries rnd γ lam ep).length),
    (fentries rnd γ lam ep)[t] = ⟨fadv rnd γ lam (ep.drop t), rnd (fadv rnd γ lam (ep.drop t) + ep[t].vPred)⟩ := by
  induction ep with
  | nil => intro t h; simp at h
  | cons tr ep ih =>
    intro t h h'
    cases t with
    | zero => rfl
    | succ t =>
      simp only [fentries, List.getElem_cons_succ, List.drop_succ_cons]
      exact ih t (by simpa using h) _

/-- The advantage of the first step of an episode. -/
theorem fadv_err (hr : Spec.Rounding p emin rnd) (hp : 7 ≤ p) {γ lam R V D G : ℚ} (hγf : Tree.Spec.Float p emin γ) (hγ0 : 0 ≤ γ) (hγ1 : γ ≤ 1)
    (hl0 : 0 ≤ lam) (hD : R + 2 * V ≤ D) (hV : 0 ≤ V) (hR : 0 ≤ R) (ep : List (Step ℚ)) (hep : ∀ s ∈ ep, Spec.StepOk p emin R V s)
    (hG : ∀ t, |Returns.Spec.disc (γ * lam) ((ep.drop t).map (Returns.Spec.tdError γ))| ≤ G) :
    |fadv rnd γ lam ep - Returns.Spec.disc (γ * lam) (ep.map (Returns.Spec.tdError γ))| ≤
      Spec.sumErr p emin (γ * lam) (Tree.Spec.eps p * (γ * lam) + 2 * 2 ^ emin) D (Spec.tdErr p emin 0 D) G ep.length := by
  have hG0 : 0 ≤ G := (abs_nonneg _).trans (hG 0)
  have hE0 := eps_pos (p := p)
  have hθ := pow_pos' emin
  have hc0 : 0 ≤ γ * lam := mul_nonneg hγ0 hl0
  have hD0 : 0 ≤ D := by linarith
  have hτ : 0 ≤ Spec.tdErr p emin 0 D := by unfold Spec.tdErr; positivity
  have hη : 0 ≤ Tree.Spec.eps p * (γ * lam) + 2 * 2 ^ emin := by positivity
  induction ep with
  | nil =>
    simp only [fadv, List.map_nil, Returns.disc_nil, sub_zero, abs_zero]
    exact sumErr_nonneg hc0 hη hD0 hτ hG0 _
  | cons s ep ih =>
    have ih1 := ih (fun x hx => hep x (by simp [hx])) (fun t => hG (t + 1))
    have ih2 := hG 1
    simp only [List.drop_succ_cons, List.drop_zero] at ih2
    obtain ⟨⟨hrf, hrb⟩, ⟨hvf, hvb⟩, hn, hnt⟩ := hep s (by simp)
    have hfac : |rnd (γ * lam) - γ * lam| ≤ Tree.Spec.eps p * (γ * lam) + 2 * 2 ^ emin := by
      have := hr.err (by omega : 2 ≤ p) (γ * lam)
      rwa [abs_of_nonneg hc0] at this
    have hfac0 : 0 ≤ rnd (γ * lam) := hr.pos.nonneg hc0
    have htd : |rnd (rnd (s.reward + rnd (rnd (γ * s.nonterminal) * s.nextVPred)) - s.vPred) - Returns.Spec.tdError γ s| ≤ Spec.tdErr p emin 0 D ∧
        |Returns.Spec.tdError γ s| ≤ D := by
      unfold Returns.Spec.tdError
      rcases hnt with h0 | h1
      · rw [h0]
        simp only [mul_zero, hr.zero, zero_mul]
        obtain ⟨n1, n2⟩ := next_zero (p := p) (emin := emin) hV le_rfl
        exact ⟨td_err hr hp hrf hrb hvf hvb hD le_rfl float_zero n1 n2, td_le hrb (by simpa using hV) hvb hD⟩
      · rw [h1]
        simp only [mul_one, hr.fixed _ hγf]
        obtain ⟨n1, n2⟩ := next_err hr hp hγ0 hγ1 (by simp : |γ - γ| ≤ 0) hn
        exact ⟨td_err hr hp hrf hrb hvf hvb hD le_rfl (hr.float _) n1 n2, td_le hrb (mul_abs_le hγ0 hγ1 hn) hvb hD⟩
    simp only [fadv, List.map_cons, Returns.disc_cons]
    exact sum_step_bound hr hp hc0 (hr.float _) hfac0 hfac htd.1 htd.2 ih2 ih1

/-! ## C142 -/

/-- **C142 (PPO and TRPO).** With any correct rounding, discounts, and rewards and values bounded by `R` and `V`, for an episode of any length: the
advantages differ from the exact ones, bounded by `G`, by at most `Spec.sumErr`, which does not depend on the length if `γ λ` is below 1 by more than a
few roundings; the value targets differ by that and the rounding of one sum. -/
theorem gae_accuracy (hr : Spec.Rounding p emin rnd) (hp : 7 ≤ p) {γ lam R V D G : ℚ} (hγf : Tree.Spec.Float p emin γ) (hγ0 : 0 ≤ γ)
    (hγ1 : γ ≤ 1) (hl0 : 0 ≤ lam) (hD : R + 2 * V ≤ D) (episode : List (Step ℚ)) (hep : ∀ s ∈ episode, Spec.StepOk p emin R V s)
    (hG : ∀ t, |Returns.Spec.disc (γ * lam) ((episode.drop t).map (Returns.Spec.tdError γ))| ≤ G) {E : ℕ → ℚ}
    (hE : E = Spec.sumErr p emin (γ * lam) (Tree.Spec.eps p * (γ * lam) + 2 * 2 ^ emin) D (Spec.tdErr p emin 0 D) G) :
    (fgaeEpisode rnd γ lam episode).length = episode.length ∧
    ∀ t (h : t < episode.length) (h' : t < (fgaeEpisode rnd γ lam episode).length),
      |(fgaeEpisode rnd γ lam episode)[t].adv - Returns.Spec.disc (γ * lam) ((episode.drop t).map (Returns.Spec.tdError γ))| ≤ E (episode.length - t) ∧
      |(fgaeEpisode rnd γ lam episode)[t].vTeacher -
        (Returns.Spec.disc (γ * lam) ((episode.drop t).map (Returns.Spec.tdError γ)) + episode[t].vPred)| ≤
          E (episode.length - t) + Tree.Spec.eps p * (E (episode.length - t) + G + V) := by
  have hval : fgaeEpisode rnd γ lam episode = fentries rnd γ lam episode := by unfold fgaeEpisode; rw [fgae_rec]
  constructor
  · rw [hval, fentries_length]
  · intro t h h'
    have hget : (fgaeEpisode rnd γ lam episode)[t] = ⟨fadv rnd γ lam (episode.drop t), rnd (fadv rnd γ lam (episode.drop t) + episode[t].vPred)⟩ := by
      simp only [hval]
      exact fentries_getElem γ lam episode t h _
    obtain ⟨⟨_, hR⟩, ⟨hvf, hV⟩, _, _⟩ := hep episode[t] (List.getElem_mem h)
    have h1 := fadv_err hr hp hγf hγ0 hγ1 hl0 hD ((abs_nonneg _).trans hV) ((abs_nonneg _).trans hR) (episode.drop t)
      (fun s hs => hep s (List.mem_of_mem_drop hs)) (fun u => by rw [List.drop_drop]; exact hG (t + u))
    rw [← hE, List.length_drop] at h1
    have h2 := hG t
    rw [hget]
    refine ⟨h1, ?_⟩
    have hf : Tree.Spec.Float p emin (fadv rnd γ lam (episode.drop t)) := by
      cases episode.drop t with
      | nil => exact float_zero
      | cons s l => exact hr.float _
    have h3 := hr.err_add hf hvf
    set a := fadv rnd γ lam (episode.drop t)
    set A := Returns.Spec.disc (γ * lam) ((episode.drop t).map (Returns.Spec.tdError γ))
    set E' := E (episode.length - t)
    have ha : |a + episode[t].vPred| ≤ E' + G + V := by
      have g1 := abs_add_le a episode[t].vPred
      have g2 := abs_add_le (a - A) A
      rw [sub_add_cancel] at g2
      linarith
    have h4 := h3.trans (mul_le_mul_of_nonneg_left ha (eps_pos (p := p)).le)
    have h5 : |a + episode[t].vPred - (A + episode[t].vPred)| ≤ E' := by rwa [add_sub_add_right_eq_sub]
    have := abs_tri h4 h5
    simp only
    linarith

/-- The return of the first step of a rollout, by recursion. -/
def fa3c (rnd : ℚ → ℚ) (γ R : ℚ) : List ℚ → ℚ
  | [] => R
  | r :: rs => rnd (rnd (fa3c rnd γ R rs * γ) + r)

theorem fa3c_rec (γ R : ℚ) (rs : List ℚ) :
    rs.reverse.foldl (fun acc r => (rnd (rnd (acc.1 * γ) + r), rnd (rnd (acc.1 * γ) + r) :: acc.2)) (R, []) =
      (fa3c rnd γ R rs, (List.range rs.length).map fun i => fa3c rnd γ R (rs.drop i)) := by
  rw [List.foldl_reverse]
  induction rs with
  | nil => rfl
  | cons r rs ih =>
    rw [List.foldr_cons, ih]
    simp only [List.length_cons, List.range_succ_eq_map, List.map_cons, List.map_map, List.drop_zero, Prod.mk.injEq]
    exact ⟨rfl, rfl⟩

/-- **C142 (A3C).** The same for the returns of A3C, bootstrapped from a value: `R` bounds the rewards and `G` the exact returns. -/
theorem a3c_accuracy (hr : Spec.Rounding p emin rnd) (hp : 7 ≤ p) {γ boot R G : ℚ} (hγ0 : 0 ≤ γ) (hR : 0 ≤ R) (rewards : List ℚ)
    (hrs : ∀ r ∈ rewards, Tree.Spec.Float p emin r ∧ |r| ≤ R)
    (hG : ∀ t ≤ rewards.length, |Returns.Spec.disc γ (rewards.drop t) + γ ^ (rewards.length - t) * boot| ≤ G) :
    (fa3cReturns rnd γ boot rewards).length = rewards.length ∧
    ∀ t (_ : t < rewards.length) (h' : t < (fa3cReturns rnd γ boot rewards).length),
      |(fa3cReturns rnd γ boot rewards)[t] - (Returns.Spec.disc γ (rewards.drop t) + γ ^ (rewards.length - t) * boot)| ≤
        Spec.sumErr p emin γ 0 R 0 G (rewards.length - t) := by
  have main : ∀ rs : List ℚ, (∀ r ∈ rs, Tree.Spec.Float p emin r ∧ |r| ≤ R) →
      (∀ t ≤ rs.length, |Returns.Spec.disc γ (rs.drop t) + γ ^ (rs.length - t) * boot| ≤ G) →
      |fa3c rnd γ boot rs - (Returns.Spec.disc γ rs + γ ^ rs.length * boot)| ≤ Spec.sumErr p emin γ 0 R 0 G rs.length := by
    intro rs
    induction rs with
    | nil =>
      intro _ hG
      simp only [fa3c, Returns.disc_nil, List.length_nil, pow_zero, one_mul, zero_add, sub_self, abs_zero]
      exact sumErr_nonneg hγ0 le_rfl hR le_rfl ((abs_nonneg _).trans (hG 0 le_rfl)) _
    | cons r rs ih =>
      intro h hG
      have h1 := ih (fun x hx => h x (by simp [hx]))
        (fun t ht => by have := hG (t + 1) (by simpa using ht); simpa only [List.drop_succ_cons, List.length_cons, Nat.add_sub_add_right] using this)
      have h2 := hG 1 (by simp)
      simp only [List.drop_succ_cons, List.drop_zero, List.length_cons, Nat.add_sub_cancel] at h2
      obtain ⟨hf, hrb⟩ := h r (by simp)
      have e : Returns.Spec.disc γ (r :: rs) + γ ^ (r :: rs).length * boot = r + γ * (Returns.Spec.disc γ rs + γ ^ rs.length * boot) := by
        rw [Returns.disc_cons, List.length_cons, pow_succ]; ring
      rw [e, fa3c, add_comm (rnd _) r, mul_comm _ γ]
      exact sum_step_bound hr hp hγ0 hf hγ0 (by simp) (by simp : |r - r| ≤ 0) hrb h2 h1
  have hval : fa3cReturns rnd γ boot rewards = (List.range rewards.length).map fun i => fa3c rnd γ boot (rewards.drop i) := by
    unfold fa3cReturns; rw [fa3c_rec]
  constructor
  · rw [hval]; simp
  · intro t h h'
    have hget : (fa3cReturns rnd γ boot rewards)[t] = fa3c rnd γ boot (rewards.drop t) := by simp [hval]
    rw [hget]
    have := main (rewards.drop t) (fun r hr' => hrs r (List.mem_of_mem_drop hr'))
      (fun u hu => by
        rw [List.length_drop] at hu
        have := hG (t + u) (by omega)
        rwa [List.drop_drop, List.length_drop, Nat.sub_sub])
    rwa [List.length_drop] at this

/-- **C142 (A2C).** The same for the returns of A2C, for rollouts of any length with any number of episode ends in them: `g` is the discount in the
precision of the tensors, and the suffixes of a rollout give its returns. -/
theorem a2c_accuracy (hr : Spec.Rounding p emin rnd) (hp : 7 ≤ p) {g γ η boot R V G : ℚ} (hγ0 : 0 ≤ γ) (hg0 : 0 ≤ g) (hg : |g - γ| ≤ η)
    (hR : 0 ≤ R) (steps : List (Turn ℚ)) (hs : ∀ s ∈ steps, Spec.TurnOk p emin R V s)
    (hG : ∀ t, |Returns.Spec.nStepReturn γ boot (steps.drop t)| ≤ G) :
    |fplainReturn rnd g boot steps - Returns.Spec.nStepReturn γ boot steps| ≤ Spec.sumErr p emin γ η R 0 G steps.length := by
  have hG0 : 0 ≤ G := (abs_nonneg _).trans (hG 0)
  have hη : 0 ≤ η := (abs_nonneg _).trans hg
  simp only [Returns.nStepReturn_eq_rec] at hG ⊢
  induction steps with
  | nil =>
    simp only [fplainReturn, Returns.recReturn, sub_self, abs_zero]
    exact sumErr_nonneg hγ0 hη hR le_rfl hG0 _
  | cons s rest ih =>
    have h1 := ih (fun x hx => hs x (by simp [hx])) (fun t => hG (t + 1))
    have h2 := hG 1
    simp only [List.drop_succ_cons, List.drop_zero] at h2
    obtain ⟨hf, hrb⟩ := (hs s (by simp)).reward
    simp only [fplainReturn, Returns.recReturn]
    rcases mask_cases s with ⟨hm, he⟩ | ⟨hm, he⟩
    · simp only [hm, he, mul_zero, hr.zero, if_true, add_zero, hr.fixed _ hf, sub_self, abs_zero]
      exact sumErr_nonneg hγ0 hη hR le_rfl hG0 _
    · simp only [hm, he, mul_one, hr.fixed _ (hr.float _), Bool.false_eq_true, if_false]
      exact sum_step_bound hr hp hγ0 hf hg0 hg (by simp : |s.reward - s.reward| ≤ 0) hrb h2 h1

theorem nextValue_eq (boot : ℚ) (l : List (Turn ℚ)) : nextValue boot l = (l.head?.map Turn.value).getD boot := by cases l <;> rfl

/-- **C142 (A2C with generalised advantages).** The same with `use_gae`: `g` and `gt` are `γ` and `γ τ` in the precision of the tensors. -/
theorem a2c_gae_accuracy (hr : Spec.Rounding p emin rnd) (hp : 7 ≤ p) {g gt γ tau η ηt boot R V D G : ℚ} (hγ0 : 0 ≤ γ) (hγ1 : γ ≤ 1)
    (ht0 : 0 ≤ tau) (hg0 : 0 ≤ g) (hg1 : g ≤ 1) (hg : |g - γ| ≤ η) (hgtf : Tree.Spec.Float p emin gt) (hgt0 : 0 ≤ gt) (hgt : |gt - γ * tau| ≤ ηt)
    (hD : R + 2 * V ≤ D) (hb : |boot| ≤ V) (s : Turn ℚ) (rest : List (Turn ℚ)) (hs : ∀ x ∈ s :: rest, Spec.TurnOk p emin R V x)
    (hG : ∀ t, |Returns.Spec.disc (γ * tau) (Returns.Spec.tdErrors γ boot (Returns.Spec.segment ((s :: rest).drop t)))| ≤ G) {E : ℚ}
    (hE : E = Spec.sumErr p emin (γ * tau) ηt D (Spec.tdErr p emin η D) G (rest.length + 1)) :
    |fgaeReturn rnd g gt boot s rest - Returns.Spec.gaeReturn γ tau boot (s :: rest)| ≤ E + Tree.Spec.eps p * (E + G + V) := by
  have hG0 : 0 ≤ G := (abs_nonneg _).trans (hG 0)
  simp only [Returns.gae_eq_rec] at hG
  have hE0 := eps_pos (p := p)
  have hθ := pow_pos' emin
  have hη : 0 ≤ η := (abs_nonneg _).trans hg
  have hηt : 0 ≤ ηt := (abs_nonneg _).trans hgt
  have hV : 0 ≤ V := (abs_nonneg _).trans hb
  have hR : 0 ≤ R := (abs_nonneg _).trans (hs s (by simp)).reward.2
  have hc0 : 0 ≤ γ * tau := mul_nonneg hγ0 ht0
  have hD0 : 0 ≤ D := by linarith
  have hτ : 0 ≤ Spec.tdErr p emin η D := by unfold Spec.tdErr; positivity
  have main : ∀ l : List (Turn ℚ), (∀ x ∈ l, Spec.TurnOk p emin R V x) → (∀ t, |Returns.recGae γ tau boot (l.drop t)| ≤ G) →
      |fgae rnd g gt boot l - Returns.recGae γ tau boot l| ≤ Spec.sumErr p emin (γ * tau) ηt D (Spec.tdErr p emin η D) G l.length := by
    intro l
    induction l with
    | nil =>
      intro _ _
      simp only [fgae, Returns.recGae, sub_self, abs_zero]
      exact sumErr_nonneg hc0 hηt hD0 hτ hG0 _
    | cons x l ih =>
      intro hl hG
      have h1 := ih (fun y hy => hl y (by simp [hy])) (fun t => hG (t + 1))
      have h2 := hG 1
      simp only [List.drop_succ_cons, List.drop_zero] at h2
      obtain ⟨⟨hrf, hrb⟩, ⟨hvf, hvb⟩⟩ := hl x (by simp)
      have hnb : |nextValue boot l| ≤ V := by
        cases l with
        | nil => exact hb
        | cons y l => exact (hl y (by simp)).value.2
      simp only [fgae, Returns.recGae]
      rw [← nextValue_eq]
      rcases mask_cases x with ⟨hm, he⟩ | ⟨hm, he⟩
      · simp only [hm, he, mul_zero, hr.zero, if_true, add_zero, zero_mul, hr.fixed _ (hr.float _)]
        obtain ⟨n1, n2⟩ := next_zero (p := p) (emin := emin) hV hη
        have e1 := td_err hr hp hrf hrb hvf hvb hD hη float_zero n1 n2
        simp only [add_zero] at e1
        exact e1.trans (le_sumErr hc0 hηt hD0 hτ hG0 _)
      · simp only [hm, he, mul_one, hr.fixed _ (hr.float _), hr.fixed _ hgtf, Bool.false_eq_true, if_false]
        obtain ⟨n1, n2⟩ := next_err hr hp hg0 hg1 hg hnb
        have e1 := td_err hr hp hrf hrb hvf hvb hD hη (hr.float _) n1 n2
        have e2 := td_le hrb (mul_abs_le hγ0 hγ1 hnb) hvb hD
        exact sum_step_bound hr hp hc0 (hr.float _) hgt0 hgt e1 e2 h2 h1
  have h1 := main _ hs hG
  rw [List.length_cons, ← hE] at h1
  have h2 : |Returns.recGae γ tau boot (s :: rest)| ≤ G := hG 0
  unfold fgaeReturn Returns.Spec.gaeReturn
  rw [Returns.gae_eq_rec]
  simp only [List.head?_cons, Option.map_some, Option.getD_some]
  obtain ⟨hvf, hvb⟩ := (hs s (by simp)).value
  have hf : Tree.Spec.Float p emin (fgae rnd g gt boot (s :: rest)) := hr.float _
  have h3 := hr.err_add hf hvf
  set a := fgae rnd g gt boot (s :: rest)
  set A := Returns.recGae γ tau boot (s :: rest)
  have ha : |a + s.value| ≤ E + G + V := by
    have g1 := abs_add_le a s.value
    have g2 := abs_add_le (a - A) A
    rw [sub_add_cancel] at g2
    linarith
  have h4 := h3.trans (mul_le_mul_of_nonneg_left ha hE0.le)
  have h5 : |a + s.value - (A + s.value)| ≤ E := by rwa [add_sub_add_right_eq_sub]
  have := abs_tri h4 h5
  linarith

/-- The terms of a sum from number `i` on. -/
def terms (γ : ℚ) : ℕ → List ℚ → ℚ
  | _, [] => 0
  | i, r :: rs => γ ^ i * r + terms γ (i + 1) rs

theorem terms_disc (γ : ℚ) (rs : List ℚ) : ∀ i, terms γ i rs = γ ^ i * Returns.Spec.disc γ rs := by
  induction rs with
  | nil => intro i; simp [terms]
  | cons r rs ih => intro i; rw [terms, ih, Returns.disc_cons, pow_succ]; ring

/-- **C142 (n-step rewards).** With any correct rounding and any power function with an error of at most `ζ` and values in `[0, 1]`: the reward of an
n-step transition differs from the exact discounted sum by at most `(1 + ε)ⁿ n (ζ R + ε (n + 1) R + 2^(emin + 1))`. -/
theorem nstep_accuracy (hr : Spec.Rounding p emin rnd) (hp : 7 ≤ p) {power : ℕ → ℚ} {γ ζ R : ℚ} (hγ0 : 0 ≤ γ) (hγ1 : γ ≤ 1)
    (hpow : ∀ i, 0 ≤ power i ∧ power i ≤ 1 ∧ |power i - γ ^ i| ≤ ζ) (hR : 0 ≤ R) (rewards : List ℚ) (hrs : ∀ r ∈ rewards, |r| ≤ R) :
    |fnstep rnd power rewards - Returns.Spec.disc γ rewards| ≤
      (1 + Tree.Spec.eps p) ^ rewards.length * (rewards.length * (ζ * R + Tree.Spec.eps p * (rewards.length + 1) * R + 2 * 2 ^ emin)) := by
  have hE0 := eps_pos (p := p)
  have hE1 := eps_small hp
  have hθ := pow_pos' emin
  have hζ : 0 ≤ ζ := (abs_nonneg _).trans (hpow 0).2.2
  set ε := Tree.Spec.eps p with hε
  set θ : ℚ := 2 ^ emin with hθd
  set N := rewards.length with hN
  set q := ζ * R + ε * (N + 1) * R + 2 * θ with hq
  have hq0 : 0 ≤ q := by positivity
  have main : ∀ (rs : List ℚ) (i : ℕ) (acc S : ℚ), i + rs.length = N → (∀ r ∈ rs, |r| ≤ R) → Tree.Spec.Float p emin acc → |S| ≤ i * R →
      |acc - S| ≤ (1 + ε) ^ i * (i * q) → |fnstepFrom rnd power acc i rs - (S + terms γ i rs)| ≤ (1 + ε) ^ N * (N * q) := by
    intro rs
    induction rs with
    | nil =>
      intro i acc S hi _ _ _ h
      simp only [List.length_nil, add_zero] at hi
      subst hi
      simpa [fnstepFrom, terms] using h
    | cons r rs ih =>
      intro i acc S hi hb hf hS h
      obtain ⟨p0, p1, pe⟩ := hpow i
      have hrb := hb r (by simp)
      rw [fnstepFrom, terms, ← add_assoc]
      have hγi : |γ ^ i| ≤ 1 := by rw [abs_of_nonneg (pow_nonneg hγ0 i)]; exact pow_le_one₀ hγ0 hγ1
      have ht : |γ ^ i * r| ≤ R := by have := abs_mul_le hγi hrb; linarith
      have hpr : |power i * r| ≤ R := mul_abs_le p0 p1 hrb
      have h1 : |rnd (power i * r) - power i * r| ≤ ε * R + 2 * θ := by
        have := hr.err (by omega : 2 ≤ p) (power i * r)
        have h' := mul_le_mul_of_nonneg_left hpr hE0.le
        linarith
      have h2 : |power i * r - γ ^ i * r| ≤ ζ * R := by
        rw [← sub_mul]
        exact abs_mul_le pe hrb
      have h3 := abs_tri h1 h2
      set u := rnd (power i * r) with hu
      set e := (1 + ε) ^ i * (i * q) with he
      have h4 : |acc + u - (S + γ ^ i * r)| ≤ e + (ε * R + 2 * θ + ζ * R) := by
        rw [add_sub_add_comm]
        exact (abs_add_le _ _).trans (add_le_add h h3)
      have h5 : |S + γ ^ i * r| ≤ (i + 1) * R := (abs_add_le _ _).trans (by linarith)
      have h6 : |acc + u| ≤ e + (ε * R + 2 * θ + ζ * R) + (i + 1) * R := by
        have := abs_add_le (acc + u - (S + γ ^ i * r)) (S + γ ^ i * r)
        rw [sub_add_cancel] at this
        linarith
      have h7 := (hr.err_add hf (hr.float (power i * r))).trans (mul_le_mul_of_nonneg_left h6 hE0.le)
      have h8 := abs_tri h7 h4
      have hiN : (i : ℚ) + 1 ≤ N := by
        have : i + 1 ≤ N := by simp only [List.length_cons] at hi; omega
        exact_mod_cast this
      refine ih (i + 1) _ _ (by simp only [List.length_cons] at hi; omega) (fun x hx => hb x (by simp [hx])) (hr.float _) (by push_cast; exact h5) ?_
      refine h8.trans ?_
      have hiR : ((i : ℚ) + 1) * R ≤ N * R := mul_le_mul_of_nonneg_right hiN hR
      have g1 : ε * R + 2 * θ + ζ * R + ε * ((i + 1) * R) ≤ q := by
        have := mul_le_mul_of_nonneg_left hiR hE0.le
        rw [hq]
        linarith
      have hone : (1 : ℚ) ≤ (1 + ε) ^ i := one_le_pow₀ (by linarith)
      have g2 : q ≤ (1 + ε) ^ i * q := by have := mul_le_mul_of_nonneg_right hone hq0; linarith
      have g3 : ε * q ≤ ε * ((1 + ε) ^ i * q) := mul_le_mul_of_nonneg_left g2 hE0.le
      have hx0 : 0 ≤ ε * R + 2 * θ + ζ * R := by positivity
      have hxq : ε * R + 2 * θ + ζ * R ≤ q := by
        have : 0 ≤ ε * (((i : ℚ) + 1) * R) := by positivity
        linarith
      have g4 : ε * (ε * R + 2 * θ + ζ * R) ≤ ε * q := mul_le_mul_of_nonneg_left hxq hE0.le
      have e2 : (1 + ε) ^ (i + 1) * (((i + 1 : ℕ) : ℚ) * q) = (1 + ε) * e + ((1 + ε) ^ i * q + ε * ((1 + ε) ^ i * q)) := by
        rw [he, pow_succ]; push_cast; ring
      rw [e2]
      linarith
  have := main rewards 0 0 0 (by simp [hN]) hrs float_zero (by simp) (by simp)
  rw [terms_disc] at this
  simpa [fnstep] using this

/-! ## Limits -/

/-- With discount 1 the error does grow with the length of a rollout: with a critic that predicts `2^24` for the last state, rewards of 1 are all lost in
single precision. -/
theorem undiscounted_stuck (v : ℚ) (n : ℕ) :
    fplainReturn f32 1 (2 ^ 24) (List.replicate n ⟨v, 1, false, false, 0⟩) = 2 ^ 24 ∧
    Returns.Spec.nStepReturn 1 (2 ^ 24) (List.replicate n ⟨v, 1, false, false, 0⟩) = 2 ^ 24 + n := by
  constructor
  · have h : f32 (1 + f32 (f32 (1 * 2 ^ 24) * 1)) = 2 ^ 24 := by decide +kernel
    induction n with
    | zero => rfl
    | succ n ih =>
      rw [List.replicate_succ, fplainReturn, ih]
      exact h
  · rw [Returns.nStepReturn_eq_rec]
    induction n with
    | zero => simp [Returns.recReturn]
    | succ n ih =>
      rw [List.replicate_succ, Returns.recReturn, ih]
      simp [Returns.Turn.ended]
      ring

/-! ## Non-vacuity -/

/-- In double precision with `gamma = 0.99`, `lambd = 0.95`, rewards of at most 1 and values of at most 10: the advantages of every episode are exact up
to `10^-11`. -/
example (episode : List (Step ℚ)) (hep : ∀ s ∈ episode, Spec.StepOk 53 (-1074) 1 10 s) (t : ℕ) (h : t < episode.length)
    (h' : t < (fgaeEpisode f64 (f64 (99 / 100)) (f64 (95 / 100)) episode).length) :
    |(fgaeEpisode f64 (f64 (99 / 100)) (f64 (95 / 100)) episode)[t].adv -
      Returns.Spec.disc (f64 (99 / 100) * f64 (95 / 100)) ((episode.drop t).map (Returns.Spec.tdError (f64 (99 / 100))))| ≤ 1 / 10 ^ 11 := by
  have hr : Spec.Rounding 53 (-1074) f64 := rne_rounding (by norm_num)
  have h0 : 0 ≤ f64 (99 / 100) := by decide +kernel
  have h1 : f64 (99 / 100) ≤ 1 := by decide +kernel
  have hD : (1 : ℚ) + 2 * 10 ≤ 21 := by norm_num
  refine (((gae_accuracy hr (by norm_num) (hr.float _) h0 h1 (by decide +kernel) hD (G := 400) episode hep ?_ rfl).2 t h h').1).trans ?_
  · intro u
    refine disc_le (D := 21) (by decide +kernel) (by decide +kernel) (by norm_num) _ ?_
    intro x hx
    obtain ⟨s, hs, rfl⟩ := List.mem_map.1 hx
    exact tdError_le h0 h1 hD (hep s (List.mem_of_mem_drop hs))
  · rw [Spec.sumErr, if_pos (by decide +kernel)]
    decide +kernel

/-- Transitions of this kind; the last one is terminal. -/
example : ∀ s ∈ ([⟨1, 1, 10, -3⟩, ⟨-1 / 2, 0, -3, 7⟩] : List (Step ℚ)), Spec.StepOk 53 (-1074) 1 10 s := by
  have hi : ∀ k : ℤ, |k| ≤ 2 ^ 53 → Tree.Spec.Float 53 (-1074) (k / 2) := fun k hk => ⟨k, -1, by norm_num, hk, by rw [zpow_neg_one]; rfl⟩
  intro s hs
  simp only [List.mem_cons, List.not_mem_nil, or_false] at hs
  rcases hs with rfl | rfl
  · exact ⟨⟨by simpa using hi 2 (by norm_num), by norm_num⟩, ⟨by have := hi 20 (by norm_num); norm_num at this; exact this, by norm_num [abs_le]⟩, by norm_num [abs_le], .inr rfl⟩
  · exact ⟨⟨by simpa using hi (-1) (by norm_num), by norm_num [abs_le]⟩, ⟨by have := hi (-6) (by norm_num); norm_num at this; exact this, by norm_num [abs_le]⟩,
      by norm_num [abs_le], .inl rfl⟩

/-- Their advantages in double precision, which are not exact. -/
example : (fgaeEpisode f64 (f64 (99 / 100)) (f64 (95 / 100)) [⟨1, 1, 10, -3⟩, ⟨-1 / 2, 0, -3, 7⟩]).map (fun a => a.adv) ≠
    (Returns.gaeEpisode (f64 (99 / 100)) (f64 (95 / 100)) [⟨1, 1, 10, -3⟩, ⟨-1 / 2, 0, -3, 7⟩]).map (fun a => a.adv) := by decide +kernel

/-- In single precision with `gamma = 0.99` and rewards of at most 1: the returns of A2C are exact up to `3 / 1000`. -/
example (boot : ℚ) (hb : |boot| ≤ 100) (steps : List (Turn ℚ)) (hs : ∀ s ∈ steps, Spec.TurnOk 24 (-149) 1 100 s) :
    |fplainReturn f32 (f32 (f64 (99 / 100))) boot steps - Returns.Spec.nStepReturn (f64 (99 / 100)) boot steps| ≤ 3 / 1000 := by
  have hr : Spec.Rounding 24 (-149) f32 := rne_rounding (by norm_num)
  refine (a2c_accuracy hr (by norm_num) (η := 1 / 10 ^ 8) (R := 1) (V := 100) (G := 100) (by decide +kernel) (by decide +kernel) (by decide +kernel)
    (by norm_num) steps hs (fun t => return_le (R := 1) (by decide +kernel) (by decide +kernel) hb _
      (fun s h => (hs s (List.mem_of_mem_drop h)).reward.2))).trans ?_
  rw [Spec.sumErr, if_pos (by decide +kernel)]
  decide +kernel

/-- With the identity as rounding the advantages are those of C24. -/
example (γ lam : ℚ) (episode : List (Step ℚ)) : fgaeEpisode id γ lam episode = Returns.gaeEpisode γ lam episode := rfl

/-- An exact power function, rounded, meets the hypotheses of `nstep_accuracy`. -/
example (rewards : List ℚ) (hrs : ∀ r ∈ rewards, |r| ≤ 1) (hn : rewards.length = 3) :
    |fnstep f64 (fun i => f64 (f64 (99 / 100) ^ i)) rewards - Returns.Spec.disc (f64 (99 / 100)) rewards| ≤ 1 / 10 ^ 14 := by
  have hr : Spec.Rounding 53 (-1074) f64 := rne_rounding (by norm_num)
  have h0 : 0 ≤ f64 (99 / 100) := by decide +kernel
  have h1 : f64 (99 / 100) ≤ 1 := by decide +kernel
  have h := nstep_accuracy hr (by norm_num) (power := fun i => f64 (f64 (99 / 100) ^ i)) (ζ := 1 / 10 ^ 15) h0 h1 (fun i => ?_)
    (by norm_num : (0 : ℚ) ≤ 1) rewards hrs
  · rw [hn] at h
    exact h.trans (by decide +kernel)
  · have p0 := pow_nonneg h0 i
    have p1 := pow_le_one₀ h0 h1 (n := i)
    refine ⟨hr.pos.nonneg p0, ?_, ?_⟩
    · have := hr.mono _ _ p1
      rwa [hr.fixed 1 (float_one (by norm_num))] at this
    · refine (hr.err (by norm_num) _).trans ?_
      rw [abs_of_nonneg p0]
      have g : Tree.Spec.eps 53 * f64 (99 / 100) ^ i ≤ Tree.Spec.eps 53 * 1 := mul_le_mul_of_nonneg_left p1 eps_pos.le
      have g' : Tree.Spec.eps 53 * 1 + 2 * 2 ^ (-1074 : ℤ) ≤ 1 / 10 ^ 15 := by decide +kernel
      linarith

/-- A rollout of A3C with three rewards, bootstrapped from 3, in double precision. -/
example (t : ℕ) (h : t < 3) : ∃ R, (fa3cReturns f64 (f64 (99 / 100)) 3 [1, -1, 1])[t]? = some R ∧
    |R - (Returns.Spec.disc (f64 (99 / 100)) ([1, -1, 1].drop t) + f64 (99 / 100) ^ (3 - t) * 3)| ≤ 1 / 10 ^ 10 := by
  have hr : Spec.Rounding 53 (-1074) f64 := rne_rounding (by norm_num)
  have h0 : 0 ≤ f64 (99 / 100) := by decide +kernel
  have h1 : f64 (99 / 100) ≤ 1 := by decide +kernel
  have hx : ∀ r ∈ ([1, -1, 1] : List ℚ), Tree.Spec.Float 53 (-1074) r ∧ |r| ≤ 1 := by
    intro r hr'
    simp only [List.mem_cons, List.not_mem_nil, or_false] at hr'
    rcases hr' with rfl | rfl | rfl
    · exact ⟨float_one (by norm_num), by norm_num⟩
    · exact ⟨float_neg (float_one (by norm_num)), by norm_num⟩
    · exact ⟨float_one (by norm_num), by norm_num⟩
  obtain ⟨hl, hm⟩ := a3c_accuracy hr (by norm_num) h0 (by norm_num : (0 : ℚ) ≤ 1) (boot := 3) (G := 103) [1, -1, 1] hx (by
    intro u _
    have a1 := disc_le (D := 1) (G := 100) h0 (by decide +kernel) (by norm_num) (([1, -1, 1] : List ℚ).drop u) (fun r h => (hx r (List.mem_of_mem_drop h)).2)
    have a2 := mul_abs_le (pow_nonneg h0 (([1, -1, 1] : List ℚ).length - u)) (pow_le_one₀ h0 h1) (by norm_num : |(3 : ℚ)| ≤ 3)
    exact (abs_add_le _ _).trans (by linarith))
  have ht : t < (fa3cReturns f64 (f64 (99 / 100)) 3 [1, -1, 1]).length := by rw [hl]; exact h
  refine ⟨_, List.getElem?_eq_getElem ht, (hm t h ht).trans ?_⟩
  rw [Spec.sumErr, if_pos (by decide +kernel)]
  decide +kernel

/-- A rollout of A2C with generalised advantages and an episode end, in single precision. -/
example : |fgaeReturn f32 (f32 (f64 (99 / 100))) (f32 (f64 (f64 (99 / 100) * f64 (95 / 100)))) 7 ⟨2, 1, false, false, 0⟩ [⟨-1, 1, true, false, 0⟩] -
    Returns.Spec.gaeReturn (f64 (99 / 100)) (f64 (95 / 100)) 7 [⟨2, 1, false, false, 0⟩, ⟨-1, 1, true, false, 0⟩]| ≤ 1 / 1000 := by
  have hr : Spec.Rounding 24 (-149) f32 := rne_rounding (by norm_num)
  have h1 : Tree.Spec.Float 24 (-149) 1 := float_one (by norm_num)
  refine (a2c_gae_accuracy hr (by norm_num) (η := 1 / 10 ^ 8) (ηt := 1 / 10 ^ 7) (R := 1) (V := 7) (D := 15) (G := 15) (by decide +kernel)
    (by decide +kernel) (by decide +kernel) (by decide +kernel) (by decide +kernel) (by decide +kernel) (hr.float _) (by decide +kernel)
    (by decide +kernel) (by norm_num) (by norm_num) _ _ ?_ ?_ rfl).trans ?_
  · intro x hx
    simp only [List.mem_cons, List.not_mem_nil, or_false] at hx
    rcases hx with rfl | rfl
    · exact ⟨⟨h1, by norm_num⟩, by have := float_two h1; norm_num at this; exact this, by norm_num⟩
    · exact ⟨⟨h1, by norm_num⟩, float_neg h1, by norm_num⟩
  · intro t
    match t with
    | 0 => decide +kernel
    | 1 => decide +kernel
    | t + 2 => simp [Returns.Spec.segment, Returns.Spec.tdErrors]
  · rw [Spec.sumErr, if_pos (by decide +kernel)]
    decide +kernel

/-- The rollout of `undiscounted_stuck`, one step: the reward is lost. -/
example : fplainReturn f32 1 (2 ^ 24) [⟨0, 1, false, false, 0⟩] = 2 ^ 24 := by decide +kernel

end Pfrl.Floats
