import Mathlib.MeasureTheory.Integral.Bochner.Set
import Mathlib.MeasureTheory.Integral.Bochner.SumMeasure
import Mathlib.Analysis.SpecialFunctions.Gaussian.GaussianIntegral
import Verif.Value.Iteration

/-!
# What Soft Actor-Critic converges to (C106)

The policy loss is studied for any action space.  The values are studied as in `Value/Iteration.lean`: finitely many
states, actions and outcomes, and networks that are fitted to the mean of the target, up to an error.
-/

namespace Pfrl.Value.Soft

open Finset Filter MeasureTheory
open Pfrl.Batch (Trans Out batchExperiences)
open Pfrl.Returns.PG (Env Outcome Step entropy)
open Pfrl.Value.Iteration (targetOf fit trans bell)

set_option linter.unusedSectionVars false

variable {S O : Type} [Fintype O] {m : ℕ}

/-! ## Model -/

/-- The mean over the action drawn of the loss of one row, `pfrl/agents/soft_actor_critic.py:278-287`, of a policy with the
density `p` with respect to `mu`: Lebesgue measure, or the counting measure for discrete actions. -/
noncomputable def policyLoss {A : Type*} [MeasurableSpace A] (mu : Measure A) (temperature : ℝ) (q1 q2 p : A → ℝ) : ℝ :=
  ∫ a, p a * (temperature * Real.log (p a) - min (q1 a) (q2 a)) ∂mu

/-- The mean over the action drawn in the last state of the target of one experience, `soft_actor_critic.py:214-239`. -/
noncomputable def sacTarget (gamma temperature : ℝ) (pi q1 q2 : S → Fin m → ℝ) (exp : List (Trans S Nat ℝ)) : Option ℝ :=
  exp.getLast?.map fun t => ∑ a, pi t.nextState a * (targetOf gamma (fun out =>
    some (sacTargets temperature (fun _ _ => a) (fun s a => Real.log (pi s a)) q1 q2 out)) exp).getD 0

/-- Exact fitting of either critic, `soft_actor_critic.py:240-262`; `pi` is the policy, `mu` the one that acted. -/
noncomputable def sacFit (M : Env S (Fin m) O) (mu : S → Fin m → ℝ) (gamma temperature : ℝ) (n : ℕ)
    (pi q1 q2 : S → Fin m → ℝ) : S → Fin m → ℝ := fit M mu n (sacTarget gamma temperature pi q1 q2)

/-- `soft_copy_param` for one value, `pfrl/utils/copy_param.py:9-18`. -/
def sync (tau : ℝ) (target source : S → Fin m → ℝ) : S → Fin m → ℝ :=
  fun s a => target s a * (1 - tau) + tau * source s a

/-- The four critics. -/
structure Critics (S : Type) (m : ℕ) where
  q1 : S → Fin m → ℝ
  q2 : S → Fin m → ℝ
  t1 : S → Fin m → ℝ
  t2 : S → Fin m → ℝ

/-- What `update` does to the critics, `soft_actor_critic.py:310-315`: both critics are fitted to the target, up to the error
`ε`, and the target critics follow. -/
structure Update (M : Env S (Fin m) O) (mu : S → Fin m → ℝ) (gamma temperature tau ε : ℝ) (n : ℕ) (pi : S → Fin m → ℝ)
    (c c' : Critics S m) : Prop where
  q1 : ∀ s a, |c'.q1 s a - sacFit M mu gamma temperature n pi c.t1 c.t2 s a| ≤ ε
  q2 : ∀ s a, |c'.q2 s a - sacFit M mu gamma temperature n pi c.t1 c.t2 s a| ≤ ε
  t1 : c'.t1 = sync tau c.t1 c'.q1
  t2 : c'.t2 = sync tau c.t2 c'.q2

/-! ## Specification -/

/-- Rewards plus temperature times the entropy of the policy, discounted. -/
noncomputable def Spec.softReturn (gamma temperature : ℝ) (pi : S → Fin m → ℝ) : List (Step S (Fin m)) → ℝ
  | [] => 0
  | x :: tr => temperature * entropy (pi x.s) + x.out.reward + gamma * Spec.softReturn gamma temperature pi tr

/-- Soft values of a policy: the entropies of the current and all later states count as rewards. -/
structure Spec.SoftValues (M : Env S (Fin m) O) (pi : S → Fin m → ℝ) (gamma temperature : ℝ) (V : S → ℝ)
    (Q : S → Fin m → ℝ) : Prop where
  q : ∀ s a, Q s a = ∑ o, M.prob s a o *
    ((M.out s a o).reward + gamma * if (M.out s a o).done then 0 else V (M.out s a o).next)
  v : ∀ s, V s = temperature * entropy (pi s) + ∑ a, pi s a * Q s a

/-- A probability distribution. -/
structure Spec.Distribution (p : Fin m → ℝ) : Prop where
  nonneg : ∀ a, 0 ≤ p a
  sum : ∑ a, p a = 1

/-- In every state the policy loss of `pi` exceeds that of no distribution by more than `δ`. -/
structure Spec.Minimises (temperature δ : ℝ) (q1 q2 pi : S → Fin m → ℝ) : Prop where
  dist : ∀ s, Spec.Distribution (pi s)
  le : ∀ s p, Spec.Distribution p → policyLoss Measure.count temperature (q1 s) (q2 s) (pi s)
    ≤ policyLoss Measure.count temperature (q1 s) (q2 s) p + δ

/-- The optimal soft values: no policy has larger ones, and one policy has them. -/
structure Spec.SoftOptimal (M : Env S (Fin m) O) (gamma temperature : ℝ) (V : S → ℝ) (Q : S → Fin m → ℝ) : Prop where
  best : ∀ pi V' Q', (∀ s, Spec.Distribution (pi s)) → Spec.SoftValues M pi gamma temperature V' Q' →
    (∀ s, V' s ≤ V s) ∧ ∀ s a, Q' s a ≤ Q s a
  attained : ∃ pi, (∀ s, Spec.Distribution (pi s)) ∧ Spec.SoftValues M pi gamma temperature V Q

/-! ## Lemmas -/

/-- The inequality behind the policy loss. -/
theorem gibbs {p g : ℝ} (hp : 0 ≤ p) (hg : 0 < g) :
    p - g ≤ p * Real.log p - p * Real.log g ∧ (p * Real.log p - p * Real.log g = p - g → p = g) := by
  rcases hp.eq_or_lt with rfl | hp
  · simp only [zero_mul, sub_zero, zero_sub]
    exact ⟨by linarith, fun h => by linarith⟩
  have e : p * Real.log p - p * Real.log g = -(p * Real.log (g / p)) := by
    rw [Real.log_div hg.ne' hp.ne']
    ring
  have hm : p * (g / p - 1) = g - p := by
    rw [mul_sub, mul_div_cancel₀ _ hp.ne', mul_one]
  have hpos : 0 < g / p := div_pos hg hp
  constructor
  · rw [e]
    have := mul_le_mul_of_nonneg_left (Real.log_le_sub_one_of_pos hpos) hp.le
    linarith
  · intro h
    by_contra hne
    have h1 : g / p ≠ 1 := fun h => hne (by rw [div_eq_one_iff_eq hp.ne'] at h; exact h.symm)
    have := mul_lt_mul_of_pos_left (Real.log_lt_sub_one_of_pos hpos h1) hp
    rw [e] at h
    linarith

theorem policyLoss_count (temperature : ℝ) (q1 q2 p : Fin m → ℝ) :
    policyLoss Measure.count temperature q1 q2 p
      = ∑ a, p a * (temperature * Real.log (p a) - min (q1 a) (q2 a)) := by
  rw [policyLoss, integral_fintype (Integrable.of_finite)]
  simp

/-- What is bootstrapped in state `s`, on average. -/
noncomputable def softV (temperature : ℝ) (pi q1 q2 : S → Fin m → ℝ) (s : S) : ℝ :=
  ∑ a, pi s a * (min (q1 s a) (q2 s a) - temperature * Real.log (pi s a))

theorem softV_loss (temperature : ℝ) (pi q1 q2 : S → Fin m → ℝ) (s : S) :
    softV temperature pi q1 q2 s = -policyLoss Measure.count temperature (q1 s) (q2 s) (pi s) := by
  rw [policyLoss_count, softV, ← sum_neg_distrib]
  exact sum_congr rfl fun a _ => by ring

theorem backup_average {gamma : ℝ} {w : Fin m → ℝ} (hw : ∑ a, w a = 1) (x : Fin m → S → ℝ) :
    ∀ exp : List (Trans S Nat ℝ), exp ≠ [] →
      ∑ a, w a * Batch.Spec.backup gamma (x a) exp = Batch.Spec.backup gamma (fun s => ∑ a, w a * x a s) exp := by
  have key : ∀ (r : ℝ) (b : Bool) (y : Fin m → ℝ), ∑ a, w a * (r + gamma * if b = true then 0 else y a)
      = r + gamma * if b = true then 0 else ∑ a, w a * y a := by
    intro r b y
    cases b
    · simp only [Bool.false_eq_true, if_false, mul_add, sum_add_distrib, ← sum_mul, hw, one_mul, mul_sum]
      exact congrArg _ (sum_congr rfl fun a _ => by ring)
    · simp only [if_true, mul_zero, add_zero, ← sum_mul, hw, one_mul]
  intro exp
  induction exp with
  | nil => intro h; exact absurd rfl h
  | cons t rest ih =>
    intro _
    cases rest with
    | nil => exact key t.reward t.terminal fun a => x a t.nextState
    | cons t' rest =>
      have e : ∀ V : S → ℝ, Batch.Spec.backup gamma V (t :: t' :: rest)
        = t.reward + gamma * if t.terminal = true then 0 else Batch.Spec.backup gamma V (t' :: rest) := fun _ => rfl
      simp only [e]
      rw [key, ih (by simp)]

theorem backup_last {gamma : ℝ} {V V' : S → ℝ} : ∀ (exp : List (Trans S Nat ℝ)) (t : Trans S Nat ℝ),
    exp.getLast? = some t → V t.nextState = V' t.nextState → Batch.Spec.backup gamma V exp = Batch.Spec.backup gamma V' exp := by
  intro exp
  induction exp with
  | nil => intro t h; cases h
  | cons x rest ih =>
    intro t h hV
    cases rest with
    | nil =>
      simp only [List.getLast?_singleton, Option.some.injEq] at h
      subst h
      simp only [Batch.Spec.backup, hV]
    | cons y rest =>
      have e : ∀ V : S → ℝ, Batch.Spec.backup gamma V (x :: y :: rest)
        = x.reward + gamma * if x.terminal = true then 0 else Batch.Spec.backup gamma V (y :: rest) := fun _ => rfl
      rw [e, e, ih t (by rw [← h, List.getLast?_cons_cons]) hV]

theorem sacTarget_eq {gamma temperature : ℝ} {pi q1 q2 : S → Fin m → ℝ} (hpi : ∀ s, Spec.Distribution (pi s))
    {exp : List (Trans S Nat ℝ)} (hne : exp ≠ []) (hl : Batch.Spec.TerminalOnlyLast exp) :
    sacTarget gamma temperature pi q1 q2 exp = some (Batch.Spec.backup gamma (softV temperature pi q1 q2) exp) := by
  obtain ⟨t, ht⟩ : ∃ t, exp.getLast? = some t := ⟨_, List.getLast?_eq_some_getLast hne⟩
  have h : ∀ a, (targetOf gamma (fun out =>
      some (sacTargets temperature (fun _ _ => a) (fun s a => Real.log (pi s a)) q1 q2 out)) exp).getD 0
        = Batch.Spec.backup gamma (fun s => min (q1 s a) (q2 s a) - temperature * Real.log (pi s a)) exp := by
    intro a
    obtain ⟨out, h1, h2, h3⟩ := sac_targets id gamma (exps := [exp]) (by simp) (by simpa using hne) temperature
      (fun _ _ => a) (fun s a => Real.log (pi s a)) q1 q2
    have h4 := h3 0 exp rfl hl
    simp only [targetOf, h1, Option.bind_some]
    rw [List.head?_eq_getElem?, h4]
    rfl
  simp only [sacTarget, ht, Option.map_some, Option.some.injEq, h]
  rw [backup_average (hpi t.nextState).sum (fun a s => min (q1 s a) (q2 s a) - temperature * Real.log (pi s a)) exp hne]
  exact backup_last exp t ht rfl

theorem sacFit_one {M : Env S (Fin m) O} {mu : S → Fin m → ℝ} {gamma temperature : ℝ} {pi q1 q2 : S → Fin m → ℝ}
    (hpi : ∀ s, Spec.Distribution (pi s)) (s : S) (a : Fin m) :
    sacFit M mu gamma temperature 1 pi q1 q2 s a = bell M gamma (softV temperature pi q1 q2) s a := by
  rw [sacFit, Iteration.fit_one, bell]
  refine sum_congr rfl fun o _ => ?_
  rw [sacTarget_eq hpi (by simp) (by simp [Batch.Spec.TerminalOnlyLast])]
  rfl

theorem softV_abs {temperature d : ℝ} {pi q1 q2 Q : S → Fin m → ℝ} (hpi : ∀ s, Spec.Distribution (pi s))
    (h1 : ∀ s a, |q1 s a - Q s a| ≤ d) (h2 : ∀ s a, |q2 s a - Q s a| ≤ d) (s : S) :
    |softV temperature pi q1 q2 s - softV temperature pi Q Q s| ≤ d := by
  have hd : d = ∑ a, pi s a * d := by rw [← sum_mul, (hpi s).sum, one_mul]
  rw [softV, softV, ← sum_sub_distrib, hd]
  refine (abs_sum_le_sum_abs _ _).trans (sum_le_sum fun a _ => ?_)
  rw [← mul_sub, abs_mul, abs_of_nonneg ((hpi s).nonneg a), min_self, sub_sub_sub_cancel_right]
  refine mul_le_mul_of_nonneg_left ?_ ((hpi s).nonneg a)
  have g1 := abs_le.1 (h1 s a)
  have g2 := abs_le.1 (h2 s a)
  rw [abs_le]
  rcases min_choice (q1 s a) (q2 s a) with h | h <;> rw [h]
  · exact g1
  · exact g2

theorem softV_mono {temperature d : ℝ} {pi q Q : S → Fin m → ℝ} (hpi : ∀ s, Spec.Distribution (pi s))
    (h : ∀ s a, q s a ≤ Q s a + d) (s : S) : softV temperature pi q q s ≤ softV temperature pi Q Q s + d := by
  have hd : d = ∑ a, pi s a * d := by rw [← sum_mul, (hpi s).sum, one_mul]
  rw [softV, softV, hd, ← sum_add_distrib]
  refine sum_le_sum fun a _ => ?_
  rw [← mul_add, min_self, min_self]
  refine mul_le_mul_of_nonneg_left ?_ ((hpi s).nonneg a)
  have := h s a
  linarith

/-- The soft value equations in terms of `softV` and `bell`. -/
theorem softValues_iff {M : Env S (Fin m) O} {pi : S → Fin m → ℝ} {gamma temperature : ℝ} {V : S → ℝ} {Q : S → Fin m → ℝ} :
    Spec.SoftValues M pi gamma temperature V Q ↔ Q = bell M gamma V ∧ ∀ s, V s = softV temperature pi Q Q s := by
  have e : ∀ s, softV temperature pi Q Q s = temperature * entropy (pi s) + ∑ a, pi s a * Q s a := fun s => by
    rw [softV, entropy, mul_neg, mul_sum, neg_add_eq_sub, ← sum_sub_distrib]
    exact sum_congr rfl fun a _ => by rw [min_self]; ring
  constructor
  · intro h
    exact ⟨funext fun s => funext fun a => h.q s a, fun s => by rw [e, h.v]⟩
  · rintro ⟨rfl, h⟩
    exact ⟨fun s a => rfl, fun s => by rw [← e, h]⟩

/-- The policy of the smallest loss. -/
noncomputable def boltzmann (temperature : ℝ) (q : Fin m → ℝ) (a : Fin m) : ℝ :=
  Real.exp (q a / temperature) / ∑ i, Real.exp (q i / temperature)

/-- Minus its loss. -/
noncomputable def lse (temperature : ℝ) (q : Fin m → ℝ) : ℝ := temperature * Real.log (∑ i, Real.exp (q i / temperature))

section boltzmann
variable [NeZero m] {temperature : ℝ}

theorem boltzmann_pos (q : Fin m → ℝ) (a : Fin m) : 0 < boltzmann temperature q a :=
  div_pos (Real.exp_pos _) (sum_pos (fun _ _ => Real.exp_pos _) univ_nonempty)

theorem boltzmann_dist (q : Fin m → ℝ) : Spec.Distribution (boltzmann temperature q) := by
  refine ⟨fun a => (boltzmann_pos q a).le, ?_⟩
  simp only [boltzmann, ← sum_div]
  exact div_self (sum_pos (fun _ _ => Real.exp_pos _) univ_nonempty).ne'

theorem boltzmann_log (ht : 0 < temperature) (q : Fin m → ℝ) (a : Fin m) :
    temperature * Real.log (boltzmann temperature q a) = q a - lse temperature q := by
  rw [boltzmann, Real.log_div (Real.exp_pos _).ne' (sum_pos (fun _ _ => Real.exp_pos _) univ_nonempty).ne', Real.log_exp, lse,
    mul_sub, mul_div_cancel₀ _ ht.ne']

theorem le_lse (ht : 0 < temperature) (q p : Fin m → ℝ) (hp : Spec.Distribution p) :
    ∑ a, p a * (q a - temperature * Real.log (p a)) ≤ lse temperature q := by
  have h : ∀ a, p a * (q a - temperature * Real.log (p a))
      ≤ p a * lse temperature q - temperature * (p a - boltzmann temperature q a) := fun a => by
    have h1 := mul_le_mul_of_nonneg_left (gibbs (hp.nonneg a) (boltzmann_pos (temperature := temperature) q a)).1 ht.le
    have h2 := congrArg (p a * ·) (boltzmann_log ht q a)
    linarith
  refine (sum_le_sum fun a _ => h a).trans (le_of_eq ?_)
  rw [sum_sub_distrib, ← sum_mul, ← mul_sum, sum_sub_distrib, hp.sum, (boltzmann_dist q).sum]
  ring

theorem boltzmann_lse (ht : 0 < temperature) (q : Fin m → ℝ) :
    ∑ a, boltzmann temperature q a * (q a - temperature * Real.log (boltzmann temperature q a)) = lse temperature q := by
  simp only [boltzmann_log ht, sub_sub_cancel]
  rw [← sum_mul, (boltzmann_dist q).sum, one_mul]

theorem lse_mono (ht : 0 < temperature) {q q' : Fin m → ℝ} {d : ℝ} (h : ∀ a, q a ≤ q' a + d) :
    lse temperature q ≤ lse temperature q' + d := by
  have h1 := le_lse ht q' _ (boltzmann_dist (temperature := temperature) q)
  have hd : d = ∑ a, boltzmann temperature q a * d := by rw [← sum_mul, (boltzmann_dist q).sum, one_mul]
  rw [← boltzmann_lse ht q, hd]
  refine le_trans ?_ (add_le_add_left h1 _)
  rw [← sum_add_distrib]
  refine sum_le_sum fun a _ => ?_
  rw [← mul_add]
  refine mul_le_mul_of_nonneg_left ?_ (boltzmann_pos q a).le
  have := h a
  linarith

theorem lse_abs (ht : 0 < temperature) {q q' : Fin m → ℝ} {d : ℝ} (h : ∀ a, |q a - q' a| ≤ d) :
    |lse temperature q - lse temperature q'| ≤ d := by
  have h1 := lse_mono ht (q := q) (q' := q') (d := d) fun a => by have := (abs_le.1 (h a)).2; linarith
  have h2 := lse_mono ht (q := q') (q' := q) (d := d) fun a => by have := (abs_le.1 (h a)).1; linarith
  rw [abs_le]
  constructor <;> linarith

/-- A policy of almost the smallest loss. -/
theorem minimises_softV (ht : 0 < temperature) {δ : ℝ} {q1 q2 pi : S → Fin m → ℝ} (h : Spec.Minimises temperature δ q1 q2 pi)
    (s : S) : softV temperature pi q1 q2 s ≤ lse temperature (fun a => min (q1 s a) (q2 s a)) ∧
      lse temperature (fun a => min (q1 s a) (q2 s a)) - δ ≤ softV temperature pi q1 q2 s := by
  refine ⟨le_lse ht _ _ (h.dist s), ?_⟩
  have h1 := h.le s _ (boltzmann_dist (temperature := temperature) fun a => min (q1 s a) (q2 s a))
  have h2 := boltzmann_lse ht fun a => min (q1 s a) (q2 s a)
  rw [softV_loss]
  rw [policyLoss_count _ _ _ (boltzmann _ _)] at h1
  have h3 : ∑ a, boltzmann temperature (fun a => min (q1 s a) (q2 s a)) a
      * (temperature * Real.log (boltzmann temperature (fun a => min (q1 s a) (q2 s a)) a) - min (q1 s a) (q2 s a))
      = -lse temperature fun a => min (q1 s a) (q2 s a) := by
    rw [← h2, ← sum_neg_distrib]
    exact sum_congr rfl fun a _ => by ring
  rw [h3] at h1
  linarith

theorem boltzmann_minimises (ht : 0 < temperature) (q1 q2 : S → Fin m → ℝ) :
    Spec.Minimises temperature 0 q1 q2 fun s => boltzmann temperature fun a => min (q1 s a) (q2 s a) := by
  refine ⟨fun s => boltzmann_dist _, fun s p hp => ?_⟩
  have h1 := le_lse ht (fun a => min (q1 s a) (q2 s a)) p hp
  rw [← boltzmann_lse ht, ← neg_le_neg_iff, ← sum_neg_distrib, ← sum_neg_distrib] at h1
  rw [policyLoss_count, policyLoss_count, add_zero]
  refine le_of_eq_of_le ?_ (h1.trans_eq ?_) <;> exact sum_congr rfl fun a _ => by ring

end boltzmann

/-- The optimality equations. -/
def Bellman (M : Env S (Fin m) O) (gamma temperature : ℝ) (V : S → ℝ) (Q : S → Fin m → ℝ) : Prop :=
  Q = bell M gamma V ∧ ∀ s, V s = lse temperature (Q s)

section optimal
variable [Fintype S] [NeZero m] {M : Env S (Fin m) O} {gamma temperature : ℝ} {V : S → ℝ} {Q : S → Fin m → ℝ}

theorem bellman_exists (hprob : ∀ s a o, 0 ≤ M.prob s a o) (h0 : 0 ≤ gamma) (h1 : gamma < 1) (ht : 0 < temperature) :
    ∃ V Q, Bellman M gamma temperature V Q := by
  let T : (S → ℝ) → S → ℝ := fun V s => lse temperature (bell M gamma V s)
  have hc : ContractingWith gamma.toNNReal T := by
    refine ⟨by rw [← NNReal.coe_lt_coe, Real.coe_toNNReal _ h0]; exact h1, LipschitzWith.of_dist_le_mul fun V V' => ?_⟩
    rw [Real.coe_toNNReal _ h0, dist_pi_le_iff (mul_nonneg h0 dist_nonneg)]
    intro s
    rw [Real.dist_eq]
    refine lse_abs ht fun a => Iteration.bell_abs hprob h0 dist_nonneg (fun s => ?_) s a
    rw [← Real.dist_eq]
    exact dist_le_pi_dist V V' s
  exact ⟨hc.fixedPoint, _, rfl, fun s => (congrFun hc.fixedPoint_isFixedPt s).symm⟩

theorem bellman_values (ht : 0 < temperature) (h : Bellman M gamma temperature V Q) :
    Spec.SoftValues M (fun s => boltzmann temperature (Q s)) gamma temperature V Q := by
  refine softValues_iff.2 ⟨h.1, fun s => ?_⟩
  rw [h.2 s, ← boltzmann_lse ht, softV]
  simp only [min_self]

theorem bellman_optimal (hprob : ∀ s a o, 0 ≤ M.prob s a o) (h0 : 0 ≤ gamma) (h1 : gamma < 1) (ht : 0 < temperature)
    (h : Bellman M gamma temperature V Q) : Spec.SoftOptimal M gamma temperature V Q := by
  refine ⟨fun pi V' Q' hpi hV' => ?_, _, fun s => boltzmann_dist _, bellman_values ht h⟩
  obtain ⟨rfl, e⟩ := softValues_iff.1 hV'
  obtain ⟨rfl, e'⟩ := h
  have hv : ∀ s, V' s ≤ V s := fun s => by
    have := Iteration.nonpos_of_shrinks h0 h1 (f := fun s => V' s - V s) (fun d hd hf s => by
      have h2 := lse_mono ht (q := bell M gamma V' s) (q' := bell M gamma V s) (d := gamma * d) fun a =>
        Iteration.bell_le hprob h0 hd (fun s => by have := hf s; linarith) s a
      have h3 := le_lse ht (bell M gamma V' s) (pi s) (hpi s)
      have h4 : V' s = ∑ a, pi s a * (bell M gamma V' s a - temperature * Real.log (pi s a)) := by
        rw [e, softV]
        simp only [min_self]
      rw [e' s]
      linarith) s
    linarith
  refine ⟨hv, fun s a => ?_⟩
  have := Iteration.bell_le hprob h0 le_rfl (V := V') (V' := V) (fun s => by have := hv s; linarith) s a
  linarith

theorem optimal_bellman (hprob : ∀ s a o, 0 ≤ M.prob s a o) (h0 : 0 ≤ gamma) (h1 : gamma < 1) (ht : 0 < temperature)
    (h : Spec.SoftOptimal M gamma temperature V Q) : Bellman M gamma temperature V Q := by
  obtain ⟨V', Q', h'⟩ := bellman_exists (M := M) hprob h0 h1 ht
  have ho := bellman_optimal hprob h0 h1 ht h'
  obtain ⟨pi, hpi, hv⟩ := h.attained
  obtain ⟨pi', hpi', hv'⟩ := ho.attained
  have g1 := ho.best _ _ _ hpi hv
  have g2 := h.best _ _ _ hpi' hv'
  have e1 : V = V' := funext fun s => le_antisymm (g1.1 s) (g2.1 s)
  have e2 : Q = Q' := funext fun s => funext fun a => le_antisymm (g1.2 s a) (g2.2 s a)
  rw [e1, e2]
  exact h'

end optimal

/-! ## C106 -/

/-- **C106, the policy loss.** For any action space and any policy with a density: the loss is smallest for the policy whose
density is proportional to the exponential of the smaller critic divided by the temperature, and for no other. -/
theorem sac_policy_loss {A : Type*} [MeasurableSpace A] (mu : Measure A) {temperature : ℝ} (ht : 0 < temperature)
    (q1 q2 p : A → ℝ) (hp : ∀ a, 0 ≤ p a) (hp1 : ∫ a, p a ∂mu = 1)
    (hZ : Integrable (fun a => Real.exp (min (q1 a) (q2 a) / temperature)) mu)
    (hL : Integrable (fun a => p a * (temperature * Real.log (p a) - min (q1 a) (q2 a))) mu) :
    let b : A → ℝ := fun a => Real.exp (min (q1 a) (q2 a) / temperature)
      / ∫ a, Real.exp (min (q1 a) (q2 a) / temperature) ∂mu
    ∫ a, b a ∂mu = 1 ∧ policyLoss mu temperature q1 q2 b ≤ policyLoss mu temperature q1 q2 p ∧
      (policyLoss mu temperature q1 q2 p = policyLoss mu temperature q1 q2 b ↔ p =ᵐ[mu] b) := by
  intro b
  set Z := ∫ a, Real.exp (min (q1 a) (q2 a) / temperature) ∂mu with hZdef
  have hpi : Integrable p mu := by
    by_contra h
    rw [integral_undef h] at hp1
    exact one_ne_zero hp1.symm
  have hmu : mu ≠ 0 := by
    rintro rfl
    simp at hp1
  have hZ0 : 0 < Z := by
    rw [hZdef, integral_pos_iff_support_of_nonneg (fun a => (Real.exp_pos _).le) hZ]
    have : (Function.support fun a => Real.exp (min (q1 a) (q2 a) / temperature)) = Set.univ :=
      Set.eq_univ_of_forall fun a => (Real.exp_pos _).ne'
    rw [this]
    exact (Measure.measure_univ_pos).2 hmu
  have hb0 : ∀ a, 0 < b a := fun a => div_pos (Real.exp_pos _) hZ0
  have hbi : Integrable b mu := hZ.div_const Z
  have hb1 : ∫ a, b a ∂mu = 1 := by
    change ∫ a, Real.exp (min (q1 a) (q2 a) / temperature) / Z ∂mu = 1
    rw [integral_div, ← hZdef, div_self hZ0.ne']
  have hlog : ∀ a, Real.log (b a) = min (q1 a) (q2 a) / temperature - Real.log Z := fun a => by
    change Real.log (_ / Z) = _
    rw [Real.log_div (Real.exp_pos _).ne' hZ0.ne', Real.log_exp]
  -- the integrand of the loss, shifted by a multiple of `p - b`
  let f : A → ℝ := fun a => p a * (temperature * Real.log (p a) - min (q1 a) (q2 a)) + temperature * Real.log Z * p a
    - temperature * (p a - b a)
  have hf : ∀ a, f a = temperature * (p a * Real.log (p a) - p a * Real.log (b a) - (p a - b a)) := fun a => by
    simp only [f, hlog]
    field_simp
    ring
  have hf0 : ∀ a, 0 ≤ f a := fun a => by
    rw [hf]
    exact mul_nonneg ht.le (sub_nonneg.2 (gibbs (hp a) (hb0 a)).1)
  have hi1 : Integrable (fun a => p a * (temperature * Real.log (p a) - min (q1 a) (q2 a)) + temperature * Real.log Z * p a) mu :=
    hL.add (hpi.const_mul _)
  have hi2 : Integrable (fun a => temperature * (p a - b a)) mu := (hpi.sub hbi).const_mul _
  have hfi : Integrable f mu := hi1.sub hi2
  have hfe : ∫ a, f a ∂mu = policyLoss mu temperature q1 q2 p + temperature * Real.log Z := by
    simp only [f]
    rw [integral_sub hi1 hi2, integral_add hL (hpi.const_mul _),
      integral_const_mul, integral_const_mul, integral_sub hpi hbi, hp1, hb1, policyLoss]
    ring
  have hbl : policyLoss mu temperature q1 q2 b = -(temperature * Real.log Z) := by
    have : ∀ a, b a * (temperature * Real.log (b a) - min (q1 a) (q2 a)) = -(temperature * Real.log Z) * b a := fun a => by
      rw [hlog]
      field_simp
      ring
    rw [policyLoss]
    simp only [this]
    rw [integral_const_mul, hb1, mul_one]
  refine ⟨hb1, ?_, ?_⟩
  · have := integral_nonneg (μ := mu) (f := f) (fun a => hf0 a)
    rw [hbl]
    linarith
  · have h1 : policyLoss mu temperature q1 q2 p = policyLoss mu temperature q1 q2 b ↔ ∫ a, f a ∂mu = 0 := by
      rw [hfe, hbl]
      constructor <;> intro h <;> linarith
    rw [h1, integral_eq_zero_iff_of_nonneg hf0 hfi]
    refine ⟨fun h => h.mono fun a ha => ?_, fun h => h.mono fun a ha => ?_⟩
    · refine (gibbs (hp a) (hb0 a)).2 ?_
      have h2 : temperature * (p a * Real.log (p a) - p a * Real.log (b a) - (p a - b a)) = 0 := by rw [← hf]; exact ha
      rcases mul_eq_zero.1 h2 with h3 | h3
      · exact absurd h3 ht.ne'
      · linarith
    · change f a = 0
      rw [hf, ha]
      ring

/-- **C106, soft values.** They are the expected discounted sums of rewards and entropies: the sum over the first `k` steps
differs by at most `gamma ^ k` times the largest value. -/
theorem soft_values_return {M : Env S (Fin m) O} {pi : S → Fin m → ℝ} (hprob : ∀ s a o, 0 ≤ M.prob s a o)
    (hpi : ∀ s, Spec.Distribution (pi s)) {gamma temperature : ℝ} (h0 : 0 ≤ gamma) {V : S → ℝ} {Q : S → Fin m → ℝ}
    (hV : Spec.SoftValues M pi gamma temperature V Q) {d : ℝ} (hd : ∀ s, |V s| ≤ d) (k : ℕ) (s : S) :
    |V s - M.expect (fun o => o.done) pi k s fun tr _ => Spec.softReturn gamma temperature pi tr| ≤ gamma ^ k * d := by
  obtain ⟨rfl, _⟩ := softValues_iff.1 hV
  have hd0 : 0 ≤ d := (abs_nonneg _).trans (hd s)
  have hE : ∀ k s, (M.expect (fun o => o.done) pi (k + 1) s fun tr _ => Spec.softReturn gamma temperature pi tr)
      = temperature * entropy (pi s) + ∑ a, pi s a * bell M gamma (fun s =>
        M.expect (fun o => o.done) pi k s fun tr _ => Spec.softReturn gamma temperature pi tr) s a := by
    intro k s
    have hc : temperature * entropy (pi s)
        = ∑ a, pi s a * ∑ o, M.prob s a o * (temperature * entropy (pi s)) := by
      simp only [← sum_mul, M.sum_prob, one_mul, (hpi s).sum]
    rw [hc, ← sum_add_distrib]
    simp only [Env.expect, Env.choose]
    refine sum_congr rfl fun a _ => ?_
    rw [← mul_add, bell, ← sum_add_distrib]
    refine congrArg _ (sum_congr rfl fun o _ => ?_)
    rw [← mul_add]
    refine congrArg _ ?_
    by_cases h : (M.out s a o).done = true
    · simp only [if_pos h, Spec.softReturn]
      ring
    · simp only [if_neg h, Spec.softReturn]
      rw [Returns.PG.expect_add M k _ (fun _ _ => temperature * entropy (pi s) + (M.out s a o).reward),
        Returns.PG.expect_const M fun s => (hpi s).sum, Returns.PG.expect_mul]
      ring
  induction k generalizing s with
  | zero => simpa [Env.expect, Spec.softReturn] using hd s
  | succ k ih =>
    rw [hE, hV.v, add_sub_add_left_eq_sub, ← sum_sub_distrib]
    have hs : gamma ^ (k + 1) * d = ∑ a, pi s a * (gamma * (gamma ^ k * d)) := by
      rw [← sum_mul, (hpi s).sum, one_mul, pow_succ']
      ring
    rw [hs]
    refine (abs_sum_le_sum_abs _ _).trans (sum_le_sum fun a _ => ?_)
    rw [← mul_sub, abs_mul, abs_of_nonneg ((hpi s).nonneg a)]
    exact mul_le_mul_of_nonneg_left
      (Iteration.bell_abs hprob h0 (mul_nonneg (pow_nonneg h0 k) hd0) (fun s => ih s) s a) ((hpi s).nonneg a)

/-- Every policy has soft values, and optimal soft values exist. -/
theorem soft_values_exist [Fintype S] [NeZero m] {M : Env S (Fin m) O} (hprob : ∀ s a o, 0 ≤ M.prob s a o) {gamma temperature : ℝ}
    (h0 : 0 ≤ gamma) (h1 : gamma < 1) :
    (∀ pi : S → Fin m → ℝ, (∀ s, Spec.Distribution (pi s)) → ∃ V Q, Spec.SoftValues M pi gamma temperature V Q) ∧
      (0 < temperature → ∃ V Q, Spec.SoftOptimal M gamma temperature V Q) := by
  refine ⟨fun pi hpi => ?_, fun ht => ?_⟩
  · let T : (S → ℝ) → S → ℝ := fun V => softV temperature pi (bell M gamma V) (bell M gamma V)
    have hc : ContractingWith gamma.toNNReal T := by
      refine ⟨by rw [← NNReal.coe_lt_coe, Real.coe_toNNReal _ h0]; exact h1, LipschitzWith.of_dist_le_mul fun V V' => ?_⟩
      rw [Real.coe_toNNReal _ h0, dist_pi_le_iff (mul_nonneg h0 dist_nonneg)]
      intro s
      rw [Real.dist_eq]
      have hb : ∀ s a, |bell M gamma V s a - bell M gamma V' s a| ≤ gamma * dist V V' := fun s a =>
        Iteration.bell_abs hprob h0 dist_nonneg (fun s => by rw [← Real.dist_eq]; exact dist_le_pi_dist V V' s) s a
      exact softV_abs hpi hb hb s
    exact ⟨hc.fixedPoint, _, softValues_iff.2 ⟨rfl, fun s => (congrFun hc.fixedPoint_isFixedPt s).symm⟩⟩
  · obtain ⟨V, Q, h⟩ := bellman_exists hprob h0 h1 ht
    exact ⟨V, Q, bellman_optimal hprob h0 h1 ht h⟩

/-- **C106, the critics.** While the policy stays the same, all four critics approach its soft values, whatever they are at
first and however slowly the target critics follow; the error of the fits costs at most `ε / (1 - gamma)`. -/
theorem sac_critics_partial {M : Env S (Fin m) O} (hprob : ∀ s a o, 0 ≤ M.prob s a o) {mu pi : S → Fin m → ℝ}
    (hpi : ∀ s, Spec.Distribution (pi s)) {gamma temperature tau ε d : ℝ} (h0 : 0 ≤ gamma) (h1 : gamma < 1) (ht0 : 0 ≤ tau)
    (ht1 : tau ≤ 1) {V : S → ℝ} {Q : S → Fin m → ℝ} (hV : Spec.SoftValues M pi gamma temperature V Q) (c : ℕ → Critics S m)
    (hc : ∀ k, Update M mu gamma temperature tau ε 1 pi (c k) (c (k + 1)))
    (hd : ∀ s a, |(c 0).t1 s a - Q s a| ≤ d ∧ |(c 0).t2 s a - Q s a| ≤ d) (k : ℕ) (s : S) (a : Fin m) :
    |(c k).t1 s a - Q s a| ≤ (1 - tau * (1 - gamma)) ^ k * d + ε / (1 - gamma) ∧
      |(c k).t2 s a - Q s a| ≤ (1 - tau * (1 - gamma)) ^ k * d + ε / (1 - gamma) ∧
      |(c (k + 1)).q1 s a - Q s a| ≤ (1 - tau * (1 - gamma)) ^ k * d + ε / (1 - gamma) ∧
      |(c (k + 1)).q2 s a - Q s a| ≤ (1 - tau * (1 - gamma)) ^ k * d + ε / (1 - gamma) := by
  obtain ⟨rfl, hv⟩ := softValues_iff.1 hV
  have hg : 0 < 1 - gamma := by linarith
  have hd0 : 0 ≤ d := (abs_nonneg _).trans (hd s a).1
  have hε : 0 ≤ ε := (abs_nonneg _).trans ((hc 0).q1 s a)
  have hr : 0 ≤ 1 - tau * (1 - gamma) := by nlinarith
  have hE : 0 ≤ ε / (1 - gamma) := div_nonneg hε hg.le
  have hEe : ε / (1 - gamma) * (1 - gamma) = ε := div_mul_cancel₀ _ hg.ne'
  -- one update
  have step : ∀ k e, (∀ s a, |(c k).t1 s a - bell M gamma V s a| ≤ e ∧ |(c k).t2 s a - bell M gamma V s a| ≤ e) → 0 ≤ e →
      ∀ s a, |(c (k + 1)).q1 s a - bell M gamma V s a| ≤ gamma * e + ε ∧
        |(c (k + 1)).q2 s a - bell M gamma V s a| ≤ gamma * e + ε := by
    intro k e h he s a
    have hf : |sacFit M mu gamma temperature 1 pi (c k).t1 (c k).t2 s a - bell M gamma V s a| ≤ gamma * e := by
      rw [sacFit_one hpi]
      refine Iteration.bell_abs hprob h0 he (fun s => ?_) s a
      rw [hv s]
      exact softV_abs hpi (fun s a => (h s a).1) (fun s a => (h s a).2) s
    have g1 := abs_sub_le ((c (k + 1)).q1 s a) (sacFit M mu gamma temperature 1 pi (c k).t1 (c k).t2 s a) (bell M gamma V s a)
    have g2 := abs_sub_le ((c (k + 1)).q2 s a) (sacFit M mu gamma temperature 1 pi (c k).t1 (c k).t2 s a) (bell M gamma V s a)
    have := (hc k).q1 s a
    have := (hc k).q2 s a
    constructor <;> linarith
  have mix : ∀ t q x e : ℝ, |t - x| ≤ e → |q - x| ≤ gamma * e + ε →
      |t * (1 - tau) + tau * q - x| ≤ (1 - tau * (1 - gamma)) * e + tau * ε := by
    intro t q x e h1 h2
    have e1 : t * (1 - tau) + tau * q - x = (1 - tau) * (t - x) + tau * (q - x) := by ring
    rw [e1]
    refine (abs_add_le _ _).trans ?_
    rw [abs_mul, abs_mul, abs_of_nonneg ht0, abs_of_nonneg (sub_nonneg.2 ht1)]
    have := mul_le_mul_of_nonneg_left h1 (sub_nonneg.2 ht1)
    have := mul_le_mul_of_nonneg_left h2 ht0
    linarith
  have main : ∀ k, ∀ s a, |(c k).t1 s a - bell M gamma V s a| ≤ (1 - tau * (1 - gamma)) ^ k * d + ε / (1 - gamma) ∧
      |(c k).t2 s a - bell M gamma V s a| ≤ (1 - tau * (1 - gamma)) ^ k * d + ε / (1 - gamma) := by
    intro k
    induction k with
    | zero =>
      intro s a
      rw [pow_zero, one_mul]
      have := hd s a
      exact ⟨by linarith [this.1], by linarith [this.2]⟩
    | succ k ih =>
      intro s a
      have hs := step k _ ih (add_nonneg (mul_nonneg (pow_nonneg hr k) hd0) hE) s a
      have e : (1 - tau * (1 - gamma)) * ((1 - tau * (1 - gamma)) ^ k * d + ε / (1 - gamma)) + tau * ε
          = (1 - tau * (1 - gamma)) ^ (k + 1) * d + ε / (1 - gamma) := by
        rw [pow_succ]
        linear_combination (-tau) * hEe
      rw [(hc k).t1, (hc k).t2, ← e]
      exact ⟨mix _ _ _ _ (ih s a).1 hs.1, mix _ _ _ _ (ih s a).2 hs.2⟩
  have hk := main k s a
  have hpos : 0 ≤ (1 - tau * (1 - gamma)) ^ k * d := mul_nonneg (pow_nonneg hr k) hd0
  have hs := step k _ (main k) (add_nonneg hpos hE) s a
  have hle : gamma * ((1 - tau * (1 - gamma)) ^ k * d + ε / (1 - gamma)) + ε
      ≤ (1 - tau * (1 - gamma)) ^ k * d + ε / (1 - gamma) := by
    have := mul_nonneg hg.le hpos
    linarith
  exact ⟨hk.1, hk.2, hs.1.trans hle, hs.2.trans hle⟩

section
variable [Fintype S] [NeZero m] {M : Env S (Fin m) O} {gamma temperature : ℝ}

/-- **C106, policy improvement.** A policy of the smallest loss for the soft values of another policy has soft values at least
as large in every state and for every action; if the values are the same, they are optimal. -/
theorem sac_policy_improves (hprob : ∀ s a o, 0 ≤ M.prob s a o) (h0 : 0 ≤ gamma) (h1 : gamma < 1) (ht : 0 < temperature)
    {pi pi' : S → Fin m → ℝ} (hpi : ∀ s, Spec.Distribution (pi s)) {V V' : S → ℝ} {Q Q' : S → Fin m → ℝ}
    (hV : Spec.SoftValues M pi gamma temperature V Q) (hm : Spec.Minimises temperature 0 Q Q pi')
    (hV' : Spec.SoftValues M pi' gamma temperature V' Q') :
    (∀ s, V s ≤ V' s) ∧ (∀ s a, Q s a ≤ Q' s a) ∧ (V' = V → Spec.SoftOptimal M gamma temperature V Q) := by
  obtain ⟨rfl, e⟩ := softValues_iff.1 hV
  obtain ⟨rfl, e'⟩ := softValues_iff.1 hV'
  have hm' : ∀ s, softV temperature pi' (bell M gamma V) (bell M gamma V) s = lse temperature (bell M gamma V s) := fun s => by
    have := minimises_softV ht hm s
    simp only [min_self, sub_zero] at this
    exact le_antisymm this.1 this.2
  have hl : ∀ s, V s ≤ lse temperature (bell M gamma V s) := fun s => by
    have := le_lse ht (bell M gamma V s) (pi s) (hpi s)
    rw [e s, softV]
    simpa only [min_self] using this
  have hv : ∀ s, V s ≤ V' s := fun s => by
    have := Iteration.nonpos_of_shrinks h0 h1 (f := fun s => V s - V' s) (fun d hd hf s => by
      have h2 := softV_mono (temperature := temperature) hm.dist (q := bell M gamma V) (Q := bell M gamma V') (d := gamma * d)
        (fun s a => Iteration.bell_le hprob h0 hd (fun s => by have := hf s; linarith) s a) s
      rw [hm' s, ← e' s] at h2
      have := hl s
      linarith) s
    linarith
  refine ⟨hv, fun s a => ?_, fun he => ?_⟩
  · have := Iteration.bell_le hprob h0 le_rfl (V := V) (V' := V') (fun s => by have := hv s; linarith) s a
    linarith
  · subst he
    exact bellman_optimal hprob h0 h1 ht ⟨rfl, fun s => by rw [← hm', ← e']⟩

/-- **C106, policy iteration.** Critics and policy fitted in turn, each exactly: the soft values of the policies approach the
optimal ones. -/
theorem sac_policy_iteration (hprob : ∀ s a o, 0 ≤ M.prob s a o) (h0 : 0 ≤ gamma) (h1 : gamma < 1) (ht : 0 < temperature)
    {V : S → ℝ} {Q : S → Fin m → ℝ} (hQ : Spec.SoftOptimal M gamma temperature V Q) {pi q : ℕ → S → Fin m → ℝ}
    {v : ℕ → S → ℝ} (hpi : ∀ s, Spec.Distribution (pi 0 s)) (hv : ∀ k, Spec.SoftValues M (pi k) gamma temperature (v k) (q k))
    (hm : ∀ k, Spec.Minimises temperature 0 (q k) (q k) (pi (k + 1))) {d : ℝ} (hd : ∀ s, |v 0 s - V s| ≤ d) (k : ℕ) :
    (∀ s, |v k s - V s| ≤ gamma ^ k * d) ∧ ∀ s a, |q k s a - Q s a| ≤ gamma ^ (k + 1) * d := by
  have hdist : ∀ k s, Spec.Distribution (pi k s) := fun k => by
    cases k with
    | zero => exact hpi
    | succ k => exact (hm k).dist
  obtain ⟨rfl, eV⟩ := optimal_bellman hprob h0 h1 ht hQ
  have hup : ∀ k s, v k s ≤ V s := fun k => (hQ.best _ _ _ (hdist k) (hv k)).1
  have main : ∀ k s, V s - v k s ≤ gamma ^ k * d := by
    intro k
    induction k with
    | zero =>
      intro s
      have := (abs_le.1 (hd s)).1
      rw [pow_zero, one_mul]
      linarith
    | succ k ih =>
      intro s
      have hd0 : 0 ≤ d := (abs_nonneg _).trans (hd s)
      have hi := sac_policy_improves hprob h0 h1 ht (hdist k) (hv k) (hm k) (hv (k + 1))
      obtain ⟨e1, e2⟩ := softValues_iff.1 (hv k)
      obtain ⟨e3, e4⟩ := softValues_iff.1 (hv (k + 1))
      have g1 := lse_mono ht (q := bell M gamma V s) (q' := q k s) (d := gamma * (gamma ^ k * d)) fun a => by
        rw [e1]
        exact Iteration.bell_le hprob h0 (mul_nonneg (pow_nonneg h0 k) hd0) (fun s => by have := ih s; linarith) s a
      have g2 := (minimises_softV ht (hm k) s).2
      simp only [min_self, sub_zero] at g2
      have g3 := softV_mono (temperature := temperature) (hm k).dist (q := q k) (Q := q (k + 1)) (d := 0)
        (fun s a => by have := hi.2.1 s a; linarith) s
      rw [← e4 s] at g3
      rw [eV s, pow_succ']
      linarith
  have hv' : ∀ s, |v k s - V s| ≤ gamma ^ k * d := fun s => by
    rw [abs_le]
    have := main k s
    have := hup k s
    have : 0 ≤ gamma ^ k * d := mul_nonneg (pow_nonneg h0 k) ((abs_nonneg _).trans (hd s))
    constructor <;> linarith
  refine ⟨hv', fun s a => ?_⟩
  have hd0 : 0 ≤ d := (abs_nonneg _).trans (hd s)
  obtain ⟨e1, _⟩ := softValues_iff.1 (hv k)
  rw [e1, pow_succ', mul_assoc]
  exact Iteration.bell_abs hprob h0 (mul_nonneg (pow_nonneg h0 k) hd0) hv' s a

/-- **C106, updates in turn.** One fit of the critics, up to `ε`, then one of the policy, up to `δ`, and so on, with target
critics that are copies (`soft_update_tau = 1`): the critics approach the optimal soft values, up to
`(ε + gamma * δ) / (1 - gamma)`.  What is missing: `soft_update_tau < 1`. -/
theorem sac_control_partial (hprob : ∀ s a o, 0 ≤ M.prob s a o) (h0 : 0 ≤ gamma) (h1 : gamma < 1) (ht : 0 < temperature)
    {V : S → ℝ} {Q : S → Fin m → ℝ} (hQ : Spec.SoftOptimal M gamma temperature V Q) {mu : S → Fin m → ℝ} {ε δ d : ℝ}
    (hδ : 0 ≤ δ) (c : ℕ → Critics S m) (pi : ℕ → S → Fin m → ℝ) (hinit : (c 0).t1 = (c 0).q1 ∧ (c 0).t2 = (c 0).q2)
    (hc : ∀ k, Update M mu gamma temperature 1 ε 1 (pi k) (c k) (c (k + 1)))
    (hm : ∀ k, Spec.Minimises temperature δ (c k).q1 (c k).q2 (pi k))
    (hd : ∀ s a, |(c 0).q1 s a - Q s a| ≤ d ∧ |(c 0).q2 s a - Q s a| ≤ d) (k : ℕ) (s : S) (a : Fin m) :
    |(c k).q1 s a - Q s a| ≤ gamma ^ k * d + (ε + gamma * δ) / (1 - gamma) ∧
      |(c k).q2 s a - Q s a| ≤ gamma ^ k * d + (ε + gamma * δ) / (1 - gamma) := by
  obtain ⟨rfl, eV⟩ := optimal_bellman hprob h0 h1 ht hQ
  have hg : 0 < 1 - gamma := by linarith
  have hd0 : 0 ≤ d := (abs_nonneg _).trans (hd s a).1
  have hε : 0 ≤ ε := (abs_nonneg _).trans ((hc 0).q1 s a)
  have hE : 0 ≤ (ε + gamma * δ) / (1 - gamma) := div_nonneg (add_nonneg hε (mul_nonneg h0 hδ)) hg.le
  have hEe : (ε + gamma * δ) / (1 - gamma) * (1 - gamma) = ε + gamma * δ := div_mul_cancel₀ _ hg.ne'
  have hcopy : ∀ k, (c k).t1 = (c k).q1 ∧ (c k).t2 = (c k).q2 := by
    intro k
    cases k with
    | zero => exact hinit
    | succ k =>
      rw [(hc k).t1, (hc k).t2]
      constructor <;> (funext s a; simp [sync])
  induction k generalizing s a with
  | zero =>
    rw [pow_zero, one_mul]
    have := hd s a
    exact ⟨by linarith [this.1], by linarith [this.2]⟩
  | succ k ih =>
    set e := gamma ^ k * d + (ε + gamma * δ) / (1 - gamma) with he
    have he0 : 0 ≤ e := add_nonneg (mul_nonneg (pow_nonneg h0 k) hd0) hE
    have hf : |sacFit M mu gamma temperature 1 (pi k) (c k).t1 (c k).t2 s a - bell M gamma V s a| ≤ gamma * (e + δ) := by
      rw [sacFit_one (hm k).dist, (hcopy k).1, (hcopy k).2]
      refine Iteration.bell_abs hprob h0 (add_nonneg he0 hδ) (fun s => ?_) s a
      have g1 := minimises_softV ht (hm k) s
      have g2 := lse_abs ht (q := fun a => min ((c k).q1 s a) ((c k).q2 s a)) (q' := bell M gamma V s) (d := e) fun a => by
        have g3 := ih s a
        rcases min_choice ((c k).q1 s a) ((c k).q2 s a) with h | h <;> rw [h]
        · exact g3.1
        · exact g3.2
      rw [← eV s] at g2
      have g3 := abs_le.1 g2
      rw [abs_le]
      constructor <;> linarith [g3.1, g3.2, g1.1, g1.2]
    have g1 := abs_sub_le ((c (k + 1)).q1 s a) (sacFit M mu gamma temperature 1 (pi k) (c k).t1 (c k).t2 s a) (bell M gamma V s a)
    have g2 := abs_sub_le ((c (k + 1)).q2 s a) (sacFit M mu gamma temperature 1 (pi k) (c k).t1 (c k).t2 s a) (bell M gamma V s a)
    have g3 := (hc k).q1 s a
    have g4 := (hc k).q2 s a
    have e1 : gamma * (e + δ) + ε = gamma ^ (k + 1) * d + (ε + gamma * δ) / (1 - gamma) := by
      rw [he, pow_succ]
      linear_combination (-1 : ℝ) * hEe
    rw [← e1]
    constructor <;> linarith

end

/-! ## Experiences of more than one transition -/

/-- Nothing happens: one state, two actions, no rewards, no end. -/
noncomputable def idle : Env Unit (Fin 2) Unit where
  prob _ _ _ := 1
  out _ _ _ := ⟨0, false, false, ()⟩
  sum_prob _ _ := by simp

/-- Both actions with the same probability. -/
noncomputable def uniform : Unit → Fin 2 → ℝ := fun _ _ => 1 / 2

theorem uniform_dist (s : Unit) : Spec.Distribution (uniform s) :=
  ⟨fun _ => by norm_num [uniform], by norm_num [uniform]⟩

/-- **C106, experiences of two transitions.** The entropy of the state in the middle is left out.  For the policy that acted,
whose soft values are `log 2`, the critics can only settle at a third of that. -/
theorem sac_two_steps_wrong :
    Spec.SoftValues idle uniform (1 / 2) 1 (fun _ => 2 * Real.log 2) (fun _ _ => Real.log 2) ∧
      ∀ q : Unit → Fin 2 → ℝ, sacFit idle uniform (1 / 2) 1 2 uniform q q = q ↔ q = fun _ _ => Real.log 2 / 3 := by
  have hl : Real.log (1 / 2) = -Real.log 2 := by rw [one_div, Real.log_inv]
  have hl' : Real.log 2⁻¹ = -Real.log 2 := Real.log_inv 2
  constructor
  · constructor
    · intro s a
      simp [idle]
    · intro s
      simp [uniform, entropy, hl']
      ring
  · intro q
    have hf : ∀ s a, sacFit idle uniform (1 / 2) 1 2 uniform q q s a = (q () 0 + q () 1) / 8 + Real.log 2 / 4 := by
      intro s a
      rw [sacFit, fit]
      have ht : ∀ x y : Step Unit (Fin 2), x.out = ⟨0, false, false, ()⟩ → y.out = ⟨0, false, false, ()⟩ →
          (sacTarget (1 / 2) 1 uniform q q [trans x, trans y]).getD 0 = (q () 0 + q () 1) / 8 + Real.log 2 / 4 := by
        intro x y hx hy
        rw [sacTarget_eq uniform_dist (by simp) (by simp [Batch.Spec.TerminalOnlyLast, Iteration.trans, hx])]
        simp [Batch.Spec.backup, Iteration.trans, hx, hy, softV, uniform, hl', Fin.sum_univ_two]
        ring
      simp only [idle, Returns.PG.a3cStop, Bool.or_self, Bool.false_eq_true, if_false, Env.expect, Env.choose, uniform,
        Nat.add_one_sub_one, univ_unique, sum_singleton, one_mul, List.map_cons, List.map_nil, Fin.sum_univ_two]
      rw [ht _ _ rfl rfl, ht _ _ rfl rfl]
      ring
    constructor
    · intro h
      have e0 := hf () 0
      have e1 := hf () 1
      rw [h] at e0 e1
      funext s a
      fin_cases a
      · change q () 0 = _
        linarith
      · change q () 1 = _
        linarith
    · rintro rfl
      funext s a
      rw [hf]
      ring

/-! ## Non-vacuity -/

/-- A uniform policy on `[0, 1]` for critics that disagree: all hypotheses of `sac_policy_loss` hold. -/
example :
    let mu : Measure ℝ := volume.restrict (Set.Icc 0 1)
    (∀ a : ℝ, (0 : ℝ) ≤ (fun _ => (1 : ℝ)) a) ∧ ∫ _, (1 : ℝ) ∂mu = 1 ∧
      Integrable (fun a : ℝ => Real.exp (min a (1 - a) / 1)) mu ∧
      Integrable (fun a : ℝ => 1 * (1 * Real.log 1 - min a (1 - a))) mu := by
  refine ⟨fun _ => zero_le_one, by simp, ?_, ?_⟩
  · exact Continuous.integrableOn_Icc (by fun_prop)
  · exact Continuous.integrableOn_Icc (by fun_prop)

/-- Exact updates exist from any critics. -/
example (M : Env S (Fin m) O) (mu : S → Fin m → ℝ) (gamma temperature tau : ℝ) (n : ℕ) (pi : S → Fin m → ℝ) (c : Critics S m) :
    ∃ c', Update M mu gamma temperature tau 0 n pi c c' :=
  ⟨⟨sacFit M mu gamma temperature n pi c.t1 c.t2, sacFit M mu gamma temperature n pi c.t1 c.t2,
    sync tau c.t1 (sacFit M mu gamma temperature n pi c.t1 c.t2), sync tau c.t2 (sacFit M mu gamma temperature n pi c.t1 c.t2)⟩,
    fun _ _ => by simp, fun _ _ => by simp, rfl, rfl⟩

/-- An exact update of the policy exists for any critics, and soft values of it. -/
example (q : Unit → Fin 2 → ℝ) : ∃ pi V Q, Spec.Minimises 1 0 q q pi ∧ Spec.SoftValues idle pi (1 / 2) 1 V Q := by
  have hm := boltzmann_minimises one_pos q q
  obtain ⟨V, Q, h⟩ := (soft_values_exist (M := idle) (fun _ _ _ => zero_le_one) (temperature := 1) (gamma := 1 / 2)
    (by norm_num) (by norm_num)).1 _ hm.dist
  exact ⟨_, V, Q, hm, h⟩

/-- The optimal soft values of `idle`: the uniform policy has the largest entropy. -/
example : Spec.SoftOptimal idle (1 / 2) 1 (fun _ => 2 * Real.log 2) (fun _ _ => Real.log 2) := by
  refine bellman_optimal (fun _ _ _ => zero_le_one) (by norm_num) (by norm_num) one_pos ⟨?_, fun s => ?_⟩
  · funext s a
    simp [bell, idle]
  · have : Real.log (2 * 2) = 2 * Real.log 2 := by rw [Real.log_mul (by norm_num) (by norm_num)]; ring
    simp [lse, Real.exp_log, this]

end Pfrl.Value.Soft
