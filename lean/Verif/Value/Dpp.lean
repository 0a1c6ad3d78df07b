import Verif.Value.Iteration

/-!
# Dynamic policy programming (C105)

`DPP` with the softmax operator, and the rate at which all three variants of dynamic policy programming approach an optimal policy, also
when the fits are not exact.  The environment, the fits and optimality are those of `Iteration.lean`.
-/

namespace Pfrl.Value.Iteration

open Finset Filter
open Pfrl.Returns.PG (Env)

set_option linter.unusedSectionVars false

variable {S O : Type} [Fintype O] {m : ℕ}

/-! ## Model -/

/-- `DPP`, `pfrl/agents/dpp.py:86-97`: the operator is the mean of the action values under their softmax. -/
noncomputable def dppSoftFit (eta : ℝ) (M : Env S (Fin m) O) (mu : S → Fin m → ℝ) (gamma : ℝ) (n : ℕ) (Q : S → Fin m → ℝ) :
    S → Fin m → ℝ := dppFit (expectation eta) M mu gamma n Q

/-! ## Lemmas -/

theorem expectation_shift [NeZero m] (eta : ℝ) (q : Fin m → ℝ) (c : ℝ) :
    expectation eta (fun a => q a - c) = expectation eta q - c := by
  have hs : softmax (fun j => eta * (q j - c)) = softmax fun j => eta * q j := by
    funext i
    have e : ∀ j, Real.exp (eta * (q j - c)) = Real.exp (eta * q j) * Real.exp (-(eta * c)) := fun j => by
      rw [← Real.exp_add]
      congr 1
      ring
    simp only [softmax, e, ← sum_mul]
    rw [mul_div_mul_right _ _ (Real.exp_pos _).ne']
  have h1 := softmax_sum (Nat.pos_of_ne_zero (NeZero.ne m)) fun j => eta * q j
  rw [expectation, hs]
  simp only [expectation, mul_sub, sum_sub_distrib, ← sum_mul, h1, one_mul]

theorem lse_shift [NeZero m] {eta : ℝ} (heta : 0 < eta) (q : Fin m → ℝ) (c : ℝ) :
    logSumExpOp eta (fun a => q a - c) = logSumExpOp eta q - c := by
  have e : ∀ j, Real.exp (eta * (q j - c)) = Real.exp (eta * q j) * Real.exp (-(eta * c)) := fun j => by
    rw [← Real.exp_add]
    congr 1
    ring
  simp only [logSumExpOp, e, ← sum_mul]
  rw [Real.log_mul (lse_pos eta q).ne' (Real.exp_pos _).ne', Real.log_exp]
  field_simp
  ring

/-- The softmax operator is at most `log m / eta` below the maximum. -/
theorem expectation_ge [NeZero m] {eta : ℝ} (heta : 0 < eta) (q : Fin m → ℝ) (a : Fin m) :
    q a - Real.log m / eta ≤ expectation eta q := by
  have hm : (0 : ℝ) < m := by exact_mod_cast Nat.pos_of_ne_zero (NeZero.ne m)
  set p := softmax fun j => eta * q j with hp
  have hpos : ∀ i, 0 < p i := softmax_pos _
  have h1 : ∑ i, p i = 1 := softmax_sum (Nat.pos_of_ne_zero (NeZero.ne m)) _
  have hq : ∀ i, q i = logSumExpOp eta q + Real.log (p i) / eta := fun i => by
    rw [hp, softmax, Real.log_div (Real.exp_pos _).ne' (lse_pos eta q).ne', Real.log_exp, logSumExpOp]
    field_simp
    ring
  have hent : -Real.log m ≤ ∑ i, p i * Real.log (p i) := by
    have h2 : ∀ i, p i * (-Real.log m) + (p i - 1 / m) ≤ p i * Real.log (p i) := fun i => by
      have h3 := Real.log_le_sub_one_of_pos (x := 1 / (m * p i)) (by have := hpos i; positivity)
      rw [Real.log_div one_ne_zero (mul_pos hm (hpos i)).ne', Real.log_one, Real.log_mul hm.ne' (hpos i).ne'] at h3
      have h4 := mul_le_mul_of_nonneg_left h3 (hpos i).le
      have h5 : p i * (1 / (m * p i) - 1) = 1 / m - p i := by
        have := (hpos i).ne'
        field_simp
      rw [h5] at h4
      linarith
    have h6 := sum_le_sum fun i (_ : i ∈ univ) => h2 i
    rw [sum_add_distrib, ← sum_mul, h1, sum_sub_distrib, h1, sum_const, card_univ, Fintype.card_fin, nsmul_eq_mul,
      mul_one_div_cancel hm.ne'] at h6
    linarith
  have e : expectation eta q = logSumExpOp eta q + (∑ i, p i * Real.log (p i)) / eta := by
    have : expectation eta q = ∑ i, p i * q i := rfl
    rw [this, sum_div]
    calc ∑ i, p i * q i = ∑ i, (p i * logSumExpOp eta q + p i * Real.log (p i) / eta) :=
          sum_congr rfl fun i _ => by
            conv_lhs => rw [hq i]
            ring
      _ = _ := by rw [sum_add_distrib, ← sum_mul, h1, one_mul]
  rw [e]
  have h7 := le_lse heta q a
  have h8 := div_le_div_of_nonneg_right hent heta.le
  rw [neg_div] at h8
  linarith

section
variable [Fintype S] {M : Env S (Fin m) O} {gamma : ℝ} {V : S → ℝ} {Q : S → Fin m → ℝ}

/-- The action values with the operator of the generations before added: what the greedy actions of generation `k` are those of. -/
noncomputable def total (L : (Fin m → ℝ) → ℝ) (q : ℕ → S → Fin m → ℝ) : ℕ → S → Fin m → ℝ
  | 0 => q 0
  | k + 1 => fun s a => q (k + 1) s a + L (total L q k s)

theorem total_eq {L : (Fin m → ℝ) → ℝ} (hshift : ∀ q c, L (fun a => q a - c) = L q - c) {q err : ℕ → S → Fin m → ℝ}
    (step : ∀ k s a, q (k + 1) s a = bell M gamma (fun s => L (q k s)) s a - (L (q k s) - q k s a) + err k s a) (k : ℕ) (s : S)
    (a : Fin m) : total L q (k + 1) s a = q 0 s a + k * bell M gamma (fun _ => 0) s a
      + bell M gamma (fun s => L (total L q k s)) s a + ∑ j ∈ range (k + 1), err j s a := by
  induction k with
  | zero =>
    simp only [total, step 0, zero_add, Nat.cast_zero, zero_mul, sum_range_one]
    ring
  | succ k ih =>
    have hq : ∀ s, q (k + 1) s = fun a => total L q (k + 1) s a - L (total L q k s) := fun s => funext fun a => by
      simp only [total]
      ring
    have hL : ∀ s, L (q (k + 1) s) = L (total L q (k + 1) s) - L (total L q k s) := fun s => by rw [hq s, hshift]
    have hb : bell M gamma (fun s => L (q (k + 1) s)) s a = bell M gamma (fun s => L (total L q (k + 1) s)) s a
        - bell M gamma (fun s => L (total L q k s)) s a + bell M gamma (fun _ => 0) s a := by
      simp only [bell, hL]
      rw [← sum_sub_distrib, ← sum_add_distrib]
      refine sum_congr rfl fun o _ => ?_
      by_cases hd : (M.out s a o).done = true
      · simp only [if_pos hd]; ring
      · simp only [if_neg hd]; ring
    have e : total L q (k + 1 + 1) s a = q (k + 1 + 1) s a + L (total L q (k + 1) s) := rfl
    rw [e, step (k + 1), hb, hL, congrFun (hq s) a, ih, sum_range_succ _ (k + 1)]
    push_cast
    ring

/-- Dynamic policy programming with any operator that is close to the maximum: the totals grow like the optimal action values. -/
theorem total_close [NeZero m] (hprob : ∀ s a o, 0 ≤ M.prob s a o) (h0 : 0 ≤ gamma) (h1 : gamma < 1) (hQ : Spec.Optimal M gamma V Q)
    {L : (Fin m → ℝ) → ℝ} (hshift : ∀ q c, L (fun a => q a - c) = L q - c) {c : ℝ} (hc : 0 ≤ c) (hlo : ∀ q a, q a - c ≤ L q)
    (hup : ∀ q, ∃ a, L q ≤ q a + c) {q err : ℕ → S → Fin m → ℝ}
    (step : ∀ k s a, q (k + 1) s a = bell M gamma (fun s => L (q k s)) s a - (L (q k s) - q k s a) + err k s a) {D e : ℝ}
    (hD : ∀ s a, |q 0 s a - Q s a| ≤ D) (N : ℕ) (he : ∀ k ≤ N, ∀ s a, |∑ j ∈ range k, err j s a| ≤ e) :
    ∀ k ≤ N, ∀ s a, |total L q k s a - q 0 s a - k * Q s a| ≤ (gamma * (c + D) + e) / (1 - gamma) := by
  have h1' : (0 : ℝ) < 1 - gamma := by linarith
  intro k
  induction k with
  | zero =>
    intro hk s a
    have hD0 : 0 ≤ D := (abs_nonneg _).trans (hD s a)
    have he0 : 0 ≤ e := (abs_nonneg _).trans (he 0 (by omega) s a)
    simp only [total, Nat.cast_zero, zero_mul, sub_self, abs_zero]
    positivity
  | succ k ih =>
    intro hk s a
    have hD0 : 0 ≤ D := (abs_nonneg _).trans (hD s a)
    have he0 : 0 ≤ e := (abs_nonneg _).trans (he 0 (by omega) s a)
    set x := (gamma * (c + D) + e) / (1 - gamma) with hx
    have hx0 : 0 ≤ x := by positivity
    have hxe : gamma * (c + D + x) + e = x := by rw [hx]; field_simp; ring
    have hrow : ∀ s, |L (total L q k s) - (k + 1) * V s| ≤ c + D + x := by
      intro s
      have hall : ∀ a, |total L q k s a - (k + 1) * Q s a| ≤ D + x := fun a => by
        have h2 := ih (by omega) s a
        have h3 := hD s a
        have e2 : total L q k s a - (k + 1) * Q s a = (total L q k s a - q 0 s a - k * Q s a) + (q 0 s a - Q s a) := by ring
        rw [e2]
        exact (abs_add_le _ _).trans (by linarith)
      have hk1 : (0 : ℝ) ≤ (k : ℝ) + 1 := by positivity
      rw [abs_le]
      constructor
      · obtain ⟨b, hb⟩ := (hQ.max s).1
        have h4 := hlo (total L q k s) b
        have h5 := (abs_le.1 (hall b)).1
        rw [hb] at h5
        linarith
      · obtain ⟨b, hb⟩ := hup (total L q k s)
        have h5 := (abs_le.1 (hall b)).2
        have h6 := mul_le_mul_of_nonneg_left ((hQ.max s).2 ⟨b, rfl⟩) hk1
        linarith
    have hback : |q 0 s a + k * bell M gamma (fun _ => 0) s a + bell M gamma (fun s => L (total L q k s)) s a - q 0 s a
        - (k + 1) * Q s a| ≤ gamma * (c + D + x) := by
      have e3 : q 0 s a + k * bell M gamma (fun _ => 0) s a + bell M gamma (fun s => L (total L q k s)) s a - q 0 s a
          - (k + 1) * Q s a = bell M gamma (fun s => L (total L q k s) - (k + 1) * V s) s a - bell M gamma (fun _ => 0) s a := by
        rw [hQ.q s a]
        simp only [bell, mul_sum]
        have : ∀ (f g h i j : O → ℝ) (y : ℝ), (∀ o, f o + g o - h o = i o - j o) →
            y + ∑ o, f o + ∑ o, g o - y - ∑ o, h o = ∑ o, i o - ∑ o, j o := fun f g h i j y hh => by
          rw [← sum_sub_distrib, ← sum_congr rfl fun o _ => hh o, sum_sub_distrib, sum_add_distrib]
          ring
        refine this _ _ _ _ _ _ fun o => ?_
        by_cases hd : (M.out s a o).done = true
        · simp only [if_pos hd]; ring
        · simp only [if_neg hd]; ring
      rw [e3]
      refine bell_abs hprob h0 (by positivity) (fun s => ?_) s a
      rw [sub_zero]
      exact hrow s
    rw [total_eq hshift step]
    have h7 := he (k + 1) hk s a
    push_cast
    have e4 : q 0 s a + k * bell M gamma (fun _ => 0) s a + bell M gamma (fun s => L (total L q k s)) s a
        + ∑ j ∈ range (k + 1), err j s a - q 0 s a - (k + 1) * Q s a
        = (q 0 s a + k * bell M gamma (fun _ => 0) s a + bell M gamma (fun s => L (total L q k s)) s a - q 0 s a - (k + 1) * Q s a)
          + ∑ j ∈ range (k + 1), err j s a := by ring
    rw [e4]
    exact (abs_add_le _ _).trans (by linarith)

/-- Greedy actions are those of the totals. -/
theorem greedy_total {L : (Fin m → ℝ) → ℝ} {q : ℕ → S → Fin m → ℝ} (k : ℕ) (s : S) (a b : Fin m) :
    q k s a - q k s b = total L q k s a - total L q k s b := by
  cases k with
  | zero => rfl
  | succ k => simp only [total]; ring

theorem dpp_general [NeZero m] (h0 : 0 ≤ gamma) (h1 : gamma < 1) (hQ : Spec.Optimal M gamma V Q)
    {L : (Fin m → ℝ) → ℝ} (hshift : ∀ q c, L (fun a => q a - c) = L q - c) {c : ℝ} (hc : 0 ≤ c) (hlo : ∀ q a, q a - c ≤ L q)
    (hup : ∀ q, ∃ a, L q ≤ q a + c) (mu : S → Fin m → ℝ) {q : ℕ → S → Fin m → ℝ} {D e : ℝ} (hD : ∀ s a, |q 0 s a - Q s a| ≤ D) (N : ℕ)
    (he : ∀ k ≤ N, ∀ s a, |∑ j ∈ range k, (q (j + 1) s a - dppFit L M mu gamma 1 (q j) s a)| ≤ e)
    {w : S → Fin m → ℝ} (hp : Returns.PG.Spec.Proper M w) (hw : Spec.Greedy w (q N)) {V' : S → ℝ} {Q' : S → Fin m → ℝ}
    (hV : Returns.PG.Spec.Values M w gamma V' Q') (s : S) :
    V s - 2 * (((gamma * (c + D) + e) / (1 - gamma) + D) / (N + 1)) / (1 - gamma) ≤ V' s := by
  have step : ∀ k s a, q (k + 1) s a = bell M gamma (fun s => L (q k s)) s a - (L (q k s) - q k s a)
      + (q (k + 1) s a - dppFit L M mu gamma 1 (q k) s a) := fun k s a => by
    rw [dppFit_one]
    ring
  have h := total_close hp.prob h0 h1 hQ hshift hc hlo hup step hD N he N le_rfl
  have hN : (0 : ℝ) < (N : ℝ) + 1 := by positivity
  refine greedy_loss h0 h1 hQ (q := fun s a => total L q N s a / (N + 1)) (fun s a => ?_) hp (fun s a ha b => ?_) hV s
  · rw [le_div_iff₀ hN, ← abs_of_pos hN, ← abs_mul, abs_of_pos hN, sub_mul, div_mul_cancel₀ _ hN.ne']
    have e2 : total L q N s a - Q s a * (N + 1) = (total L q N s a - q 0 s a - N * Q s a) + (q 0 s a - Q s a) := by ring
    rw [e2]
    exact (abs_add_le _ _).trans (add_le_add (h s a) (hD s a))
  · refine div_le_div_of_nonneg_right ?_ hN.le
    have h2 := greedy_total (L := L) (q := q) N s a b
    have h3 := hw s a ha b
    linarith

/-! ## C105 -/

/-- **C105, DPP.** For exact fits of `DPP` with `eta > 0`: from some generation on acting greedily is optimal, and the advantages of the
action values grow by the optimal ones in every generation, up to a constant. -/
theorem dpp_optimal [NeZero m] (hprob : ∀ s a o, 0 ≤ M.prob s a o) (h0 : 0 ≤ gamma) (h1 : gamma < 1)
    (hQ : Spec.Optimal M gamma V Q) (mu : S → Fin m → ℝ) {eta : ℝ} (heta : 0 < eta) {q : ℕ → S → Fin m → ℝ}
    (hfit : ∀ k, q (k + 1) = dppSoftFit eta M mu gamma 1 (q k)) :
    (∃ K, ∀ k ≥ K, ∀ w, Returns.PG.Spec.Proper M w → Spec.Greedy w (q k) →
        ∀ V' Q', Returns.PG.Spec.Values M w gamma V' Q' → V' = V ∧ Q' = Q) ∧
      ∃ C, ∀ k s a b, |(q k s a - q k s b) - k * (Q s a - Q s b)| ≤ C := by
  have hm : (1 : ℝ) ≤ m := by exact_mod_cast Nat.one_le_iff_ne_zero.2 (NeZero.ne m)
  have hc : 0 ≤ Real.log m / eta := div_nonneg (Real.log_nonneg hm) heta.le
  have hup : ∀ q : Fin m → ℝ, ∃ a, expectation eta q ≤ q a + Real.log m / eta := fun q => by
    obtain ⟨a, _, ha⟩ := exists_max_image univ q univ_nonempty
    exact ⟨a, ((dpp_operators q a (fun i => ha i (mem_univ i)) heta).1).trans (by linarith)⟩
  have step : ∀ k s a, q (k + 1) s a = bell M gamma (fun s => expectation eta (q k s)) s a - (expectation eta (q k s) - q k s a)
      + (fun _ _ _ => 0 : ℕ → S → Fin m → ℝ) k s a := fun k s a => by
    rw [hfit, dppSoftFit, dppFit_one, add_zero]
  obtain ⟨D, hD0, hD⟩ := exists_bound fun x : S × Fin m => q 0 x.1 x.2 - Q x.1 x.2
  obtain ⟨R, hR0, hR⟩ := exists_bound fun x : S × Fin m => q 0 x.1 x.2
  have hclose := fun N => total_close hprob h0 h1 hQ (expectation_shift eta) hc (expectation_ge heta) hup step (fun s a => hD (s, a))
    (e := 0) N (fun k _ s a => by simp) N le_rfl
  set x := (gamma * (Real.log m / eta + D) + 0) / (1 - gamma) with hx
  have hgap : ∀ k s a b, |(q k s a - q k s b) - k * (Q s a - Q s b)| ≤ 2 * x + 2 * R := by
    intro k s a b
    rw [greedy_total (L := expectation eta)]
    have h2 := abs_le.1 (hclose k s a)
    have h3 := abs_le.1 (hclose k s b)
    have h4 := abs_le.1 (hR (s, a))
    have h5 := abs_le.1 (hR (s, b))
    simp only at h4 h5
    rw [mul_sub, abs_le]
    constructor <;> linarith [h2.1, h2.2, h3.1, h3.2, h4.1, h4.2, h5.1, h5.2]
  refine ⟨eventually_optimal h0 h1 hQ ?_, _, hgap⟩
  rw [eventually_all]
  intro s
  rw [eventually_all]
  intro a
  by_cases hlt : Q s a < V s
  · obtain ⟨b, hb⟩ := (hQ.max s).1
    obtain ⟨K, hK⟩ := exists_nat_gt ((2 * x + 2 * R) / (V s - Q s a))
    refine eventually_atTop.2 ⟨K, fun k hk _ => ⟨b, ?_⟩⟩
    have hpos : 0 < V s - Q s a := sub_pos.2 hlt
    rw [div_lt_iff₀ hpos] at hK
    have hk' : (K : ℝ) ≤ k := by exact_mod_cast hk
    have h2 := mul_le_mul_of_nonneg_right hk' hpos.le
    have h3 := (abs_le.1 (hgap k s a b)).2
    rw [hb] at h3
    have e : (k : ℝ) * (Q s a - V s) = -(k * (V s - Q s a)) := by ring
    rw [e] at h3
    linarith
  · exact Eventually.of_forall fun k h => absurd h hlt

/-- **C105, the rate of DPP.** Fits that are not exact: if the sums of the errors of the fits up to generation `N` stay within `e`, acting
greedily in generation `N` loses at most a constant divided by `N + 1`.  Errors that cancel in the long run are forgotten. -/
theorem dpp_loss [NeZero m] (h0 : 0 ≤ gamma) (h1 : gamma < 1) (hQ : Spec.Optimal M gamma V Q) (mu : S → Fin m → ℝ) {eta : ℝ}
    (heta : 0 < eta) {q : ℕ → S → Fin m → ℝ} {D e : ℝ} (hD : ∀ s a, |q 0 s a - Q s a| ≤ D) (N : ℕ)
    (he : ∀ k ≤ N, ∀ s a, |∑ j ∈ range k, (q (j + 1) s a - dppSoftFit eta M mu gamma 1 (q j) s a)| ≤ e)
    {w : S → Fin m → ℝ} (hp : Returns.PG.Spec.Proper M w) (hw : Spec.Greedy w (q N)) {V' : S → ℝ} {Q' : S → Fin m → ℝ}
    (hV : Returns.PG.Spec.Values M w gamma V' Q') (s : S) :
    V s - 2 * (((gamma * (Real.log m / eta + D) + e) / (1 - gamma) + D) / (N + 1)) / (1 - gamma) ≤ V' s := by
  have hm : (1 : ℝ) ≤ m := by exact_mod_cast Nat.one_le_iff_ne_zero.2 (NeZero.ne m)
  have hc : 0 ≤ Real.log m / eta := div_nonneg (Real.log_nonneg hm) heta.le
  refine dpp_general h0 h1 hQ (expectation_shift eta) hc (expectation_ge heta) (fun q => ?_) mu hD N he hp hw hV s
  obtain ⟨a, _, ha⟩ := exists_max_image univ q univ_nonempty
  exact ⟨a, ((dpp_operators q a (fun i => ha i (mem_univ i)) heta).1).trans (by linarith)⟩

/-- **C105, the rate of DPPL.** -/
theorem dppl_loss [NeZero m] (h0 : 0 ≤ gamma) (h1 : gamma < 1) (hQ : Spec.Optimal M gamma V Q) (mu : S → Fin m → ℝ) {eta : ℝ}
    (heta : 0 < eta) {q : ℕ → S → Fin m → ℝ} {D e : ℝ} (hD : ∀ s a, |q 0 s a - Q s a| ≤ D) (N : ℕ)
    (he : ∀ k ≤ N, ∀ s a, |∑ j ∈ range k, (q (j + 1) s a - dpplFit eta M mu gamma 1 (q j) s a)| ≤ e)
    {w : S → Fin m → ℝ} (hp : Returns.PG.Spec.Proper M w) (hw : Spec.Greedy w (q N)) {V' : S → ℝ} {Q' : S → Fin m → ℝ}
    (hV : Returns.PG.Spec.Values M w gamma V' Q') (s : S) :
    V s - 2 * (((gamma * (Real.log m / eta + D) + e) / (1 - gamma) + D) / (N + 1)) / (1 - gamma) ≤ V' s := by
  have hm : (1 : ℝ) ≤ m := by exact_mod_cast Nat.one_le_iff_ne_zero.2 (NeZero.ne m)
  have hc : 0 ≤ Real.log m / eta := div_nonneg (Real.log_nonneg hm) heta.le
  refine dpp_general h0 h1 hQ (lse_shift heta) hc (fun q a => ?_) (fun q => ?_) mu hD N he hp hw hV s
  · exact (sub_le_self _ hc).trans (le_lse heta q a)
  · obtain ⟨a, _, ha⟩ := exists_max_image univ q univ_nonempty
    exact ⟨a, (dpp_operators q a (fun i => ha i (mem_univ i)) heta).2.2⟩

/-- **C105, the rate of DPPGreedy.** -/
theorem dpp_greedy_loss [NeZero m] (h0 : 0 ≤ gamma) (h1 : gamma < 1) (hQ : Spec.Optimal M gamma V Q) (mu : S → Fin m → ℝ)
    {q : ℕ → S → Fin m → ℝ} {D e : ℝ} (hD : ∀ s a, |q 0 s a - Q s a| ≤ D) (N : ℕ)
    (he : ∀ k ≤ N, ∀ s a, |∑ j ∈ range k, (q (j + 1) s a - dppGreedyFit M mu gamma 1 (q j) s a)| ≤ e)
    {w : S → Fin m → ℝ} (hp : Returns.PG.Spec.Proper M w) (hw : Spec.Greedy w (q N)) {V' : S → ℝ} {Q' : S → Fin m → ℝ}
    (hV : Returns.PG.Spec.Values M w gamma V' Q') (s : S) :
    V s - 2 * (((gamma * D + e) / (1 - gamma) + D) / (N + 1)) / (1 - gamma) ≤ V' s := by
  have hmax : ∀ q : Fin m → ℝ, ∃ a, (maxValue (List.ofFn q)).getD 0 = q a ∧ ∀ b, q b ≤ q a := fun q => by
    obtain ⟨L, hL⟩ := max_exists (S := Unit) fun _ => q
    have h2 := maxValue_of_isMax (isMax_row hL ())
    rw [row] at h2
    obtain ⟨a, ha⟩ := (hL ()).1
    simp only at ha
    refine ⟨a, ?_, fun b => ?_⟩
    · rw [h2, ← ha]; rfl
    · rw [ha]; exact (hL ()).2 ⟨b, rfl⟩
  have h := dpp_general (c := 0) h0 h1 hQ (L := fun q => (maxValue (List.ofFn q)).getD 0) (fun q c => ?_) le_rfl (fun q a => ?_) (fun q => ?_)
    mu hD N he hp hw hV s
  · rwa [zero_add] at h
  · obtain ⟨a, e1, ha⟩ := hmax q
    obtain ⟨b, e2, hb⟩ := hmax fun a => q a - c
    rw [e1, e2]
    have := ha b
    have := hb a
    linarith
  · obtain ⟨b, e1, hb⟩ := hmax q
    simp only [e1, sub_zero]
    exact hb a
  · obtain ⟨a, e1, _⟩ := hmax q
    exact ⟨a, by simp only [e1, add_zero, le_refl]⟩

end

/-! ## Non-vacuity -/

/-- In the environment of `Iteration.lean` with a detour, `DPP` finds the better way from any start. -/
example (q : Bool → Fin 2 → ℝ) : ∃ K, ∀ k ≥ K, ∀ w, Returns.PG.Spec.Proper detour w →
    Spec.Greedy w ((dppSoftFit 1 detour uniform (1 / 2) 1)^[k] q) →
    ∀ V' Q', Returns.PG.Spec.Values detour w (1 / 2) V' Q' → V' false = 1 / 2 := by
  obtain ⟨⟨K, hK⟩, _⟩ := dpp_optimal uniform_proper.prob (by norm_num) (by norm_num) detour_optimal uniform (eta := 1) (by norm_num)
    (q := fun k => (dppSoftFit 1 detour uniform (1 / 2) 1)^[k] q) (fun k => Function.iterate_succ_apply' _ _ _)
  exact ⟨K, fun k hk w hp hw V' Q' hV => by rw [(hK k hk w hp hw V' Q' hV).1]; rfl⟩

/-- Fits with errors 1, -1, 1, ... have sums of errors within 1. -/
example (q0 : Bool → Fin 2 → ℝ) : ∃ q : ℕ → Bool → Fin 2 → ℝ, q 0 = q0 ∧
    (∀ s a, q 1 s a = dppSoftFit 1 detour uniform (1 / 2) 1 (q 0) s a + 1) ∧
    ∀ k s a, |∑ j ∈ range k, (q (j + 1) s a - dppSoftFit 1 detour uniform (1 / 2) 1 (q j) s a)| ≤ 1 := by
  let q : ℕ → Bool → Fin 2 → ℝ := fun k => Nat.rec q0 (fun j x s a => dppSoftFit 1 detour uniform (1 / 2) 1 x s a + (-1) ^ j) k
  have hq : ∀ k s a, q (k + 1) s a = dppSoftFit 1 detour uniform (1 / 2) 1 (q k) s a + (-1) ^ k := fun _ _ _ => rfl
  refine ⟨q, rfl, fun s a => by rw [← pow_zero (-1 : ℝ)]; exact hq 0 s a, fun k s a => ?_⟩
  have e : ∀ j, q (j + 1) s a - dppSoftFit 1 detour uniform (1 / 2) 1 (q j) s a = (-1) ^ j := fun j => by rw [hq j]; ring
  simp only [e]
  rw [neg_one_geom_sum]
  split <;> simp

end Pfrl.Value.Iteration
