import Verif.Nn.Networks
import Mathlib.Probability.Distributions.Gaussian.Real
import Mathlib.Probability.Independence.InfinitePi
import Mathlib.Probability.Independence.Integration
import Mathlib.Probability.IdentDistrib

/-!
# The scale of freshly initialised networks (C110)

The model of the constructors is in `Verif.Nn.Networks`.
-/

namespace Pfrl.Networks

open MeasureTheory ProbabilityTheory

variable {Ω : Type} [mΩ : MeasurableSpace Ω] {P : Measure Ω}

/-! ## Specification -/

/-- `z k j i` are independent standard normal draws. -/
structure Spec.Draws (P : Measure Ω) (z : ℕ → ℕ → ℕ → Ω → ℝ) : Prop where
  meas : ∀ k j i, Measurable (z k j i)
  law : ∀ k j i, P.map (z k j i) = gaussianReal 0 1
  indep : iIndepFun (fun k : ℕ × ℕ × ℕ => z k.1 k.2.1 k.2.2) P

/-! ## Lemmas -/

/-- What the draws of the layers before `k0` determine. -/
@[reducible] def past (z : ℕ → ℕ → ℕ → Ω → ℝ) (k0 : ℕ) : MeasurableSpace Ω :=
  ⨆ k ∈ {k : ℕ × ℕ × ℕ | k.1 < k0}, MeasurableSpace.comap (z k.1 k.2.1 k.2.2) inferInstance

theorem past_le {z : ℕ → ℕ → ℕ → Ω → ℝ} (hz : Spec.Draws P z) (k0 : ℕ) : past z k0 ≤ mΩ :=
  iSup₂_le fun k _ => (hz.meas k.1 k.2.1 k.2.2).comap_le

omit mΩ in
theorem past_mono (z : ℕ → ℕ → ℕ → Ω → ℝ) (k0 : ℕ) : past z k0 ≤ past z (k0 + 1) :=
  iSup₂_mono' fun k hk => ⟨k, Nat.lt_succ_of_lt hk, le_rfl⟩

omit mΩ in
theorem draw_past (z : ℕ → ℕ → ℕ → Ω → ℝ) (k0 j i : ℕ) : Measurable[past z (k0 + 1)] (z k0 j i) := by
  have : MeasurableSpace.comap (z k0 j i) inferInstance ≤ past z (k0 + 1) :=
    le_iSup₂_of_le (f := fun (k : ℕ × ℕ × ℕ) (_ : k ∈ {k : ℕ × ℕ × ℕ | k.1 < k0 + 1}) =>
      MeasurableSpace.comap (z k.1 k.2.1 k.2.2) inferInstance) (k0, j, i) (Nat.lt_succ_self k0) le_rfl
  exact measurable_iff_comap_le.2 this

theorem indep_layer {z : ℕ → ℕ → ℕ → Ω → ℝ} (hz : Spec.Draws P z) (k0 j n : ℕ) {X : Fin n → Ω → ℝ}
    (hX : ∀ i, Measurable[past z k0] (X i)) : IndepFun (fun ω (i : Fin n) => z k0 j i ω) (fun ω i => X i ω) P := by
  have h := indep_iSup_of_disjoint (m := fun k : ℕ × ℕ × ℕ => MeasurableSpace.comap (z k.1 k.2.1 k.2.2) inferInstance)
    (S := {k : ℕ × ℕ × ℕ | k.1 = k0}) (T := {k : ℕ × ℕ × ℕ | k.1 < k0})
    (fun k => (hz.meas k.1 k.2.1 k.2.2).comap_le) hz.indep (by
      rw [Set.disjoint_left]
      intro k h1 h2
      simp only [Set.mem_ofPred_eq] at h1 h2
      omega)
  refine indep_of_indep_of_le_left (indep_of_indep_of_le_right h ?_) ?_
  · exact Measurable.comap_le (m₁ := past z k0) (@measurable_pi_lambda Ω (Fin n) (fun _ => ℝ) (past z k0) _ _ hX)
  · refine Measurable.comap_le (m₁ := ⨆ k ∈ {k : ℕ × ℕ × ℕ | k.1 = k0}, MeasurableSpace.comap (z k.1 k.2.1 k.2.2) inferInstance)
      (@measurable_pi_lambda Ω (Fin n) (fun _ => ℝ) (_) _ _ fun i => ?_)
    rw [measurable_iff_comap_le]
    exact le_iSup₂_of_le (f := fun (k : ℕ × ℕ × ℕ) (_ : k ∈ {k : ℕ × ℕ × ℕ | k.1 = k0}) =>
      MeasurableSpace.comap (z k.1 k.2.1 k.2.2) inferInstance) (k0, j, i.1) rfl le_rfl

theorem draw_memLp {z : ℕ → ℕ → ℕ → Ω → ℝ} (hz : Spec.Draws P z) (k j i : ℕ) : MemLp (z k j i) 2 P := by
  have := memLp_id_gaussianReal (μ := 0) (v := 1) 2
  rw [← hz.law k j i] at this
  exact (memLp_map_measure_iff aestronglyMeasurable_id (hz.meas k j i).aemeasurable).1 this

theorem draw_mean {z : ℕ → ℕ → ℕ → Ω → ℝ} (hz : Spec.Draws P z) (k j i : ℕ) : ∫ ω, z k j i ω ∂P = 0 := by
  have := integral_map (μ := P) (hz.meas k j i).aemeasurable (f := fun x : ℝ => x) (by fun_prop)
  rw [← this, hz.law k j i, integral_id_gaussianReal]

theorem draw_sq {z : ℕ → ℕ → ℕ → Ω → ℝ} (hz : Spec.Draws P z) (k j i : ℕ) : ∫ ω, z k j i ω * z k j i ω ∂P = 1 := by
  have := integral_map (μ := P) (hz.meas k j i).aemeasurable (f := fun x : ℝ => x * x) (by fun_prop)
  rw [← this, hz.law k j i]
  have h := variance_fun_id_gaussianReal (μ := 0) (v := 1)
  rw [variance_of_integral_eq_zero (by fun_prop) (by rw [integral_id_gaussianReal])] at h
  simp only [pow_two] at h
  rw [h]
  rfl

theorem draw_cross {z : ℕ → ℕ → ℕ → Ω → ℝ} (hz : Spec.Draws P z) (k j i i' : ℕ) (hne : i ≠ i') :
    ∫ ω, z k j i ω * z k j i' ω ∂P = 0 := by
  have h : IndepFun (z k j i) (z k j i') P :=
    hz.indep.indepFun (i := (k, j, i)) (j := (k, j, i')) (by intro h; exact hne (Prod.mk.inj (Prod.mk.inj h).2).2)
  rw [h.integral_fun_mul_eq_mul_integral (hz.meas _ _ _).aestronglyMeasurable (hz.meas _ _ _).aestronglyMeasurable, draw_mean hz, zero_mul]

/-- The weighted sum entering a unit. -/
def unit (z : ℕ → ℕ → ℕ → Ω → ℝ) (k0 j n : ℕ) (X : Fin n → Ω → ℝ) (ω : Ω) : ℝ := ∑ i, z k0 j i.1 ω * X i ω

theorem unit_moments [IsProbabilityMeasure P] {z : ℕ → ℕ → ℕ → Ω → ℝ} (hz : Spec.Draws P z) (k0 j n : ℕ) {X : Fin n → Ω → ℝ}
    (hX : ∀ i, Measurable[past z k0] (X i)) (hX2 : ∀ i, MemLp (X i) 2 P) :
    MemLp (unit z k0 j n X) 2 P ∧ ∫ ω, unit z k0 j n X ω ∂P = 0 ∧
    ∫ ω, unit z k0 j n X ω ^ 2 ∂P = ∑ i, ∫ ω, X i ω ^ 2 ∂P := by
  have hm : ∀ i, Measurable (X i) := fun i => (hX i).mono (past_le hz k0) le_rfl
  have hi := indep_layer hz k0 j n hX
  have hw2 : ∀ i i' : Fin n, Integrable (fun ω => z k0 j i ω * z k0 j i' ω) P := fun i i' =>
    (draw_memLp hz k0 j i).integrable_mul (draw_memLp hz k0 j i')
  have hx2 : ∀ i i' : Fin n, Integrable (fun ω => X i ω * X i' ω) P := fun i i' => (hX2 i).integrable_mul (hX2 i')
  have h2 : ∀ i i' : Fin n, IndepFun (fun ω => z k0 j i ω * z k0 j i' ω) (fun ω => X i ω * X i' ω) P := fun i i' =>
    hi.comp (φ := fun v : Fin n → ℝ => v i * v i') (ψ := fun v : Fin n → ℝ => v i * v i') (by fun_prop) (by fun_prop)
  have h1 : ∀ i : Fin n, IndepFun (z k0 j i) (X i) P := fun i =>
    hi.comp (φ := fun v : Fin n → ℝ => v i) (ψ := fun v : Fin n → ℝ => v i) (by fun_prop) (by fun_prop)
  have hint : ∀ i i' : Fin n, Integrable (fun ω => (z k0 j i ω * z k0 j i' ω) * (X i ω * X i' ω)) P := fun i i' =>
    (h2 i i').integrable_mul (hw2 i i') (hx2 i i')
  have hsq : ∀ ω, unit z k0 j n X ω ^ 2 = ∑ i, ∑ i', (z k0 j i.1 ω * z k0 j i'.1 ω) * (X i ω * X i' ω) := by
    intro ω
    unfold unit
    rw [pow_two, Finset.sum_mul_sum]
    exact Finset.sum_congr rfl fun i _ => Finset.sum_congr rfl fun i' _ => by ring
  have hmeas : Measurable (unit z k0 j n X) := by
    unfold unit
    exact Finset.measurable_sum _ fun i _ => (hz.meas _ _ _).mul (hm i)
  have hsqi : Integrable (fun ω => unit z k0 j n X ω ^ 2) P := by
    simp only [hsq]
    exact integrable_finsetSum _ fun i _ => integrable_finsetSum _ fun i' _ => hint i i'
  refine ⟨(memLp_two_iff_integrable_sq hmeas.aestronglyMeasurable).2 hsqi, ?_, ?_⟩
  · unfold unit
    rw [integral_finsetSum (f := fun i ω => z k0 j i.1 ω * X i ω) _ fun i _ => (h1 i).integrable_mul ((draw_memLp hz _ _ _).integrable one_le_two) ((hX2 i).integrable one_le_two)]
    refine Finset.sum_eq_zero fun i _ => ?_
    rw [(h1 i).integral_fun_mul_eq_mul_integral (hz.meas _ _ _).aestronglyMeasurable (hm i).aestronglyMeasurable, draw_mean hz, zero_mul]
  · simp only [hsq]
    rw [integral_finsetSum _ fun i _ => integrable_finsetSum _ fun i' _ => hint i i']
    refine Finset.sum_congr rfl fun i _ => ?_
    rw [integral_finsetSum _ fun i' _ => hint i i', Finset.sum_eq_single i]
    · rw [(h2 i i).integral_fun_mul_eq_mul_integral (hw2 i i).aestronglyMeasurable (hx2 i i).aestronglyMeasurable, draw_sq hz, one_mul]
      simp only [pow_two]
    · intro i' _ hne
      rw [(h2 i i').integral_fun_mul_eq_mul_integral (hw2 i i').aestronglyMeasurable (hx2 i i').aestronglyMeasurable,
        draw_cross hz _ _ _ _ (fun h => hne (Fin.ext h.symm)), zero_mul]
    · intro h; exact absurd (Finset.mem_univ i) h

theorem unit_symmetric [IsProbabilityMeasure P] {z : ℕ → ℕ → ℕ → Ω → ℝ} (hz : Spec.Draws P z) (k0 j n : ℕ) {X : Fin n → Ω → ℝ}
    (hX : ∀ i, Measurable[past z k0] (X i)) {g : ℝ → ℝ} (hg : Measurable g) :
    ∫ ω, g (-unit z k0 j n X ω) ∂P = ∫ ω, g (unit z k0 j n X ω) ∂P := by
  have hm : ∀ i, Measurable (X i) := fun i => (hX i).mono (past_le hz k0) le_rfl
  have hmX : Measurable fun ω i => X i ω := measurable_pi_lambda _ hm
  have hmw : Measurable fun ω (i : Fin n) => z k0 j i.1 ω := measurable_pi_lambda _ fun i => hz.meas _ _ _
  have hmn : Measurable fun ω (i : Fin n) => -z k0 j i.1 ω := measurable_pi_lambda _ fun i => (hz.meas _ _ _).neg
  have hi := indep_layer hz k0 j n hX
  have hin : IndepFun (fun ω (i : Fin n) => -z k0 j i.1 ω) (fun ω i => X i ω) P :=
    hi.comp (φ := fun (v : Fin n → ℝ) i => -v i) (ψ := fun v : Fin n → ℝ => v) (by fun_prop) (by fun_prop)
  have hpi : P.map (fun ω (i : Fin n) => z k0 j i.1 ω) = Measure.pi fun _ => gaussianReal 0 1 := by
    have h : iIndepFun (fun (i : Fin n) => z k0 j i.1) P :=
      hz.indep.precomp (g := fun i : Fin n => (k0, j, i.1)) fun a b h => Fin.ext (Prod.mk.inj (Prod.mk.inj h).2).2
    rw [(iIndepFun_iff_map_fun_eq_pi_map fun i => (hz.meas _ _ _).aemeasurable).1 h]
    simp only [hz.law]
  have hpn : P.map (fun ω (i : Fin n) => -z k0 j i.1 ω) = Measure.pi fun _ => gaussianReal 0 1 := by
    have e : (fun ω (i : Fin n) => -z k0 j i.1 ω) = (fun v i => -v i) ∘ fun ω (i : Fin n) => z k0 j i.1 ω := rfl
    rw [e, ← Measure.map_map (by fun_prop) hmw, hpi]
    have : ∀ i : Fin n, IsProbabilityMeasure ((gaussianReal 0 1).map (fun x : ℝ => -x)) := fun i =>
      Measure.isProbabilityMeasure_map (by fun_prop)
    rw [Measure.pi_map_pi (f := fun _ x => -x) fun i => by fun_prop]
    simp [gaussianReal_map_neg]
  have key : P.map (fun ω => ((fun (i : Fin n) => -z k0 j i.1 ω), fun i => X i ω))
      = P.map (fun ω => ((fun (i : Fin n) => z k0 j i.1 ω), fun i => X i ω)) := by
    rw [(indepFun_iff_map_prod_eq_prod_map_map hmn.aemeasurable hmX.aemeasurable).1 hin,
      (indepFun_iff_map_prod_eq_prod_map_map hmw.aemeasurable hmX.aemeasurable).1 hi, hpi, hpn]
  have hG : Measurable fun p : (Fin n → ℝ) × (Fin n → ℝ) => g (∑ i, p.1 i * p.2 i) := hg.comp (by fun_prop)
  have h1 := integral_map (μ := P) (hmn.prodMk hmX).aemeasurable hG.aestronglyMeasurable
  have h2 := integral_map (μ := P) (hmw.prodMk hmX).aemeasurable hG.aestronglyMeasurable
  rw [key, h2] at h1
  unfold unit
  rw [h1]
  simp only [neg_mul, Finset.sum_neg_distrib]

/-- The output of a hidden unit with a nonlinearity that keeps, on average over the sign, the fraction `q` of the square. -/
theorem unit_act [IsProbabilityMeasure P] {z : ℕ → ℕ → ℕ → Ω → ℝ} (hz : Spec.Draws P z) (k0 j n : ℕ) {X : Fin n → Ω → ℝ}
    (hX : ∀ i, Measurable[past z k0] (X i)) (hX2 : ∀ i, MemLp (X i) 2 P) {act : ℝ → ℝ} (ha : Measurable act) {q : ℝ}
    (hq : ∀ y, act y ^ 2 + act (-y) ^ 2 = 2 * q * y ^ 2) (c : ℝ) :
    MemLp (fun ω => act (c * unit z k0 j n X ω)) 2 P ∧
    ∫ ω, act (c * unit z k0 j n X ω) ^ 2 ∂P = q * c ^ 2 * ∑ i, ∫ ω, X i ω ^ 2 ∂P := by
  obtain ⟨h1, -, h3⟩ := unit_moments hz k0 j n hX hX2
  have hY : Measurable (unit z k0 j n X) := by
    unfold unit
    exact Finset.measurable_sum _ fun i _ => (hz.meas _ _ _).mul ((hX i).mono (past_le hz k0) le_rfl)
  have hm : Measurable fun ω => act (c * unit z k0 j n X ω) := ha.comp (hY.const_mul c)
  have hmn : Measurable fun ω => act (-(c * unit z k0 j n X ω)) := ha.comp (hY.const_mul c).neg
  have hs : Integrable (fun ω => unit z k0 j n X ω ^ 2) P := h1.integrable_sq
  have hbound : ∀ y, act y ^ 2 ≤ 2 * q * y ^ 2 := fun y => by nlinarith [hq y, sq_nonneg (act (-y))]
  have hint : Integrable (fun ω => act (c * unit z k0 j n X ω) ^ 2) P := by
    refine (hs.const_mul (2 * q * c ^ 2)).mono' (hm.pow_const 2).aestronglyMeasurable (Filter.Eventually.of_forall fun ω => ?_)
    rw [Real.norm_of_nonneg (sq_nonneg _)]
    calc _ ≤ _ := hbound _
      _ = _ := by ring
  have hintn : Integrable (fun ω => act (-(c * unit z k0 j n X ω)) ^ 2) P := by
    refine (hs.const_mul (2 * q * c ^ 2)).mono' (hmn.pow_const 2).aestronglyMeasurable (Filter.Eventually.of_forall fun ω => ?_)
    rw [Real.norm_of_nonneg (sq_nonneg _)]
    calc _ ≤ _ := hbound _
      _ = _ := by ring
  refine ⟨(memLp_two_iff_integrable_sq hm.aestronglyMeasurable).2 hint, ?_⟩
  have hsym := unit_symmetric hz k0 j n hX (g := fun y => act (c * y) ^ 2) ((ha.comp (measurable_id.const_mul c)).pow_const 2)
  have hsum : ∫ ω, act (c * unit z k0 j n X ω) ^ 2 ∂P + ∫ ω, act (-(c * unit z k0 j n X ω)) ^ 2 ∂P
      = 2 * q * c ^ 2 * ∫ ω, unit z k0 j n X ω ^ 2 ∂P := by
    rw [← integral_add hint hintn, ← integral_const_mul]
    congr 1
    funext ω
    rw [hq]
    ring
  simp only [mul_neg] at hsym
  rw [hsym, h3] at hsum
  linarith

theorem affine_getD (l : Linear) {x : Row} {n : ℕ} (hx : x.length = n) {j : ℕ} (hj : j < l.nOut) :
    (Spec.affine l x).getD j 0 = ∑ i : Fin n, l.w j i.1 * x.getD i.1 0 + l.b j := by
  subst hx
  unfold Spec.affine
  rw [List.getD_eq_getElem?_getD, List.getElem?_eq_getElem (by simpa using hj)]
  simp only [List.getElem_ofFn, Option.getD_some]
  congr 1
  rw [← List.ofFn_eq_map, List.sum_ofFn]
  refine Finset.sum_congr rfl fun i _ => ?_
  rw [List.getD_eq_getElem?_getD, List.getElem?_eq_getElem i.2]
  rfl

theorem initHidden_cons {n h : ℕ} {sizes : List (ℕ × ℕ)} {draws : ℕ → ℕ → ℕ → ℝ} {ls : List Linear}
    (hi : initHidden ((n, h) :: sizes) draws = .ok ls) : ∃ ls', ls = ⟨n, h, fun j i => 1 * √(1 / n) * draws 0 j i, fun _ => 0⟩ :: ls' ∧
      initHidden sizes (fun k => draws (k + 1)) = .ok ls' := by
  simp only [initHidden, initLecunNormal] at hi
  by_cases hn : n = 0
  · simp [hn] at hi
  · rw [if_neg hn] at hi
    cases he : initHidden sizes fun k => draws (k + 1) with
    | error e => simp [he] at hi
    | ok l =>
      simp only [he, Except.ok.injEq] at hi
      exact ⟨l, hi.symm, rfl⟩

theorem mlp_moments [IsProbabilityMeasure P] {z : ℕ → ℕ → ℕ → Ω → ℝ} (hz : Spec.Draws P z) {act : ℝ → ℝ} (ha : Measurable act) {q : ℝ}
    (hq : ∀ y, act y ^ 2 + act (-y) ^ 2 = 2 * q * y ^ 2) (outSize : ℕ) (scale : ℝ) : ∀ (hs : List ℕ) (n k0 : ℕ) (R : Ω → Row),
    0 < n → (∀ h ∈ hs, 0 < h) → (∀ ω, (R ω).length = n) → (∀ i, Measurable[past z k0] fun ω => (R ω).getD i 0) →
    (∀ i, MemLp (fun ω => (R ω).getD i 0) 2 P) → ∀ ls : Ω → List Linear,
    (∀ ω, initHidden (hiddenSizes n hs) (fun k j i => z (k0 + k) j i ω) = .ok (ls ω)) → ∀ j < outSize, ∀ y : Ω → ℝ,
    (∀ ω, y ω = (Spec.mlp act ⟨hs.getLastD n, outSize, fun j i => scale * √(1 / (hs.getLastD n : ℕ)) * z (k0 + hs.length) j i ω, fun _ => 0⟩
      (ls ω) (R ω)).getD j 0) →
    MemLp y 2 P ∧ ∫ ω, y ω ∂P = 0 ∧
    ∫ ω, y ω ^ 2 ∂P = scale ^ 2 * q ^ hs.length / n * ∑ i : Fin n, ∫ ω, (R ω).getD i.1 0 ^ 2 ∂P
  | [], n, k0, R, hn, _, hlen, hm, h2, ls, hls, j, hj, y, hy => by
    have e : y = fun ω => scale * √(1 / n) * unit z k0 j n (fun i ω => (R ω).getD i.1 0) ω := by
      funext ω
      have h0 : ls ω = [] := by
        have := hls ω
        simp only [hiddenSizes, initHidden, Except.ok.injEq] at this
        exact this.symm
      rw [hy ω, h0]
      simp only [Spec.mlp]
      rw [affine_getD _ (hlen ω) hj, unit, Finset.mul_sum]
      simp only [List.getLastD_nil, List.length_nil, add_zero]
      exact Finset.sum_congr rfl fun i _ => by ring
    obtain ⟨m1, m2, m3⟩ := unit_moments hz k0 j n (X := fun i ω => (R ω).getD i.1 0) (fun i => hm i.1) (fun i => h2 i.1)
    subst e
    refine ⟨m1.const_mul _, by rw [integral_const_mul, m2, mul_zero], ?_⟩
    simp only [mul_pow]
    rw [integral_const_mul, m3, Real.sq_sqrt (by positivity)]
    simp only [List.length_nil, pow_zero]
    ring
  | h :: hs, n, k0, R, hn, hh, hlen, hm, h2, ls, hls, j, hj, y, hy => by
    let l : Ω → Linear := fun ω => ⟨n, h, fun j i => 1 * √(1 / n) * z (k0 + 0) j i ω, fun _ => 0⟩
    let R' : Ω → Row := fun ω => (Spec.affine (l ω) (R ω)).map act
    have hhpos : 0 < h := hh h (by simp)
    have hsplit : ∀ ω, ls ω = l ω :: (ls ω).tail ∧ initHidden (hiddenSizes h hs) (fun k j i => z (k0 + 1 + k) j i ω) = .ok (ls ω).tail := by
      intro ω
      obtain ⟨ls', e1, e2⟩ := initHidden_cons (hls ω)
      rw [e1, List.tail_cons, ← e2]
      refine ⟨rfl, ?_⟩
      congr 1
      funext k j i
      rw [show k0 + 1 + k = k0 + (k + 1) by omega]
    have hR' : ∀ i, i < h → (fun ω => (R' ω).getD i 0) = fun ω => act (√(1 / n) * unit z k0 i n (fun i ω => (R ω).getD i.1 0) ω) := by
      intro i hi
      funext ω
      have hl : i < (Spec.affine (l ω) (R ω)).length := by rw [affine_length]; exact hi
      have e1 := affine_getD (l ω) (hlen ω) (j := i) hi
      rw [List.getD_eq_getElem?_getD, List.getElem?_eq_getElem hl, Option.getD_some] at e1
      simp only [R']
      rw [List.getD_eq_getElem?_getD, List.getElem?_map, List.getElem?_eq_getElem hl, Option.map_some, Option.getD_some, e1, unit, Finset.mul_sum]
      simp only [l, add_zero, one_mul]
      congr 1
      exact Finset.sum_congr rfl fun i _ => by ring
    have hR0 : ∀ i, ¬ i < h → (fun ω => (R' ω).getD i 0) = fun _ => 0 := by
      intro i hi
      funext ω
      rw [List.getD_eq_getElem?_getD, List.getElem?_eq_none (by simp only [R', List.length_map, affine_length]; exact not_lt.1 hi), Option.getD_none]
    have hact := fun i => unit_act hz k0 i n (X := fun i ω => (R ω).getD i.1 0) (fun i => hm i.1) (fun i => h2 i.1) ha hq (√(1 / n))
    obtain ⟨i1, i2, i3⟩ := mlp_moments hz ha hq outSize scale hs h (k0 + 1) R' hhpos (fun a ha => hh a (by simp [ha]))
      (fun ω => by simp only [R', List.length_map, affine_length]; rfl)
      (fun i => by
        by_cases hi : i < h
        · rw [hR' i hi]
          refine ha.comp ?_
          unfold unit
          refine Measurable.const_mul ?_ _
          refine @Finset.measurable_sum ℝ (Fin n) Ω _ _ _ (past z (k0 + 1)) _ _ fun i _ => ?_
          exact Measurable.mul (draw_past z k0 _ _) ((hm i.1).mono (past_mono z k0) le_rfl)
        · rw [hR0 i hi]
          exact measurable_const)
      (fun i => by
        by_cases hi : i < h
        · rw [hR' i hi]
          exact (hact i).1
        · rw [hR0 i hi]
          exact memLp_const 0)
      (fun ω => (ls ω).tail) (fun ω => (hsplit ω).2) j hj y (fun ω => by
        rw [hy ω, (hsplit ω).1]
        simp only [Spec.mlp, List.tail_cons, List.getLastD_cons, List.length_cons]
        rw [show k0 + 1 + hs.length = k0 + (hs.length + 1) by omega])
    refine ⟨i1, i2, i3.trans ?_⟩
    have hsum : ∑ i : Fin h, ∫ ω, (R' ω).getD i.1 0 ^ 2 ∂P = h * (q * (1 / n) * ∑ i : Fin n, ∫ ω, (R ω).getD i.1 0 ^ 2 ∂P) := by
      rw [Finset.sum_congr rfl (g := fun _ => q * (1 / n) * ∑ i : Fin n, ∫ ω, (R ω).getD i.1 0 ^ 2 ∂P) fun i _ => ?_]
      · simp
      · have e : (fun ω => (R' ω).getD i.1 0 ^ 2) = fun ω => act (√(1 / n) * unit z k0 i.1 n (fun i ω => (R ω).getD i.1 0) ω) ^ 2 := by
          funext ω
          rw [← congrFun (hR' i.1 i.2) ω]
        rw [e, (hact i.1).2, Real.sq_sqrt (by positivity)]
    rw [hsum, List.length_cons]
    have : (h : ℝ) ≠ 0 := by exact_mod_cast hhpos.ne'
    field_simp
    rw [pow_succ]
    ring

/-! ## C110 -/

/-- **C110.** A perceptron just constructed maps every input to outputs of mean zero, whose mean square is `last_wscale ^ 2` times the
mean square of the input, times `q` for every hidden layer.  Here `q` is what the nonlinearity keeps of a square, on average over the
sign: 1/2 for `relu`, 1 for the identity.  The numbers of hidden units do not matter. -/
theorem init_scale [IsProbabilityMeasure P] {z : ℕ → ℕ → ℕ → Ω → ℝ} (hz : Spec.Draws P z) {act : ℝ → ℝ} (ha : Measurable act) {q : ℝ}
    (hq : ∀ y, act y ^ 2 + act (-y) ^ 2 = 2 * q * y ^ 2) {inSize : ℕ} (outSize : ℕ) {hidden : List ℕ} (scale : ℝ) (hin : 0 < inSize)
    (hh : ∀ h ∈ hidden, 0 < h) (x : Row) (hx : x.length = inSize) :
    ∃ y : Ω → Row, (∀ ω, ∃ m, MLP.init inSize outSize hidden act scale (fun k j i => z k j i ω) = .ok m ∧
        m.forward [x] = .ok [y ω] ∧ (y ω).length = outSize) ∧
      ∀ j < outSize, MemLp (fun ω => (y ω).getD j 0) 2 P ∧ ∫ ω, (y ω).getD j 0 ∂P = 0 ∧
        ∫ ω, (y ω).getD j 0 ^ 2 ∂P = scale ^ 2 * q ^ hidden.length * ((x.map (· ^ 2)).sum / inSize) := by
  have hlast : 0 < hidden.getLastD inSize := by
    cases hidden with
    | nil => exact hin
    | cons a l =>
      rw [List.getLastD_cons]
      exact hh _ List.getLastD_mem_cons
  let out : Ω → Linear := fun ω => ⟨hidden.getLastD inSize, outSize, fun j i =>
      scale * √(1 / (hidden.getLastD inSize : ℕ)) * z hidden.length j i ω, fun _ => 0⟩
  choose ls h1 h2 h3 using fun ω => initHidden_ok (out ω) hidden inSize (fun k j i => z k j i ω) hin hh rfl
  have hrows := fun ω => mlp_rows ⟨ls ω, out ω, act⟩ (h2 ω)
  refine ⟨fun ω => Spec.mlp act (out ω) (ls ω) x, fun ω => ⟨⟨ls ω, out ω, act⟩, ?_, ?_, (hrows ω).1 x hx⟩, fun j hj => ?_⟩
  · simp only [MLP.init, h1, initLecunNormal, if_neg hlast.ne']
    rfl
  · exact (hrows ω).2 [x] (by simp [hx])
  · obtain ⟨m1, m2, m3⟩ := mlp_moments hz ha hq outSize scale hidden inSize 0 (fun _ => x) hin hh (fun _ => hx)
      (fun i => measurable_const) (fun i => memLp_const _) ls (fun ω => by simp only [zero_add]; exact h1 ω) j hj
      (fun ω => (Spec.mlp act (out ω) (ls ω) x).getD j 0) (fun ω => by simp only [zero_add]; rfl)
    refine ⟨m1, m2, m3.trans ?_⟩
    have : ∑ i : Fin inSize, ∫ _ : Ω, x.getD i.1 0 ^ 2 ∂P = (x.map (· ^ 2)).sum := by
      subst hx
      simp only [integral_const, probReal_univ, one_smul]
      rw [← List.sum_ofFn]
      congr 1
      refine List.ext_getElem (by simp) fun i h1 h2 => ?_
      simp only [List.getElem_ofFn, List.getElem_map]
      rw [List.getD_eq_getElem?_getD, List.getElem?_eq_getElem (by simpa using h1), Option.getD_some]
    rw [this]
    ring

/-- **C110 (relu).** With the default nonlinearity, every hidden layer halves the mean square. -/
theorem init_scale_relu [IsProbabilityMeasure P] {z : ℕ → ℕ → ℕ → Ω → ℝ} (hz : Spec.Draws P z) {inSize : ℕ} (outSize : ℕ)
    {hidden : List ℕ} (scale : ℝ) (hin : 0 < inSize) (hh : ∀ h ∈ hidden, 0 < h) (x : Row) (hx : x.length = inSize) :
    ∃ y : Ω → Row, (∀ ω, ∃ m, MLP.init inSize outSize hidden (fun v => max v 0) scale (fun k j i => z k j i ω) = .ok m ∧
        m.forward [x] = .ok [y ω] ∧ (y ω).length = outSize) ∧
      ∀ j < outSize, MemLp (fun ω => (y ω).getD j 0) 2 P ∧ ∫ ω, (y ω).getD j 0 ∂P = 0 ∧
        ∫ ω, (y ω).getD j 0 ^ 2 ∂P = scale ^ 2 * (1 / 2) ^ hidden.length * ((x.map (· ^ 2)).sum / inSize) := by
  refine init_scale hz (by fun_prop) (fun y => ?_) outSize scale hin hh x hx
  rcases le_total y 0 with h | h
  · rw [max_eq_right h, max_eq_left (by linarith)]
    ring
  · rw [max_eq_left h, max_eq_right (by linarith)]
    ring

/-! ## Non-vacuity -/

/-- There are such draws. -/
example : ∃ (Ω : Type) (_ : MeasurableSpace Ω) (P : Measure Ω) (_ : IsProbabilityMeasure P) (z : ℕ → ℕ → ℕ → Ω → ℝ), Spec.Draws P z := by
  refine ⟨ℕ × ℕ × ℕ → ℝ, inferInstance, Measure.infinitePi fun _ => gaussianReal 0 1, inferInstance, fun k j i ω => ω (k, j, i),
    fun k j i => by fun_prop, fun k j i => ?_, ?_⟩
  · exact Measure.infinitePi_map_eval (fun _ => gaussianReal 0 1) (k, j, i)
  · exact iIndepFun_infinitePi (X := fun _ x => x) (fun _ => by fun_prop)

end Pfrl.Networks
