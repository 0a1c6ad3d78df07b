import Verif.Ppo.Minibatch
import Verif.Ppo.Sequences
import Mathlib.Algebra.BigOperators.Fin
import Mathlib.GroupTheory.Perm.Fin
import Mathlib.MeasureTheory.Integral.Bochner.Basic
import Mathlib.MeasureTheory.Integral.Bochner.Set
import Mathlib.MeasureTheory.Measure.Dirac
import Mathlib.Probability.UniformOn

/-!
# PPO minibatches are unbiased samples of the data (C154)

C30 says how often PPO uses each transition, whatever `random.sample` returns.  Here `random.sample` is a random permutation, and a
minibatch is compared with the whole data set: the mean of any quantity over a minibatch — a loss, or its gradient at given
parameters — has the mean over the data set as its expectation.
-/

set_option linter.unusedSectionVars false

namespace Pfrl.Ppo.Unbiased

open MeasureTheory

variable {α Ω E : Type} [MeasurableSpace Ω] [NormedAddCommGroup E] [NormedSpace ℝ E]

/-! ## Model -/

/-- `random.sample(dataset, k=len(dataset))`, `pfrl/agents/ppo.py:253`, in terms of the permutation drawn. -/
def shuffled (dataset : List α) (σ : Equiv.Perm (Fin dataset.length)) : List α := List.ofFn fun i => dataset.get (σ i)

/-! ## Specification -/

/-- All permutations are equally likely in every call.  Nothing is assumed about different calls. -/
structure Spec.Uniform (μ : Measure Ω) {n : ℕ} (σ : ℕ → Ω → Equiv.Perm (Fin n)) : Prop where
  meas : ∀ j τ, MeasurableSet {ω | σ j ω = τ}
  unif : ∀ j τ, μ {ω | σ j ω = τ} = ((n.factorial : ENNReal))⁻¹

/-- The mean of `f` over a list. -/
noncomputable def Spec.mean (f : α → E) (l : List α) : E := (l.length : ℝ)⁻¹ • (l.map f).sum

/-! ## Lemmas -/

theorem shuffled_perm (dataset : List α) (σ : Equiv.Perm (Fin dataset.length)) : (shuffled dataset σ).Perm dataset := by
  have : dataset = List.ofFn dataset.get := (List.ofFn_get dataset).symm
  conv_rhs => rw [this]
  exact Equiv.Perm.ofFn_comp_perm σ dataset.get

theorem take_drop_sum (f : α → E) (l : List α) (a m : ℕ) :
    (((l.drop a).take m).map f).sum = ∑ q ∈ Finset.range m, ((l[a + q]?).map f).getD 0 := by
  induction m with
  | zero => simp
  | succ m ih =>
    rw [Finset.sum_range_succ, ← ih, List.take_add_one, List.map_append, List.sum_append, List.getElem?_drop]
    congr 1
    cases l[a + m]? <;> simp

theorem flatten_block {m : ℕ} (L : List (List α)) (h : ∀ x ∈ L, x.length = m) (b : ℕ) :
    (L.flatten.drop (b * m)).take m = (L.getD b []) := by
  induction L generalizing b with
  | nil => simp
  | cons x L ih =>
    have hx : x.length = m := h x List.mem_cons_self
    have hL := fun y hy => h y (List.mem_cons_of_mem _ hy)
    cases b with
    | zero => simp [← hx]
    | succ b =>
      have : (b + 1) * m = x.length + b * m := by rw [hx]; ring
      rw [List.flatten_cons, this, ← List.drop_drop, List.drop_left, ih hL]
      simp

theorem flatten_length {m : ℕ} (L : List (List α)) (h : ∀ x ∈ L, x.length = m) : L.flatten.length = L.length * m := by
  induction L with
  | nil => simp
  | cons x L ih =>
    rw [List.flatten_cons, List.length_append, ih fun y hy => h y (List.mem_cons_of_mem _ hy), h x List.mem_cons_self, List.length_cons]
    ring

theorem drawn_get {N : ℕ} (hN : 0 < N) (samples : ℕ → List α) (h : ∀ j, (samples j).length = N) (k p : ℕ) (hp : p < k * N) :
    (Spec.drawn samples k)[p]? = (samples (p / N))[N - 1 - p % N]? := by
  have hb := flatten_block ((List.range k).map fun j : ℕ => (samples j).reverse) (m := N)
    (by intro x hx; obtain ⟨j, _, rfl⟩ := List.mem_map.1 hx; simp [h]) (p / N)
  have hj : p / N < k := Nat.div_lt_of_lt_mul (by rw [Nat.mul_comm]; exact hp)
  have hr : p % N < N := Nat.mod_lt _ hN
  have := congrArg (fun l : List α => l[p % N]?) hb
  simp only [List.getElem?_take_of_lt hr, List.getElem?_drop] at this
  have hd : p / N * N + p % N = p := by rw [Nat.mul_comm]; exact Nat.div_add_mod p N
  rw [hd] at this
  unfold Spec.drawn
  rw [this]
  simp only [List.getD_eq_getElem?_getD, List.getElem?_map, List.getElem?_range hj, Option.map_some, Option.getD_some]
  rw [List.getElem?_reverse (by rw [h]; exact hr), h]

theorem sum_perm (n : ℕ) (g : Fin n → E) (i : Fin n) :
    (n : ℝ) • ∑ τ : Equiv.Perm (Fin n), g (τ i) = (n.factorial : ℝ) • ∑ x, g x := by
  have h1 : ∀ j : Fin n, ∑ τ : Equiv.Perm (Fin n), g (τ j) = ∑ τ : Equiv.Perm (Fin n), g (τ i) := by
    intro j
    refine Fintype.sum_equiv (Equiv.mulRight (Equiv.swap i j)) _ _ fun τ => ?_
    simp
  have h2 : ∑ j : Fin n, ∑ τ : Equiv.Perm (Fin n), g (τ j) = (n : ℝ) • ∑ τ : Equiv.Perm (Fin n), g (τ i) := by
    rw [Finset.sum_congr rfl fun j _ => h1 j, Finset.sum_const, Finset.card_univ, Fintype.card_fin, Nat.cast_smul_eq_nsmul]
  have h3 : ∀ τ : Equiv.Perm (Fin n), ∑ j, g (τ j) = ∑ x, g x := fun τ => Equiv.sum_comp τ g
  rw [← h2, Finset.sum_comm, Finset.sum_congr rfl fun τ _ => h3 τ, Finset.sum_const, Finset.card_univ, Fintype.card_perm,
    Fintype.card_fin, Nat.cast_smul_eq_nsmul]

variable [CompleteSpace E]

theorem integral_of_perm {μ : Measure Ω} [IsProbabilityMeasure μ] {n : ℕ} {σ : ℕ → Ω → Equiv.Perm (Fin n)} (h : Spec.Uniform μ σ) (j : ℕ)
    (F : Equiv.Perm (Fin n) → E) :
    Integrable (fun ω => F (σ j ω)) μ ∧ ∫ ω, F (σ j ω) ∂μ = (n.factorial : ℝ)⁻¹ • ∑ τ, F τ := by
  have e : (fun ω => F (σ j ω)) = fun ω => ∑ τ, ({ω | σ j ω = τ} : Set Ω).indicator (fun _ => F τ) ω := by
    funext ω
    rw [Finset.sum_eq_single (σ j ω)]
    · simp
    · intro τ _ hne
      simp [Ne.symm hne]
    · simp
  have hi : ∀ τ ∈ (Finset.univ : Finset (Equiv.Perm (Fin n))), Integrable (({ω | σ j ω = τ} : Set Ω).indicator (fun _ => F τ)) μ :=
    fun τ _ => (integrable_const _).indicator (h.meas j τ)
  rw [e]
  refine ⟨integrable_finsetSum _ hi, ?_⟩
  rw [integral_finsetSum _ hi, Finset.smul_sum]
  refine Finset.sum_congr rfl fun τ _ => ?_
  rw [integral_indicator_const _ (h.meas j τ), Measure.real, h.unif]
  simp

/-- The `i`-th element of a shuffled data set is any of its elements with the same probability. -/
theorem entry_integral {μ : Measure Ω} [IsProbabilityMeasure μ] (dataset : List α) {σ : ℕ → Ω → Equiv.Perm (Fin dataset.length)}
    (h : Spec.Uniform μ σ) (f : α → E) (j : ℕ) {i : ℕ} (hi : i < dataset.length) :
    Integrable (fun ω => (((shuffled dataset (σ j ω))[i]?).map f).getD 0) μ ∧
      ∫ ω, (((shuffled dataset (σ j ω))[i]?).map f).getD 0 ∂μ = Spec.mean f dataset := by
  have e : (fun ω => (((shuffled dataset (σ j ω))[i]?).map f).getD 0) = fun ω => f (dataset.get (σ j ω ⟨i, hi⟩)) := by
    funext ω
    simp [shuffled, hi]
  rw [e]
  obtain ⟨h1, h2⟩ := integral_of_perm h j fun τ => f (dataset.get (τ ⟨i, hi⟩))
  refine ⟨h1, h2.trans ?_⟩
  have h3 := sum_perm dataset.length (fun x => f (dataset.get x)) ⟨i, hi⟩
  have hn : (dataset.length : ℝ) ≠ 0 := by
    have : dataset.length ≠ 0 := by omega
    exact_mod_cast this
  have hf : ((dataset.length).factorial : ℝ) ≠ 0 := by exact_mod_cast Nat.factorial_ne_zero _
  have h4 : (dataset.map f).sum = ∑ x, f (dataset.get x) := by
    rw [← List.sum_ofFn]
    congr 1
    exact (List.ofFn_get (dataset.map f)).symm.trans (by
      apply List.ext_getElem (by simp)
      intro k _ _
      simp)
  rw [Spec.mean, h4]
  have h5 : ∑ τ : Equiv.Perm (Fin dataset.length), f (dataset.get (τ ⟨i, hi⟩))
      = (dataset.length : ℝ)⁻¹ • ((dataset.length).factorial : ℝ) • ∑ x, f (dataset.get x) := by
    rw [← h3, inv_smul_smul₀ hn]
  rw [h5, smul_comm, inv_smul_smul₀ hf]

/-! ## C154 -/

/-- **C154.** For every data set, minibatch size and number of epochs, if `random.sample` returns every permutation with the same
probability: each minibatch of the update has `minibatch_size` elements, and the expectation of the mean of any function over it is the
mean over the data set.  With the gradient of the loss of a transition as the function, the gradient of a minibatch loss is an unbiased
estimate of the gradient of the loss of all data, at the same parameters. -/
theorem minibatch_unbiased {μ : Measure Ω} [IsProbabilityMeasure μ] (dataset : List α) (hne : dataset ≠ [])
    {σ : ℕ → Ω → Equiv.Perm (Fin dataset.length)} (h : Spec.Uniform μ σ) {mb : ℕ} (hmb : 0 < mb) (epochs : ℕ) :
    ∃ batches : Ω → List (List α),
      (∀ ω, yieldMinibatches (fun j => shuffled dataset (σ j ω)) dataset mb epochs = .ok (batches ω)) ∧
      (∀ ω, (batches ω).length = (dataset.length * epochs + mb - 1) / mb) ∧
      ∀ b < (dataset.length * epochs + mb - 1) / mb, (∀ ω, ((batches ω).getD b []).length = mb) ∧
        ∀ f : α → E, Integrable (fun ω => Spec.mean f ((batches ω).getD b [])) μ ∧
          ∫ ω, Spec.mean f ((batches ω).getD b []) ∂μ = Spec.mean f dataset := by
  have hpos : 0 < dataset.length := List.length_pos_of_ne_nil hne
  have hsl : ∀ ω j, (shuffled dataset (σ j ω)).length = dataset.length := fun ω j => by simp [shuffled]
  have key : ∀ ω, ∃ batches, yieldMinibatches (fun j => shuffled dataset (σ j ω)) dataset mb epochs = .ok batches ∧
      batches.length = (dataset.length * epochs + mb - 1) / mb ∧ (∀ b ∈ batches, b.length = mb) ∧
      ∃ k, Spec.used batches <+: Spec.drawn (fun j => shuffled dataset (σ j ω)) k := by
    intro ω
    unfold yieldMinibatches
    rw [if_neg (by simpa using hne)]
    obtain ⟨batches, k, h1, h2, h3, h4, h5⟩ := minibatchLoop_spec (fun j => shuffled dataset (σ j ω)) mb
      (dataset.length * epochs) hmb (fun j => by rw [hsl]; exact hpos) (dataset.length * epochs + 1) 0 0 [] [] (by omega) (by omega)
      (by simp [Spec.drawn])
    rw [List.nil_append] at h5
    refine ⟨batches, h1, ?_, h2, k, h5⟩
    generalize dataset.length * epochs = total at *
    rw [Nat.zero_add] at h3 h4
    symm
    by_cases hb : batches = []
    · subst hb
      simp only [List.length_nil, Nat.zero_mul] at h3 ⊢
      exact Nat.div_eq_of_lt (by omega)
    · have := h4 hb
      rw [Nat.div_eq_iff hmb]
      omega
  choose batches g1 g2 g3 g4 using key
  refine ⟨batches, g1, g2, fun b hb => ?_⟩
  have hlen : ∀ ω, ((batches ω).getD b []).length = mb := by
    intro ω
    have hb' : b < (batches ω).length := by rw [g2]; exact hb
    rw [List.getD_eq_getElem?_getD, List.getElem?_eq_getElem hb', Option.getD_some]
    exact g3 ω _ (List.getElem_mem hb')
  refine ⟨hlen, fun f => ?_⟩
  have hsum : ∀ ω, (((batches ω).getD b []).map f).sum = ∑ q ∈ Finset.range mb,
      (((shuffled dataset (σ ((b * mb + q) / dataset.length) ω))[dataset.length - 1 - (b * mb + q) % dataset.length]?).map f).getD 0 := by
    intro ω
    have hb' : b < (batches ω).length := by rw [g2]; exact hb
    obtain ⟨k, hk⟩ := g4 ω
    have hrev : ∀ x ∈ (batches ω).map List.reverse, x.length = mb := by
      intro x hx
      obtain ⟨y, hy, rfl⟩ := List.mem_map.1 hx
      simpa using g3 ω y hy
    have hblock := flatten_block ((batches ω).map List.reverse) hrev b
    have hul : (Spec.used (batches ω)).length = (batches ω).length * mb := by
      have := flatten_length ((batches ω).map List.reverse) hrev
      simpa [Spec.used] using this
    have hdl : (Spec.drawn (fun j => shuffled dataset (σ j ω)) k).length = k * dataset.length := by
      have := flatten_length ((List.range k).map fun j : ℕ => (shuffled dataset (σ j ω)).reverse) (m := dataset.length)
        (by intro x hx; obtain ⟨j, _, rfl⟩ := List.mem_map.1 hx; simp [hsl])
      simpa [Spec.drawn] using this
    have e1 : ((batches ω).getD b []).reverse = ((Spec.used (batches ω)).drop (b * mb)).take mb := by
      rw [Spec.used, hblock]
      simp [List.getD_eq_getElem?_getD, List.getElem?_eq_getElem hb']
    have e2 : (((batches ω).getD b []).map f).sum = ((((batches ω).getD b []).reverse).map f).sum := by
      rw [List.map_reverse, List.sum_reverse]
    rw [e2, e1, take_drop_sum]
    refine Finset.sum_congr rfl fun q hq => ?_
    have hq' : q < mb := Finset.mem_range.1 hq
    have hp : b * mb + q < (Spec.used (batches ω)).length := by
      rw [hul]
      have : (b + 1) * mb ≤ (batches ω).length * mb := Nat.mul_le_mul_right _ hb'
      rw [Nat.add_mul, Nat.one_mul] at this
      omega
    have hp' : b * mb + q < k * dataset.length := by rw [← hdl]; exact lt_of_lt_of_le hp hk.length_le
    have e3 : (Spec.used (batches ω))[b * mb + q]? = (Spec.drawn (fun j => shuffled dataset (σ j ω)) k)[b * mb + q]? := by
      obtain ⟨t, ht⟩ := hk
      rw [← ht, List.getElem?_append_left hp]
    rw [e3, drawn_get hpos _ (hsl ω) k _ hp']
  have hentry : ∀ q, dataset.length - 1 - (b * mb + q) % dataset.length < dataset.length := fun q => by omega
  have hfun : (fun ω => Spec.mean f ((batches ω).getD b [])) = fun ω => (mb : ℝ)⁻¹ • ∑ q ∈ Finset.range mb,
      (((shuffled dataset (σ ((b * mb + q) / dataset.length) ω))[dataset.length - 1 - (b * mb + q) % dataset.length]?).map f).getD 0 := by
    funext ω
    rw [Spec.mean, hlen, hsum]
  rw [hfun]
  have hint : ∀ q ∈ Finset.range mb, Integrable (fun ω =>
      (((shuffled dataset (σ ((b * mb + q) / dataset.length) ω))[dataset.length - 1 - (b * mb + q) % dataset.length]?).map f).getD 0) μ :=
    fun q _ => (entry_integral dataset h f _ (hentry q)).1
  refine ⟨(integrable_finsetSum _ hint).smul _, ?_⟩
  rw [integral_smul, integral_finsetSum _ hint, Finset.sum_congr rfl fun q _ => (entry_integral dataset h f _ (hentry q)).2,
    Finset.sum_const, Finset.card_range, ← Nat.cast_smul_eq_nsmul ℝ, inv_smul_smul₀ (by exact_mod_cast hmb.ne')]

/-- **C154.** The expected number of times a transition is in a minibatch is the same for all transitions of the data set. -/
theorem expected_uses [DecidableEq α] {μ : Measure Ω} [IsProbabilityMeasure μ] (dataset : List α) (hnd : dataset.Nodup)
    {σ : ℕ → Ω → Equiv.Perm (Fin dataset.length)} (h : Spec.Uniform μ σ) {mb : ℕ} (hmb : 0 < mb) (epochs : ℕ) {x : α} (hx : x ∈ dataset)
    {batches : Ω → List (List α)} (hb : ∀ ω, yieldMinibatches (fun j => shuffled dataset (σ j ω)) dataset mb epochs = .ok (batches ω))
    {b : ℕ} (hlt : b < (dataset.length * epochs + mb - 1) / mb) :
    ∫ ω, (((batches ω).getD b []).count x : ℝ) ∂μ = mb / dataset.length := by
  obtain ⟨batches', h1, _, h3⟩ := minibatch_unbiased (E := ℝ) dataset (List.ne_nil_of_mem hx) h hmb epochs
  have : batches' = batches := by
    funext ω
    have := (h1 ω).symm.trans (hb ω)
    exact Except.ok.inj this
  subst this
  obtain ⟨h4, h5⟩ := h3 b hlt
  obtain ⟨_, h6⟩ := h5 fun y => if y = x then 1 else 0
  have hc : ∀ l : List α, (l.map fun y => if y = x then (1 : ℝ) else 0).sum = l.count x := by
    intro l
    induction l with
    | nil => simp
    | cons y l ih =>
      rw [List.map_cons, List.sum_cons, ih, List.count_cons]
      by_cases hy : y = x <;> simp [hy, add_comm]
  have hm : (mb : ℝ) ≠ 0 := by exact_mod_cast hmb.ne'
  simp only [Spec.mean, h4, hc, smul_eq_mul] at h6
  rw [integral_const_mul, List.count_eq_one_of_mem hnd hx] at h6
  rw [inv_mul_eq_iff_eq_mul₀ hm] at h6
  rw [h6]
  push_cast
  ring

/-! ## Limits -/

/-- Minibatches for recurrent models are not unbiased: with two sequences of one and three transitions and minibatches of three, each of
the two orders of the sequences gives one minibatch and drops a transition, so that the only transition of the short sequence is used half as
often as those of the long one that are never dropped. -/
theorem recurrent_biased :
    yieldSubsets [[0], [1, 2, 3]] 3 = .ok [[[0], [1, 2]]] ∧ yieldSubsets [[1, 2, 3], [0]] 3 = .ok [[[1, 2, 3]]] ∧
      ∃ f : ℕ → ℝ, (1 / 2 : ℝ) * Spec.mean f [0, 1, 2] + 1 / 2 * Spec.mean f [1, 2, 3] ≠ Spec.mean f [0, 1, 2, 3] := by
  refine ⟨rfl, rfl, fun x => if x = 0 then 1 else 0, ?_⟩
  norm_num [Spec.mean]

/-! ## Non-vacuity -/

/-- Random permutations as assumed exist for every size. -/
theorem uniform_exists (n : ℕ) : ∃ (Ω : Type) (_ : MeasurableSpace Ω) (μ : Measure Ω) (σ : ℕ → Ω → Equiv.Perm (Fin n)),
    IsProbabilityMeasure μ ∧ Spec.Uniform μ σ := by
  let _ : MeasurableSpace (Equiv.Perm (Fin n)) := ⊤
  have : MeasurableSingletonClass (Equiv.Perm (Fin n)) := ⟨fun _ => trivial⟩
  refine ⟨Equiv.Perm (Fin n), ⊤, ProbabilityTheory.uniformOn Set.univ, fun _ ω => ω, ?_, ⟨fun _ _ => trivial, fun j τ => ?_⟩⟩
  · exact ProbabilityTheory.isProbabilityMeasure_uniformOn Set.finite_univ Set.univ_nonempty
  · have : ({ω | ω = τ} : Set (Equiv.Perm (Fin n))) = {τ} := by ext; simp
    rw [this, ProbabilityTheory.uniformOn_univ, Measure.count_singleton, Fintype.card_perm, Fintype.card_fin, one_div]

/-- Three transitions, minibatches of two, two epochs: three minibatches; the second one has one transition of each shuffled copy. -/
example : yieldMinibatches (fun j => shuffled [10, 11, 12] (if j = 0 then Equiv.swap 0 2 else 1)) [10, 11, 12] 2 2
    = .ok [[11, 10], [12, 12], [10, 11]] := by decide

end Pfrl.Ppo.Unbiased
