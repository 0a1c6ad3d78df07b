import Verif.Replay.Props
import Verif.Sample.Uniform
import Verif.Ppo.Unbiased

/-!
# Minibatches of uniform replay are unbiased (C155)

The agents with experience replay compute their loss on `k` experiences that `ReplayBuffer.sample` draws.  C146 says which lists of
experiences are drawn with which probability.  Here the mean of any quantity over the experiences drawn — a loss, or its gradient at given
parameters — is compared with the mean over the buffer.
-/

set_option linter.unusedSectionVars false

namespace Pfrl.Replay.Unbiased

open MeasureTheory
open Pfrl.Sample.Uniform (Spec.Generator Spec.Returns)
open Pfrl.Ppo.Unbiased (Spec.mean)
open Queue (RAQ)

variable {Ω ε π E : Type} [MeasurableSpace Ω] [DecidableEq ε] [NormedAddCommGroup E] [NormedSpace ℝ E]

/-! ## Specification -/

/-- `b.sample(k)` returns `xs`: for some number of iterations of the loop of `sample_n_k`. -/
def Spec.Sampled (perm : Ω → List ℕ) (s : ℕ → Ω → ℕ) (b : RB ε π (RAQ (List (Tr π)))) (k : ℕ) (xs : List (List (Tr π))) (ω : Ω) : Prop :=
  ∃ fuel, b.sample (perm ω) (fun i => s i ω) fuel k = .ok xs

/-! ## Lemmas -/

variable {μ : Measure Ω} {n k : ℕ} {perm : Ω → List ℕ} {s : ℕ → Ω → ℕ}

/-- Index `x` is drawn. -/
def drawn (perm : Ω → List ℕ) (s : ℕ → Ω → ℕ) (n k x : ℕ) : Set Ω := {ω | ∃ l, Spec.Returns perm s n k l ω ∧ x ∈ l}

theorem drawn_measurable (h : Spec.Generator μ n k perm s) (hk : k ≤ n) (x : ℕ) : MeasurableSet (drawn perm s n k x) := by
  have : drawn perm s n k x = ⋃ l : List ℕ, if x ∈ l then {ω | Spec.Returns perm s n k l ω} else ∅ := by
    ext ω
    simp only [drawn, Set.mem_ofPred_eq, Set.mem_iUnion]
    constructor
    · rintro ⟨l, h1, h2⟩
      exact ⟨l, by simpa [h2] using h1⟩
    · rintro ⟨l, hl⟩
      split at hl
      · rename_i hx
        exact ⟨l, hl, hx⟩
      · exact absurd hl (Set.notMem_empty _)
  rw [this]
  refine MeasurableSet.iUnion fun l => ?_
  split
  · exact Sample.Uniform.returns_measurable h hk l
  · exact MeasurableSet.empty

theorem sum_drawn (h : Spec.Generator μ n k perm s) (hk : k ≤ n) (g : ℕ → E) {l : List ℕ} {ω : Ω} (hl : Spec.Returns perm s n k l ω) :
    (l.map g).sum = ∑ x ∈ Finset.range n, (drawn perm s n k x).indicator (fun _ => g x) ω := by
  obtain ⟨fuel, hf⟩ := id hl
  obtain ⟨h1, _, h3⟩ := Sample.sample_n_k_sound (h.choice ω) (fun i => h.below i ω) hf
  have hmem : ∀ x, ω ∈ drawn perm s n k x ↔ x ∈ l := by
    intro x
    constructor
    · rintro ⟨l', h4, h5⟩
      rwa [Sample.Uniform.returns_unique hk h4 hl] at h5
    · exact fun hx => ⟨l, hl, hx⟩
  have hsub : l.toFinset ⊆ Finset.range n := by
    intro x hx
    rw [List.mem_toFinset] at hx
    exact Finset.mem_range.2 (h3 x hx)
  rw [← List.sum_toFinset g h1]
  rw [← Finset.sum_subset hsub (fun x _ hx => by
    rw [List.mem_toFinset] at hx
    exact Set.indicator_of_notMem (fun hc => hx ((hmem x).1 hc)) _)]
  refine Finset.sum_congr rfl fun x hx => ?_
  rw [List.mem_toFinset] at hx
  rw [Set.indicator_of_mem ((hmem x).2 hx)]

/-- What `sample` returns are the items at the indices drawn. -/
theorem sampled_iff (h : Spec.Generator μ n k perm s) {b : RB ε π (RAQ (List (Tr π)))} (hn : b.memory.len = n) (hk : k ≤ n) {ω : Ω} {xs : List (List (Tr π))} :
    Spec.Sampled perm s b k xs ω ↔ ∃ l, Spec.Returns perm s n k l ω ∧ xs = l.map (fun i => b.memory.iter.getD i []) := by
  subst hn
  have key : ∀ fuel ixs, Sample.sampleNK (perm ω) (fun i => s i ω) fuel b.memory.len k = .ok ixs →
      b.sample (perm ω) (fun i => s i ω) fuel k = .ok (ixs.map (fun i => b.memory.iter.getD i [])) := by
    intro fuel ixs hf
    have h3 := (Sample.sample_n_k_sound (h.choice ω) (fun i => h.below i ω) hf).2.2
    obtain ⟨xs, g1, g2⟩ := Sample.mapM_get b.memory ixs h3
    have e : xs = ixs.map (fun i => b.memory.iter.getD i []) := by
      clear g1 h3 hf
      induction g2 with
      | nil => rfl
      | cons hi _ ih =>
        rw [List.map_cons, ← ih, List.getD_eq_getElem?_getD, hi]
        rfl
    rw [RB.sample, if_pos (by exact_mod_cast hk), Sample.raqSample, hf, ← e]
    exact g1
  constructor
  · rintro ⟨fuel, hs⟩
    cases hf : Sample.sampleNK (perm ω) (fun i => s i ω) fuel b.memory.len k with
    | error e =>
      rw [RB.sample, if_pos (by exact_mod_cast hk), Sample.raqSample, hf] at hs
      cases hs
    | ok ixs =>
      have := key fuel ixs hf
      rw [hs] at this
      exact ⟨ixs, ⟨fuel, hf⟩, Except.ok.inj this⟩
  · rintro ⟨l, ⟨fuel, hf⟩, rfl⟩
    exact ⟨fuel, key fuel l hf⟩

/-! ## C155 -/

/-- **C155.** Sampling ends with probability 1. -/
theorem sample_ends (h : Spec.Generator μ n k perm s) {b : RB ε π (RAQ (List (Tr π)))} (hn : b.memory.len = n) (hk : k ≤ n) :
    ∃ X : Ω → List (List (Tr π)), ∀ᵐ ω ∂μ, Spec.Sampled perm s b k (X ω) ω := by
  classical
  refine ⟨fun ω => if hx : ∃ xs, Spec.Sampled perm s b k xs ω then hx.choose else [], ?_⟩
  filter_upwards [(Sample.Uniform.sample_uniform h hk).1] with ω ⟨l, hl⟩
  have hx : ∃ xs, Spec.Sampled perm s b k xs ω := ⟨_, (sampled_iff h hn hk).2 ⟨l, hl, rfl⟩⟩
  rw [dif_pos hx]
  exact hx.choose_spec

variable [CompleteSpace E]

/-- **C155.** For every buffer and every number `k` of experiences that it has, the expectation of the mean of any function over the
experiences that `sample(k)` returns is the mean over the whole buffer.  With the gradient of the loss of an experience as the function, the
gradient of a minibatch loss is an unbiased estimate of the gradient of the loss of the whole buffer, at the same parameters. -/
theorem replay_unbiased (h : Spec.Generator μ n k perm s) {b : RB ε π (RAQ (List (Tr π)))} (hn : b.memory.len = n) (hk : k ≤ n) (hk0 : 0 < k)
    {X : Ω → List (List (Tr π))} (hX : ∀ᵐ ω ∂μ, Spec.Sampled perm s b k (X ω) ω) (f : List (Tr π) → E) :
    Integrable (fun ω => Spec.mean f (X ω)) μ ∧ ∫ ω, Spec.mean f (X ω) ∂μ = Spec.mean f b.memory.iter := by
  have := h.independent.isProbabilityMeasure
  set g : ℕ → E := fun i => f (b.memory.iter.getD i []) with hg
  have hae : (fun ω => Spec.mean f (X ω)) =ᵐ[μ]
      fun ω => (k : ℝ)⁻¹ • ∑ x ∈ Finset.range n, (drawn perm s n k x).indicator (fun _ => g x) ω := by
    filter_upwards [hX] with ω hω
    obtain ⟨l, hl, e⟩ := (sampled_iff h hn hk).1 hω
    obtain ⟨fuel, hf⟩ := id hl
    have hlen := (Sample.sample_n_k_sound (h.choice ω) (fun i => h.below i ω) hf).2.1
    rw [e, Spec.mean, List.length_map, hlen, List.map_map, ← sum_drawn h hk g hl]
    rfl
  have hint : ∀ x ∈ Finset.range n, Integrable ((drawn perm s n k x).indicator (fun _ => g x)) μ :=
    fun x _ => (integrable_const _).indicator (drawn_measurable h hk x)
  refine ⟨(((integrable_finsetSum _ hint).smul _).congr hae.symm), ?_⟩
  rw [integral_congr_ae hae, integral_smul, integral_finsetSum _ hint]
  have hx : ∀ x ∈ Finset.range n, ∫ ω, (drawn perm s n k x).indicator (fun _ => g x) ω ∂μ = ((k : ℝ) / n) • g x := by
    intro x hx
    rw [integral_indicator_const _ (drawn_measurable h hk x), Measure.real, drawn, Sample.Uniform.sample_inclusion h hk (Finset.mem_range.1 hx)]
    simp [ENNReal.toReal_div]
  rw [Finset.sum_congr rfl hx, ← Finset.smul_sum, smul_smul]
  have hk' : (k : ℝ) ≠ 0 := by exact_mod_cast hk0.ne'
  have hl : b.memory.iter.length = n := by rw [RAQ.iter_length, hn]
  have hs : (b.memory.iter.map f).sum = ∑ x ∈ Finset.range n, g x := by
    have := Ppo.Unbiased.take_drop_sum f b.memory.iter 0 n
    rw [List.drop_zero, ← hl, List.take_length, hl] at this
    rw [this]
    refine Finset.sum_congr rfl fun x hx => ?_
    have hx' : x < b.memory.iter.length := by rw [hl]; exact Finset.mem_range.1 hx
    show _ = f (b.memory.iter.getD x [])
    rw [Nat.zero_add, List.getElem?_eq_getElem hx', Option.map_some, Option.getD_some, List.getD_eq_getElem?_getD, List.getElem?_eq_getElem hx',
      Option.getD_some]
  rw [Spec.mean, hl, hs]
  congr 1
  field_simp

/-! ## Non-vacuity -/

/-- A buffer with three experiences of up to two transitions, from which two are drawn: the expected mean of the first payloads. -/
example : ∃ (Ω : Type) (_ : MeasurableSpace Ω) (μ : Measure Ω) (b : RB ℕ ℕ (RAQ (List (Tr ℕ)))) (X : Ω → List (List (Tr ℕ))),
    b.memory.iter.map (List.map Tr.payload) = [[1, 2], [2, 6], [6]] ∧
    ∫ ω, Spec.mean (fun e => ((e.headD ⟨0, false⟩).payload : ℝ)) (X ω) ∂μ = 3 := by
  obtain ⟨b0, b, h1, h2, h3, _⟩ := replay_buffer_stores_windows (ε := ℕ) (π := ℕ) none (n := 2) (by norm_num)
    [.append 0 ⟨1, false⟩, .append 0 ⟨2, false⟩, .append 0 ⟨6, true⟩]
  have hit : b.memory.iter = [[⟨1, false⟩, ⟨2, false⟩], [⟨2, false⟩, ⟨6, true⟩], [⟨6, true⟩]] := by rw [h3]; decide
  have hlen : b.memory.len = 3 := by rw [← RAQ.iter_length, hit]; rfl
  obtain ⟨μ, perm, s, hgen⟩ := Sample.Uniform.generator_exists (n := 3) (k := 2) (by norm_num) (by norm_num)
  obtain ⟨X, hX⟩ := sample_ends (ε := ℕ) (π := ℕ) hgen hlen (by norm_num)
  refine ⟨_, _, μ, b, X, by rw [hit]; rfl, ?_⟩
  rw [(replay_unbiased hgen hlen (by norm_num) (by norm_num) hX _).2, hit]
  norm_num [Spec.mean]

end Pfrl.Replay.Unbiased
