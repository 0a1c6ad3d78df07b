import Verif.Sample.Uniform
import Verif.Episodic.Props
import Mathlib.Order.Interval.Finset.Nat
import Mathlib.Probability.Independence.Basic
import Mathlib.Probability.ProductMeasure
import Mathlib.MeasureTheory.Measure.Prod

/-!
# The distribution of sampled sub-episodes (C149)

The model is that of C16 (`Verif.Episodic.Model`): `EpisodicReplayBuffer.sample_episodes`,
`pfrl/replay_buffers/episodic.py:48-54`, and `random_subseq`, `pfrl/replay_buffer.py:149-154`, as functions of the random
numbers drawn.  Here these are random variables.
-/

namespace Pfrl.Episodic.Uniform

open MeasureTheory ProbabilityTheory Pfrl.Sample.Uniform
open Pfrl.Replay (Tr)

variable {Ω : Type} [MeasurableSpace Ω]

/-! ## Specification -/

/-- The offsets: `r p m` is the value of `np.random.randint(0, m)` in the call of `random_subseq` for the `p`-th of the
sampled episodes.  Each number below `m` is equally likely, whichever episodes were sampled. -/
structure Spec.Offsets (μ : Measure Ω) (n k : ℕ) (perm : Ω → List ℕ) (s : ℕ → Ω → ℕ) (r : ℕ → ℕ → Ω → ℕ) : Prop where
  measurable : ∀ p m, Measurable (r p m)
  below : ∀ p m ω, 0 < m → r p m ω < m
  uniform : ∀ p m x, x < m → μ {ω | r p m ω = x} = 1 / m
  independent : ∀ p m l x, IndepSet {ω | Sample.Uniform.Spec.Returns perm s n k l ω} {ω | r p m ω = x} μ

/-- The call `sample_episodes(k, max_len)` returns `out`. -/
def Spec.Sampled {ε π : Type} (perm : Ω → List ℕ) (s : ℕ → Ω → ℕ) (r : ℕ → ℕ → Ω → ℕ) (b : EB ε π) (k : ℕ)
    (maxLen : Option ℕ) (out : List (List (Tr π))) (ω : Ω) : Prop :=
  ∃ fuel, b.sampleEpisodes (perm ω) (fun i => s i ω) fuel (fun p m => r p m ω) k maxLen = .ok out

/-- The number of sub-episodes of length `l` of an episode of `len` steps that contain its step `j`. -/
def Spec.covering (len l j : ℕ) : ℕ := ((Finset.range (len - l + 1)).filter fun i => i ≤ j ∧ j < i + l).card

/-! ## Lemmas -/

section Law
variable {μ : Measure Ω} {n k : ℕ} {perm : Ω → List ℕ} {s : ℕ → Ω → ℕ} {r : ℕ → ℕ → Ω → ℕ}

theorem meas_and (h : Sample.Uniform.Spec.Generator μ n k perm s) (ho : Spec.Offsets μ n k perm s r) (hk : k ≤ n)
    {m : ℕ} (S : Finset ℕ) (hS : ∀ i ∈ S, i < m) (l : List ℕ) (p : ℕ) :
    μ ({ω | Sample.Uniform.Spec.Returns perm s n k l ω} ∩ {ω | r p m ω ∈ S}) =
      μ {ω | Sample.Uniform.Spec.Returns perm s n k l ω} * (S.card / m) := by
  have hset : {ω | Sample.Uniform.Spec.Returns perm s n k l ω} ∩ {ω | r p m ω ∈ S} =
      ⋃ i ∈ S, ({ω | Sample.Uniform.Spec.Returns perm s n k l ω} ∩ {ω | r p m ω = i}) := by
    ext ω
    simp only [Set.mem_inter_iff, Set.mem_ofPred_eq, Set.mem_iUnion, exists_prop]
    constructor
    · rintro ⟨h1, h2⟩; exact ⟨_, h2, h1, rfl⟩
    · rintro ⟨i, hi, h1, h2⟩; exact ⟨h1, h2 ▸ hi⟩
  have hm : ∀ i, MeasurableSet {ω | r p m ω = i} := fun i => ho.measurable p m (MeasurableSet.of_discrete (s := {i}))
  rw [hset, measure_biUnion_finset]
  · rw [Finset.sum_congr rfl fun i hi => by
      rw [(ho.independent p m l i).measure_inter_eq_mul, ho.uniform p m i (hS i hi)]]
    rw [Finset.sum_const, nsmul_eq_mul, ← mul_assoc, mul_comm _ (μ _), mul_assoc]
    congr 1
    rw [← mul_div_assoc, mul_one]
  · intro i _ i' _ hne
    refine Set.disjoint_left.2 ?_
    rintro ω ⟨_, h1⟩ ⟨_, h2⟩
    exact hne (h1.symm.trans h2)
  · intro i _
    exact (returns_measurable h hk l).inter (hm i)

/-- Item `x` is sampled, and the offset drawn at its place is one of `S`. -/
theorem place_prob (h : Sample.Uniform.Spec.Generator μ n k perm s) (ho : Spec.Offsets μ n k perm s r) (hk : k ≤ n)
    {x : ℕ} (hx : x < n) {m : ℕ} (S : Finset ℕ) (hS : ∀ i ∈ S, i < m) :
    μ {ω | ∃ l p, Sample.Uniform.Spec.Returns perm s n k l ω ∧ l[p]? = some x ∧ r p m ω ∈ S} =
      (k / n : ENNReal) * (S.card / m) := by
  classical
  let F : Finset (Fin k ↪ Fin n) := Finset.univ.filter fun e => ∃ i, e i = ⟨x, hx⟩
  let A : (Fin k ↪ Fin n) → Set Ω := fun e => {ω | Sample.Uniform.Spec.Returns perm s n k (listOf e) ω}
  let pl : (Fin k ↪ Fin n) → ℕ := fun e => if h : ∃ i, e i = ⟨x, hx⟩ then (h.choose : ℕ) else 0
  have hpl : ∀ e ∈ F, (listOf e)[pl e]? = some x := by
    intro e he
    have he : ∃ i, e i = ⟨x, hx⟩ := (Finset.mem_filter.mp he).2
    have e1 : pl e = (he.choose : ℕ) := by simp only [pl, dif_pos he]
    rw [e1, listOf, List.getElem?_ofFn, dif_pos he.choose.2]
    simp only [Fin.eta, he.choose_spec]
  have hret : ∀ l ω, Sample.Uniform.Spec.Returns perm s n k l ω → ∃ e : Fin k ↪ Fin n, l = listOf e := by
    rintro l ω ⟨fuel, hf⟩
    obtain ⟨e, he⟩ := choice_listOf (Sample.sample_n_k_sound (h.choice ω) (fun i => h.below i ω) hf)
    exact ⟨e, he⟩
  have hset : {ω | ∃ l p, Sample.Uniform.Spec.Returns perm s n k l ω ∧ l[p]? = some x ∧ r p m ω ∈ S} =
      ⋃ e ∈ F, (A e ∩ {ω | r (pl e) m ω ∈ S}) := by
    ext ω
    simp only [Set.mem_ofPred_eq, Set.mem_iUnion, exists_prop, Set.mem_inter_iff, A]
    constructor
    · rintro ⟨l, p, h1, h2, h3⟩
      obtain ⟨e, rfl⟩ := hret l ω h1
      have hmem : x ∈ listOf e := List.mem_of_getElem? h2
      obtain ⟨i, hi⟩ := (List.mem_ofFn' _ _).1 hmem
      have he : e ∈ F := Finset.mem_filter.mpr ⟨Finset.mem_univ _, i, Fin.ext hi⟩
      refine ⟨e, he, h1, ?_⟩
      have hnd := (listOf_choice e).1
      have : p = pl e := by
        have h4 := hpl e he
        obtain ⟨a1, a2⟩ := List.getElem?_eq_some_iff.1 h2
        obtain ⟨b1, b2⟩ := List.getElem?_eq_some_iff.1 h4
        exact (List.Nodup.getElem_inj_iff hnd).1 (a2.trans b2.symm)
      rwa [← this]
    · rintro ⟨e, he, h1, h2⟩
      exact ⟨_, pl e, h1, hpl e he, h2⟩
  have hset2 : {ω | ∃ l, Sample.Uniform.Spec.Returns perm s n k l ω ∧ x ∈ l} = ⋃ e ∈ F, A e := by
    ext ω
    simp only [Set.mem_ofPred_eq, Set.mem_iUnion, exists_prop, A]
    constructor
    · rintro ⟨l, h1, h2⟩
      obtain ⟨e, rfl⟩ := hret l ω h1
      obtain ⟨i, hi⟩ := (List.mem_ofFn' _ _).1 h2
      exact ⟨e, Finset.mem_filter.mpr ⟨Finset.mem_univ _, i, Fin.ext hi⟩, h1⟩
    · rintro ⟨e, he, h1⟩
      exact ⟨_, h1, List.mem_of_getElem? (hpl e he)⟩
  have hdis : ∀ e e' : Fin k ↪ Fin n, e ≠ e' → Disjoint (A e) (A e') := fun e e' hne =>
    Set.disjoint_left.2 fun ω h1 h2 => hne (listOf_injective (returns_unique hk h1 h2))
  have hmA : ∀ e, MeasurableSet (A e) := fun e => returns_measurable h hk _
  have hmS : ∀ p, MeasurableSet {ω | r p m ω ∈ S} := fun p =>
    ho.measurable p m (MeasurableSet.of_discrete (s := {i | i ∈ S}))
  rw [hset, measure_biUnion_finset (fun e _ e' _ hne => (hdis e e' hne).mono Set.inter_subset_left Set.inter_subset_left)
    (fun e _ => (hmA e).inter (hmS _)), Finset.sum_congr rfl fun e _ => meas_and h ho hk S hS (listOf e) (pl e),
    ← Finset.sum_mul]
  congr 1
  rw [← sample_inclusion h hk hx, hset2, measure_biUnion_finset (fun e _ e' _ hne => hdis e e' hne) fun e _ => hmA e]

end Law

theorem subseqs_get {α : Type} (rng : ℕ → ℕ → ℕ) (l : ℕ) : ∀ (eps : List (List α)) (k p : ℕ),
    (subseqs rng l k eps)[p]? = (eps[p]?).map fun ep => randomSubseq ep l (rng (k + p) (ep.length - l + 1)) := by
  intro eps
  induction eps with
  | nil => intro k p; simp [subseqs]
  | cons ep eps ih =>
    intro k p
    cases p with
    | zero => simp [subseqs]
    | succ p =>
      simp only [subseqs, List.getElem?_cons_succ]
      rw [ih]
      congr 2
      funext ep
      congr 2
      omega

/-- What `sample_episodes` returns, by place. -/
theorem sampled_iff {ε π : Type} {perm : Ω → List ℕ} {s : ℕ → Ω → ℕ} {r : ℕ → ℕ → Ω → ℕ} {b : EB ε π} {k : ℕ}
    {μ : Measure Ω} (h : Sample.Uniform.Spec.Generator μ b.episodic.len k perm s) (hk : k ≤ b.episodic.len) (l : ℕ)
    (ω : Ω) (Q : List (Tr π) → Prop) :
    (∃ out, Spec.Sampled perm s r b k (some l) out ω ∧ ∃ w ∈ out, Q w) ↔
      ∃ ixs p x ep, Sample.Uniform.Spec.Returns perm s b.episodic.len k ixs ω ∧ ixs[p]? = some x ∧
        b.episodic.iter[x]? = some ep ∧ Q (randomSubseq ep l (r p (ep.length - l + 1) ω)) := by
  have key : ∀ fuel ixs, Sample.sampleNK (perm ω) (fun i => s i ω) fuel b.episodic.len k = .ok ixs →
      ∃ eps, Sample.raqSample (perm ω) (fun i => s i ω) fuel b.episodic k = .ok eps ∧
        ∀ p : ℕ, eps[p]? = (ixs[p]?).bind fun x => b.episodic.iter[x]? := by
    intro fuel ixs hf
    have h3 := (Sample.sample_n_k_sound (h.choice ω) (fun i => h.below i ω) hf).2.2
    obtain ⟨eps, g1, g2⟩ := Sample.mapM_get b.episodic ixs h3
    refine ⟨eps, by rw [Sample.raqSample, hf]; exact g1, ?_⟩
    clear g1 h3 hf
    induction g2 with
    | nil => simp
    | cons hi _ ih =>
      intro p
      cases p with
      | zero => simpa using hi.symm
      | succ p => simpa using ih p
  have hge : b.episodic.len ≥ k := hk
  constructor
  · rintro ⟨out, ⟨fuel, hf⟩, w, hw, hQ⟩
    rw [EB.sampleEpisodes, if_pos hge] at hf
    cases hn : Sample.sampleNK (perm ω) (fun i => s i ω) fuel b.episodic.len k with
    | error e => rw [Sample.raqSample, hn] at hf; cases hf
    | ok ixs =>
      obtain ⟨eps, h1, h2⟩ := key fuel ixs hn
      rw [h1] at hf
      simp only [Except.ok.injEq] at hf
      subst hf
      obtain ⟨p, hp⟩ := List.getElem?_of_mem hw
      rw [subseqs_get, Option.map_eq_some_iff] at hp
      obtain ⟨ep, hep, rfl⟩ := hp
      rw [h2, Option.bind_eq_some_iff] at hep
      obtain ⟨x, hx1, hx2⟩ := hep
      rw [Nat.zero_add] at hQ
      exact ⟨ixs, p, x, ep, ⟨fuel, hn⟩, hx1, hx2, hQ⟩
  · rintro ⟨ixs, p, x, ep, ⟨fuel, hn⟩, hx1, hx2, hQ⟩
    obtain ⟨eps, h1, h2⟩ := key fuel ixs hn
    refine ⟨subseqs (fun p m => r p m ω) l 0 eps, ⟨fuel, ?_⟩, randomSubseq ep l (r p (ep.length - l + 1) ω), ?_, hQ⟩
    · rw [EB.sampleEpisodes, if_pos hge, h1]
    · refine List.mem_of_getElem? (i := p) ?_
      rw [subseqs_get, h2, hx1]
      simp [hx2]

theorem mem_window {α : Type} {y : List α} (hy : y.Nodup) {j i l : ℕ} (hj : j < y.length) :
    y[j] ∈ (y.drop i).take l ↔ i ≤ j ∧ j < i + l := by
  constructor
  · intro hm
    obtain ⟨p, hp, he⟩ := List.getElem_of_mem hm
    rw [List.length_take, List.length_drop] at hp
    rw [List.getElem_take, List.getElem_drop] at he
    have := (List.Nodup.getElem_inj_iff hy).1 he
    omega
  · rintro ⟨h1, h2⟩
    refine List.mem_of_getElem? (i := j - i) ?_
    rw [List.getElem?_take, if_pos (by omega), List.getElem?_drop]
    rw [show i + (j - i) = j by omega, List.getElem?_eq_getElem hj]

/-- Stored transitions are different: a transition tells its episode. -/
theorem episode_of {α : Type} {eps : List (List α)} (hd : eps.flatten.Nodup) {x x' : ℕ} {y y' : List α} {t : α}
    (hx : eps[x]? = some y) (hx' : eps[x']? = some y') (h : t ∈ y) (h' : t ∈ y') : x = x' := by
  rw [List.nodup_flatten] at hd
  obtain ⟨a1, rfl⟩ := List.getElem?_eq_some_iff.1 hx
  obtain ⟨b1, rfl⟩ := List.getElem?_eq_some_iff.1 hx'
  by_contra hne
  have hp := List.pairwise_iff_getElem.1 hd.2
  rcases Nat.lt_or_gt_of_ne hne with hlt | hlt
  · exact hp x x' a1 b1 hlt h h'
  · exact hp x' x b1 a1 hlt h' h

/-! ## C149 -/

/-- **C149 (transitions).** A buffer of `n` episodes without equal transitions, `sample_episodes(k, max_len=l)`: step `j` of
an episode longer than `l` is in the sample with probability `k / n` times the fraction of the sub-episodes of length `l`
that contain it. -/
theorem transition_inclusion {ε π : Type} {μ : Measure Ω} {perm : Ω → List ℕ} {s : ℕ → Ω → ℕ} {r : ℕ → ℕ → Ω → ℕ}
    {b : EB ε π} {k : ℕ} (h : Sample.Uniform.Spec.Generator μ b.episodic.len k perm s)
    (ho : Spec.Offsets μ b.episodic.len k perm s r) (hk : k ≤ b.episodic.len)
    (hd : b.episodic.iter.flatten.Nodup) {y : List (Tr π)} (hy : y ∈ b.episodic.iter) {l : ℕ} (hl : l < y.length)
    {j : ℕ} (hj : j < y.length) :
    μ {ω | ∃ out, Spec.Sampled perm s r b k (some l) out ω ∧ ∃ w ∈ out, y[j] ∈ w} =
      (k / b.episodic.len : ENNReal) * (Spec.covering y.length l j / (y.length - l + 1 : ℕ)) := by
  obtain ⟨x, hx⟩ := List.getElem?_of_mem hy
  have hxn : x < b.episodic.len := by
    have := (List.getElem?_eq_some_iff.1 hx).1
    rwa [Queue.RAQ.iter_length] at this
  have hynd : y.Nodup := (List.nodup_flatten.1 hd).1 y hy
  have hS : ∀ i ∈ (Finset.range (y.length - l + 1)).filter fun i => i ≤ j ∧ j < i + l, i < y.length - l + 1 :=
    fun i hi => Finset.mem_range.mp (Finset.mem_filter.mp hi).1
  rw [Spec.covering, ← place_prob h ho hk hxn _ hS]
  congr 1
  ext ω
  simp only [Set.mem_ofPred_eq]
  rw [sampled_iff h hk l ω fun w => y[j] ∈ w]
  constructor
  · rintro ⟨ixs, p, x', ep, h1, h2, h3, h4⟩
    have hsub : y[j] ∈ ep := by
      unfold randomSubseq at h4
      split at h4
      · exact h4
      · exact List.mem_of_mem_drop (List.mem_of_mem_take h4)
    have hxx := episode_of hd hx h3 (List.getElem_mem hj) hsub
    subst hxx
    rw [hx] at h3
    cases h3
    rw [randomSubseq, if_neg (by omega), mem_window hynd hj] at h4
    exact ⟨ixs, p, h1, h2, Finset.mem_filter.mpr ⟨Finset.mem_range.mpr (ho.below _ _ _ (by omega)), h4⟩⟩
  · rintro ⟨ixs, p, h1, h2, h3⟩
    refine ⟨ixs, p, x, y, h1, h2, hx, ?_⟩
    rw [randomSubseq, if_neg (by omega), mem_window hynd hj]
    exact (Finset.mem_filter.mp h3).2

/-- **C149 (sub-episodes).** Each of the `len - l + 1` sub-episodes of length `l` of an episode longer than `l` is equally
likely: it is in the sample with probability `k / n / (len - l + 1)`. -/
theorem window_inclusion {ε π : Type} {μ : Measure Ω} {perm : Ω → List ℕ} {s : ℕ → Ω → ℕ} {r : ℕ → ℕ → Ω → ℕ}
    {b : EB ε π} {k : ℕ} (h : Sample.Uniform.Spec.Generator μ b.episodic.len k perm s)
    (ho : Spec.Offsets μ b.episodic.len k perm s r) (hk : k ≤ b.episodic.len)
    (hd : b.episodic.iter.flatten.Nodup) {y : List (Tr π)} (hy : y ∈ b.episodic.iter) {l : ℕ} (hl0 : 0 < l)
    (hl : l < y.length) {i : ℕ} (hi : i + l ≤ y.length) :
    μ {ω | ∃ out, Spec.Sampled perm s r b k (some l) out ω ∧ (y.drop i).take l ∈ out} =
      (k / b.episodic.len : ENNReal) * (1 / (y.length - l + 1 : ℕ)) := by
  obtain ⟨x, hx⟩ := List.getElem?_of_mem hy
  have hxn : x < b.episodic.len := by
    have := (List.getElem?_eq_some_iff.1 hx).1
    rwa [Queue.RAQ.iter_length] at this
  have hynd : y.Nodup := (List.nodup_flatten.1 hd).1 y hy
  have hS : ∀ i' ∈ ({i} : Finset ℕ), i' < y.length - l + 1 := by
    intro i' hi'; rw [Finset.mem_singleton] at hi'; omega
  have := place_prob h ho hk hxn _ hS
  rw [Finset.card_singleton, Nat.cast_one] at this
  rw [← this]
  congr 1
  ext ω
  simp only [Set.mem_ofPred_eq, Finset.mem_singleton]
  have hswap : (∃ out, Spec.Sampled perm s r b k (some l) out ω ∧ (y.drop i).take l ∈ out) ↔
      ∃ out, Spec.Sampled perm s r b k (some l) out ω ∧ ∃ w ∈ out, w = (y.drop i).take l := by
    simp
  rw [hswap, sampled_iff h hk l ω fun w => w = (y.drop i).take l]
  constructor
  · rintro ⟨ixs, p, x', ep, h1, h2, h3, h4⟩
    have hjl : i < y.length := by omega
    have hmem : y[i] ∈ (y.drop i).take l := (mem_window hynd hjl).2 ⟨le_refl _, by omega⟩
    have hsub : y[i] ∈ ep := by
      rw [← h4] at hmem
      unfold randomSubseq at hmem
      split at hmem
      · exact hmem
      · exact List.mem_of_mem_drop (List.mem_of_mem_take hmem)
    have hxx := episode_of hd hx h3 (List.getElem_mem hjl) hsub
    subst hxx
    rw [hx] at h3
    cases h3
    rw [randomSubseq, if_neg (by omega)] at h4
    have hb := ho.below p (y.length - l + 1) ω (by omega)
    refine ⟨ixs, p, h1, h2, ?_⟩
    have e1 : y[i] ∈ (y.drop (r p (y.length - l + 1) ω)).take l := by rw [h4]; exact hmem
    have e2 := (mem_window hynd hjl).1 e1
    have hjl2 : r p (y.length - l + 1) ω < y.length := by omega
    have e3 : y[r p (y.length - l + 1) ω] ∈ (y.drop i).take l := by
      rw [← h4]; exact (mem_window hynd hjl2).2 ⟨le_refl _, by omega⟩
    have e4 := (mem_window hynd hjl2).1 e3
    omega
  · rintro ⟨ixs, p, h1, h2, h3⟩
    refine ⟨ixs, p, x, y, h1, h2, hx, ?_⟩
    rw [randomSubseq, if_neg (by omega), h3]

/-- **C149 (short episodes).** An episode of at most `l` steps is in the sample, whole, with probability `k / n`, and so is
each of its transitions. -/
theorem short_inclusion {ε π : Type} {μ : Measure Ω} {perm : Ω → List ℕ} {s : ℕ → Ω → ℕ} {r : ℕ → ℕ → Ω → ℕ}
    {b : EB ε π} {k : ℕ} (h : Sample.Uniform.Spec.Generator μ b.episodic.len k perm s) (hk : k ≤ b.episodic.len)
    (hd : b.episodic.iter.flatten.Nodup) {y : List (Tr π)} (hy : y ∈ b.episodic.iter) {l : ℕ} (hl : y.length ≤ l)
    {j : ℕ} (hj : j < y.length) :
    μ {ω | ∃ out, Spec.Sampled perm s r b k (some l) out ω ∧ y ∈ out} = (k / b.episodic.len : ENNReal) ∧
    μ {ω | ∃ out, Spec.Sampled perm s r b k (some l) out ω ∧ ∃ w ∈ out, y[j] ∈ w} = (k / b.episodic.len : ENNReal) := by
  obtain ⟨x, hx⟩ := List.getElem?_of_mem hy
  have hxn : x < b.episodic.len := by
    have := (List.getElem?_eq_some_iff.1 hx).1
    rwa [Queue.RAQ.iter_length] at this
  have key : ∀ Q : List (Tr π) → Prop, Q y → (∀ ep l' i, Q (randomSubseq ep l' i) → y[j] ∈ ep) →
      μ {ω | ∃ out, Spec.Sampled perm s r b k (some l) out ω ∧ ∃ w ∈ out, Q w} = (k / b.episodic.len : ENNReal) := by
    intro Q hQy hQ
    rw [← sample_inclusion h hk hxn]
    congr 1
    ext ω
    simp only [Set.mem_ofPred_eq]
    rw [sampled_iff h hk l ω Q]
    constructor
    · rintro ⟨ixs, p, x', ep, h1, h2, h3, h4⟩
      have hxx := episode_of hd hx h3 (List.getElem_mem hj) (hQ _ _ _ h4)
      subst hxx
      exact ⟨ixs, h1, List.mem_of_getElem? h2⟩
    · rintro ⟨ixs, h1, h2⟩
      obtain ⟨p, hp⟩ := List.getElem?_of_mem h2
      refine ⟨ixs, p, x, y, h1, hp, hx, ?_⟩
      rw [randomSubseq, if_pos hl]
      exact hQy
  have hin : ∀ (ep : List (Tr π)) (l' i : ℕ), y[j] ∈ randomSubseq ep l' i → y[j] ∈ ep := by
    intro ep l' i hm
    unfold randomSubseq at hm
    split at hm
    · exact hm
    · exact List.mem_of_mem_drop (List.mem_of_mem_take hm)
  constructor
  · have := key (fun w => w = y) rfl fun ep l' i he => hin ep l' i (by rw [he]; exact List.getElem_mem hj)
    rw [← this]
    simp
  · exact key (fun w => y[j] ∈ w) (List.getElem_mem hj) hin

/-- **C149 (the fraction).** Of the `len - l + 1` sub-episodes, step `j` is in as many as the smallest of `j + 1`, `len - j`,
`l` and `len - l + 1`. -/
theorem covering_eq {len l j : ℕ} (hl : 0 < l) (hlen : l ≤ len) (hj : j < len) :
    Spec.covering len l j = min (min (j + 1) (len - j)) (min l (len - l + 1)) := by
  have : (Finset.range (len - l + 1)).filter (fun i => i ≤ j ∧ j < i + l) =
      Finset.Icc (j + 1 - l) (min j (len - l)) := by
    ext i
    simp only [Finset.mem_filter, Finset.mem_range, Finset.mem_Icc]
    omega
  rw [Spec.covering, this, Nat.card_Icc]
  omega

/-! ## Limits -/

/-- Transitions are not equally likely: those at least `l - 1` steps away from both ends of a long episode are sampled `l`
times as often as the first one. -/
theorem ends_seldom {ε π : Type} {μ : Measure Ω} {perm : Ω → List ℕ} {s : ℕ → Ω → ℕ} {r : ℕ → ℕ → Ω → ℕ}
    {b : EB ε π} {k : ℕ} (h : Sample.Uniform.Spec.Generator μ b.episodic.len k perm s)
    (ho : Spec.Offsets μ b.episodic.len k perm s r) (hk : k ≤ b.episodic.len)
    (hd : b.episodic.iter.flatten.Nodup) {y : List (Tr π)} (hy : y ∈ b.episodic.iter) {l : ℕ} (hl0 : 0 < l)
    (hl : l < y.length) {j : ℕ} (hj1 : l ≤ j + 1) (hj2 : j + l ≤ y.length) :
    μ {ω | ∃ out, Spec.Sampled perm s r b k (some l) out ω ∧ ∃ w ∈ out, y[j] ∈ w} =
      l * μ {ω | ∃ out, Spec.Sampled perm s r b k (some l) out ω ∧ ∃ w ∈ out, y[0] ∈ w} := by
  rw [transition_inclusion h ho hk hd hy hl (by omega), transition_inclusion h ho hk hd hy hl (by omega),
    covering_eq hl0 (by omega) (by omega), covering_eq hl0 (by omega) (by omega)]
  rw [show min (min (j + 1) (y.length - j)) (min l (y.length - l + 1)) = l by omega,
    show min (min (0 + 1) (y.length - 0)) (min l (y.length - l + 1)) = 1 by omega]
  rw [Nat.cast_one, ← mul_assoc, mul_comm (l : ENNReal), mul_assoc]
  congr 1
  rw [← mul_div_assoc, mul_one]

/-! ## Non-vacuity -/

/-- Every generator of samples can be completed by offsets. -/
theorem offsets_exist {μ : Measure Ω} {n k : ℕ} {perm : Ω → List ℕ} {s : ℕ → Ω → ℕ}
    (h : Sample.Uniform.Spec.Generator μ n k perm s) (hk : k ≤ n) :
    ∃ (ν : Measure (Ω × ((pm : ℕ × ℕ) → Fin (pm.2 + 1)))) (r : ℕ → ℕ → Ω × ((pm : ℕ × ℕ) → Fin (pm.2 + 1)) → ℕ),
      Sample.Uniform.Spec.Generator ν n k (fun ω => perm ω.1) (fun i ω => s i ω.1) ∧
      Spec.Offsets ν n k (fun ω => perm ω.1) (fun i ω => s i ω.1) r := by
  have := h.independent.isProbabilityMeasure
  let P : (pm : ℕ × ℕ) → Measure (Fin (pm.2 + 1)) := fun pm => (PMF.uniformOfFintype (Fin (pm.2 + 1))).toMeasure
  let τ : Measure ((pm : ℕ × ℕ) → Fin (pm.2 + 1)) := Measure.infinitePi P
  let ν := μ.prod τ
  have hfst : ∀ A : Set Ω, MeasurableSet A → ν {ω | ω.1 ∈ A} = μ A := fun A hA =>
    (measurePreserving_fst (μ := μ) (ν := τ)).measure_preimage hA.nullMeasurableSet
  have hboth : ∀ (A : Set Ω) (B : Set ((pm : ℕ × ℕ) → Fin (pm.2 + 1))), ν {ω | ω.1 ∈ A ∧ ω.2 ∈ B} = μ A * τ B :=
    fun A B => Measure.prod_prod A B
  have hτ : ∀ (pm : ℕ × ℕ) (x : Fin (pm.2 + 1)), τ {t | t pm = x} = 1 / (pm.2 + 1 : ℕ) := by
    intro pm x
    have := Measure.infinitePi_map_eval P pm
    rw [show {t : (pm : ℕ × ℕ) → Fin (pm.2 + 1) | t pm = x} = (fun t => t pm) ⁻¹' {x} from rfl,
      ← Measure.map_apply (measurable_pi_apply pm) (MeasurableSet.singleton x), this]
    simp only [P]
    rw [PMF.toMeasure_uniformOfFintype_apply _ (MeasurableSet.singleton x)]
    simp
  refine ⟨ν, fun p m ω => (ω.2 (p, m - 1) : ℕ), ⟨fun i => (h.measurable i).comp measurable_fst, ?_,
    fun i ω => h.below i ω.1, fun i x hx => ?_, fun ω => h.choice ω.1, fun l => measurable_fst (h.choice_measurable l),
    fun l hl => ?_⟩, ⟨fun p m => ?_, fun p m ω hm => ?_, fun p m x hx => ?_, fun p m l x => ?_⟩⟩
  · rw [iIndepFun_iff_measure_inter_preimage_eq_mul]
    intro S sets hsets
    have hA : ∀ i ∈ S, MeasurableSet (s i ⁻¹' sets i) := fun i hi => h.measurable i (hsets i hi)
    have e1 : (⋂ i ∈ S, (fun ω : Ω × ((pm : ℕ × ℕ) → Fin (pm.2 + 1)) => s i ω.1) ⁻¹' sets i) =
        {ω | ω.1 ∈ ⋂ i ∈ S, s i ⁻¹' sets i} := by ext ω; simp
    rw [e1, hfst _ (Finset.measurableSet_biInter S hA),
      (iIndepFun_iff_measure_inter_preimage_eq_mul.1 h.independent) S hsets]
    exact Finset.prod_congr rfl fun i hi => (hfst _ (hA i hi)).symm
  · rw [← h.uniform i x hx]
    exact hfst {ω | s i ω = x} (h.measurable i (MeasurableSet.of_discrete (s := {x})))
  · rw [← h.choice_uniform l hl]
    exact hfst {ω | perm ω = l} (h.choice_measurable l)
  · exact (Measurable.of_discrete (f := fun t : Fin (m - 1 + 1) => (t : ℕ))).comp
      ((measurable_pi_apply (p, m - 1)).comp measurable_snd)
  · have := (ω.2 (p, m - 1)).2
    simp only at this
    omega
  · have e : {ω : Ω × ((pm : ℕ × ℕ) → Fin (pm.2 + 1)) | (ω.2 (p, m - 1) : ℕ) = x} =
        {ω | ω.1 ∈ Set.univ ∧ ω.2 ∈ {t | t (p, m - 1) = (⟨x, by omega⟩ : Fin (m - 1 + 1))}} := by
      ext ω; simp [Fin.ext_iff]
    rw [e, hboth, measure_univ, one_mul, hτ]
    rw [show (p, m - 1).2 + 1 = m by simp only; omega]
  · have hA := returns_measurable h hk l
    have hB : MeasurableSet {t : (pm : ℕ × ℕ) → Fin (pm.2 + 1) | (t (p, m - 1) : ℕ) = x} :=
      ((Measurable.of_discrete (f := fun t : Fin (m - 1 + 1) => (t : ℕ))).comp (measurable_pi_apply (p, m - 1)))
        (MeasurableSet.of_discrete (s := {x}))
    have hB' : ν {ω | (ω.2 (p, m - 1) : ℕ) = x} = τ {t | (t (p, m - 1) : ℕ) = x} := by
      have := hboth Set.univ {t | (t (p, m - 1) : ℕ) = x}
      simpa using this
    refine (indepSet_iff_measure_inter_eq_mul (measurable_fst hA) (measurable_snd hB) ν).2 ?_
    have h1 := hboth {ω | Sample.Uniform.Spec.Returns perm s n k l ω} {t | (t (p, m - 1) : ℕ) = x}
    rw [← hfst _ hA, ← hB'] at h1
    exact h1

/-- The calls that store an episode of five steps and one of two. -/
def exOps : List (Replay.Op Unit ℕ) :=
  [.append () ⟨0, false⟩, .append () ⟨1, false⟩, .append () ⟨2, false⟩, .append () ⟨3, false⟩, .append () ⟨4, true⟩,
    .append () ⟨5, false⟩, .append () ⟨6, true⟩]

/-- One sub-episode of at most two steps: step 2 of the long episode is in it with probability 1/4, step 0 with 1/8, and
the whole short episode with 1/2. -/
example : ∃ b : EB Unit ℕ, EB.run (EB.new none) exOps = .ok b ∧
    ∃ (Ω : Type) (_ : MeasurableSpace Ω) (μ : Measure Ω) (perm : Ω → List ℕ) (s : ℕ → Ω → ℕ) (r : ℕ → ℕ → Ω → ℕ),
      μ {ω | ∃ out, Spec.Sampled perm s r b 1 (some 2) out ω ∧ ∃ w ∈ out, (⟨2, false⟩ : Tr ℕ) ∈ w} = 1 / 4 ∧
      μ {ω | ∃ out, Spec.Sampled perm s r b 1 (some 2) out ω ∧ ∃ w ∈ out, (⟨0, false⟩ : Tr ℕ) ∈ w} = 1 / 8 ∧
      μ {ω | ∃ out, Spec.Sampled perm s r b 1 (some 2) out ω ∧ [⟨5, false⟩, ⟨6, true⟩] ∈ out} = 1 / 2 := by
  have hrun : ∃ b : EB Unit ℕ, EB.run (EB.new none) exOps = .ok b ∧ b.episodic.iter =
      [[⟨0, false⟩, ⟨1, false⟩, ⟨2, false⟩, ⟨3, false⟩, ⟨4, true⟩], [⟨5, false⟩, ⟨6, true⟩]] := ⟨_, rfl, by decide⟩
  obtain ⟨b, hb, hit⟩ := hrun
  have hlen : b.episodic.len = 2 := by rw [← Queue.RAQ.iter_length, hit]; rfl
  have hlenE : (b.episodic.len : ENNReal) = 2 := by rw [hlen]; norm_num
  obtain ⟨μ, perm, s, h⟩ := generator_exists (n := b.episodic.len) (k := 1) (by omega) (by omega)
  obtain ⟨ν, r, h1, h2⟩ := offsets_exist h (by omega)
  have hd : b.episodic.iter.flatten.Nodup := by rw [hit]; decide
  refine ⟨b, hb, _, _, ν, fun ω => perm ω.1, fun i ω => s i ω.1, r, ?_, ?_, ?_⟩
  · have := transition_inclusion h1 h2 (by omega) hd
      (y := [⟨0, false⟩, ⟨1, false⟩, ⟨2, false⟩, ⟨3, false⟩, ⟨4, true⟩]) (by rw [hit]; simp) (l := 2) (by decide)
      (j := 2) (by decide)
    rw [show ([⟨0, false⟩, ⟨1, false⟩, ⟨2, false⟩, ⟨3, false⟩, ⟨4, true⟩] : List (Tr ℕ))[2] = ⟨2, false⟩ from rfl,
      hlenE, covering_eq (by decide) (by decide) (by decide)] at this
    rw [this, ← ENNReal.toReal_eq_toReal_iff' (by simp [ENNReal.mul_eq_top, ENNReal.div_eq_top]) (by simp)]
    norm_num
  · have := transition_inclusion h1 h2 (by omega) hd
      (y := [⟨0, false⟩, ⟨1, false⟩, ⟨2, false⟩, ⟨3, false⟩, ⟨4, true⟩]) (by rw [hit]; simp) (l := 2) (by decide)
      (j := 0) (by decide)
    rw [show ([⟨0, false⟩, ⟨1, false⟩, ⟨2, false⟩, ⟨3, false⟩, ⟨4, true⟩] : List (Tr ℕ))[0] = ⟨0, false⟩ from rfl,
      hlenE, covering_eq (by decide) (by decide) (by decide)] at this
    rw [this, ← ENNReal.toReal_eq_toReal_iff' (by simp [ENNReal.mul_eq_top]) (by simp)]
    norm_num
  · have := (short_inclusion (r := r) h1 (by omega) hd (y := [⟨5, false⟩, ⟨6, true⟩]) (by rw [hit]; simp) (l := 2)
      (by decide) (j := 0) (by decide)).1
    rw [hlenE] at this
    rw [this]
    norm_num

end Pfrl.Episodic.Uniform
