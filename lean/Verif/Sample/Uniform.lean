import Verif.Sample.Props
import Mathlib.Probability.BorelCantelli
import Mathlib.Probability.Independence.InfinitePi
import Mathlib.Logic.Equiv.Fintype
import Mathlib.Data.Fintype.CardEmbedding
import Mathlib.Combinatorics.Enumerative.DoubleCounting
import Mathlib.Probability.Distributions.Uniform

/-!
# The distribution of uniform sampling without replacement (C146)

The model is that of C03 (`Verif.Sample.Model`): `sample_n_k`, `pfrl/utils/random.py`, as a function of the values drawn by `np.random.choice`.  Here these
values are random variables.
-/

namespace Pfrl.Sample.Uniform

open MeasureTheory ProbabilityTheory

variable {Ω : Type} [MeasurableSpace Ω]

/-! ## Specification -/

/-- The generator: `s 0, s 1, …` are the values of `np.random.choice(n, ·)`, independent and each index below `n` equally likely; `perm` is the value of
`np.random.choice(n, k, replace=False)`, `k` different indices below `n`, each such list equally likely. -/
structure Spec.Generator (μ : Measure Ω) (n k : ℕ) (perm : Ω → List ℕ) (s : ℕ → Ω → ℕ) : Prop where
  measurable : ∀ i, Measurable (s i)
  independent : iIndepFun s μ
  below : ∀ i ω, s i ω < n
  uniform : ∀ i x, x < n → μ {ω | s i ω = x} = 1 / n
  choice : ∀ ω, IsChoice n k (perm ω)
  choice_measurable : ∀ l, MeasurableSet {ω | perm ω = l}
  choice_uniform : ∀ l, IsChoice n k l → μ {ω | perm ω = l} = 1 / n.descFactorial k

/-- `sample_n_k(n, k)` returns `l`: for some number of iterations of its loop. -/
def Spec.Returns (perm : Ω → List ℕ) (s : ℕ → Ω → ℕ) (n k : ℕ) (l : List ℕ) (ω : Ω) : Prop :=
  ∃ fuel, sampleNK (perm ω) (fun i => s i ω) fuel n k = .ok l

/-! ## Lemmas -/

theorem absResolve_mono {s : ℕ → ℕ} {sel : List ℕ} (fuel : ℕ) : ∀ {next x r}, absResolve s sel fuel next x = .ok r → absResolve s sel (fuel + 1) next x = .ok r := by
  induction fuel with
  | zero =>
    intro next x r h
    unfold absResolve at h ⊢
    by_cases hx : x ∈ sel
    · rw [if_pos hx] at h; cases h
    · rw [if_neg hx] at h ⊢; exact h
  | succ fuel ih =>
    intro next x r h
    unfold absResolve at h ⊢
    by_cases hx : x ∈ sel
    · rw [if_pos hx] at h ⊢; exact ih h
    · rw [if_neg hx] at h ⊢; exact h

theorem absFill_mono {s : ℕ → ℕ} {fuel : ℕ} (xs : List ℕ) : ∀ {sel next r}, absFill s fuel sel next xs = .ok r → absFill s (fuel + 1) sel next xs = .ok r := by
  induction xs with
  | nil => intro sel next r h; exact h
  | cons x xs ih =>
    intro sel next r h
    simp only [absFill] at h ⊢
    cases hr : absResolve s sel fuel next x with
    | error e => rw [hr] at h; cases h
    | ok p =>
      rw [hr] at h
      rw [absResolve_mono _ hr]
      simp only at h ⊢
      cases hf : absFill s fuel (p.2 :: sel) p.1 xs with
      | error e => rw [hf] at h; cases h
      | ok zs => rw [hf] at h; rw [ih hf]; exact h

theorem absFill_le {s : ℕ → ℕ} {f f' : ℕ} (hf : f ≤ f') {xs sel : List ℕ} {next : ℕ} {r : List ℕ} (h : absFill s f sel next xs = .ok r) :
    absFill s f' sel next xs = .ok r := by
  induction hf with
  | refl => exact h
  | step _ ih => exact absFill_mono _ ih

section Measurability
variable {T : Type} [MeasurableSpace T]

theorem bind_measurable {A B : Type} [Countable A] [MeasurableSpace A] [MeasurableSingletonClass A] [MeasurableSpace B] {x : T → A} (hx : Measurable x)
    {g : A → T → B} (hg : ∀ a, Measurable (g a)) : Measurable fun t => g (x t) t :=
  (measurable_from_prod_countable_left (f := fun p : T × A => g p.2 p.1) hg).comp (measurable_id.prodMk hx)

instance : MeasurableSpace (Except PyErr (ℕ × ℕ)) := ⊤
instance : MeasurableSpace (Except PyErr (List ℕ)) := ⊤

theorem absResolve_measurable (sel : List ℕ) (fuel : ℕ) : ∀ next x, Measurable fun s : ℕ → ℕ => absResolve s sel fuel next x := by
  induction fuel with
  | zero =>
    intro next x
    unfold absResolve
    by_cases hx : x ∈ sel
    · simp only [if_pos hx]
      exact measurable_const
    · simp only [if_neg hx]
      exact measurable_const
  | succ fuel ih =>
    intro next x
    unfold absResolve
    by_cases hx : x ∈ sel
    · simp only [if_pos hx]
      exact bind_measurable (x := fun s : ℕ → ℕ => s next) (measurable_pi_apply next) (g := fun a s => absResolve s sel fuel (next + 1) a) fun a => ih _ _
    · simp only [if_neg hx]
      exact measurable_const

instance : Countable PyErr := (Function.Injective.countable (f := PyErr.ctorIdx) (by intro a b h; cases a <;> cases b <;> first | rfl | cases h))
instance : Countable (Except PyErr (ℕ × ℕ)) :=
  Function.Injective.countable (f := fun x : Except PyErr (ℕ × ℕ) => match x with | .error e => (Sum.inl e : PyErr ⊕ (ℕ × ℕ)) | .ok a => .inr a)
    (by intro a b h; cases a <;> cases b <;> simp_all)

theorem absFill_measurable (fuel : ℕ) (xs : List ℕ) : ∀ sel next, Measurable fun s : ℕ → ℕ => absFill s fuel sel next xs := by
  induction xs with
  | nil => intro sel next; exact measurable_const
  | cons x xs ih =>
    intro sel next
    simp only [absFill]
    refine bind_measurable (x := fun s : ℕ → ℕ => absResolve s sel fuel next x) (absResolve_measurable sel fuel next x)
      (g := fun r s => match r with
        | .error e => Except.error e
        | .ok (next', x') => (absFill s fuel (x' :: sel) next' xs).map (x' :: ·)) fun r => ?_
    cases r with
    | error e => exact measurable_const
    | ok p => exact (measurable_from_top (f := fun r : Except PyErr (List ℕ) => r.map (p.2 :: ·))).comp (ih (p.2 :: sel) p.1)

theorem draws_measurable (pos k : ℕ) : Measurable[_, ⊤] fun s : ℕ → ℕ => draws s pos k := by
  let _ : MeasurableSpace (List ℕ) := ⊤
  induction k with
  | zero => exact measurable_const
  | succ k ih =>
    have e : (fun s : ℕ → ℕ => draws s pos (k + 1)) = fun s => draws s pos k ++ [s (pos + k)] := by
      funext s
      simp [draws, List.range_succ]
    rw [e]
    exact bind_measurable (x := fun s : ℕ → ℕ => s (pos + k)) (measurable_pi_apply _) (g := fun a s => draws s pos k ++ [a]) fun a =>
      (measurable_from_top (f := fun l : List ℕ => l ++ [a])).comp ih

theorem sample_measurable (fuel k : ℕ) : Measurable fun s : ℕ → ℕ => absFill s fuel [] k (draws s 0 k) := by
  let _ : MeasurableSpace (List ℕ) := ⊤
  exact bind_measurable (draws_measurable 0 k) (g := fun xs s => absFill s fuel [] k xs) fun xs => absFill_measurable fuel xs _ _

/-- The streams for which the loop ends with `l`. -/
def ends (k : ℕ) (l : List ℕ) : Set (ℕ → ℕ) := {s | ∃ fuel, absFill s fuel [] k (draws s 0 k) = .ok l}

theorem ends_measurable (k : ℕ) (l : List ℕ) : MeasurableSet (ends k l) := by
  have : ends k l = ⋃ fuel, (fun s : ℕ → ℕ => absFill s fuel [] k (draws s 0 k)) ⁻¹' {.ok l} := by ext s; simp [ends]
  rw [this]
  exact MeasurableSet.iUnion fun fuel => sample_measurable fuel k trivial

end Measurability

theorem ends_unique {k : ℕ} {l l' : List ℕ} {s : ℕ → ℕ} (h : s ∈ ends k l) (h' : s ∈ ends k l') : l = l' := by
  obtain ⟨f, h⟩ := h
  obtain ⟨f', h'⟩ := h'
  have e := absFill_le (le_max_left f f') h
  rw [absFill_le (le_max_right f f') h'] at e
  cases e
  rfl

/-- A permutation of the indices below `n`. -/
def rename {n : ℕ} (σ : Equiv.Perm (Fin n)) (x : ℕ) : ℕ := if h : x < n then σ ⟨x, h⟩ else x

theorem rename_lt {n : ℕ} (σ : Equiv.Perm (Fin n)) {x : ℕ} (h : x < n) : rename σ x < n := by
  rw [rename, dif_pos h]
  exact (σ _).2

theorem rename_inv {n : ℕ} (σ : Equiv.Perm (Fin n)) (x : ℕ) : rename σ.symm (rename σ x) = x := by
  by_cases h : x < n
  · rw [rename, dif_pos (rename_lt σ h)]
    simp [rename, h]
  · simp [rename, h]

theorem rename_injective {n : ℕ} (σ : Equiv.Perm (Fin n)) : Function.Injective (rename σ) := fun x y h => by
  rw [← rename_inv σ x, h, rename_inv]

theorem ends_rename {n k : ℕ} (σ : Equiv.Perm (Fin n)) {l : List ℕ} {s : ℕ → ℕ} :
    (fun i => rename σ (s i)) ∈ ends k (l.map (rename σ)) ↔ s ∈ ends k l := by
  have h : ∀ fuel, absFill (fun i => rename σ (s i)) fuel [] k (draws (fun i => rename σ (s i)) 0 k) = (absFill s fuel [] k (draws s 0 k)).map (List.map (rename σ)) :=
    fun fuel => by
    have := absFill_map (rename_injective σ) (s := s) fuel (draws s 0 k) [] k
    rw [← this]
    simp [draws]; rfl
  simp only [ends, Set.mem_ofPred_eq, h]
  refine exists_congr fun fuel => ?_
  cases absFill s fuel [] k (draws s 0 k) with
  | error e => simp [Except.map]
  | ok r =>
    simp only [Except.map, Except.ok.injEq]
    exact (List.map_injective_iff.2 (rename_injective σ)).eq_iff

section Law
variable {μ : Measure Ω} {n k : ℕ} {perm : Ω → List ℕ} {s : ℕ → Ω → ℕ}

/-- Renaming the indices does not change the distribution of the stream. -/
theorem law_rename (h : Spec.Generator μ n k perm s) (σ : Equiv.Perm (Fin n)) {A : Set (ℕ → ℕ)} (hA : MeasurableSet A) :
    μ {ω | (fun i => rename σ (s i ω)) ∈ A} = μ {ω | (fun i => s i ω) ∈ A} := by
  have hm : ∀ i, Measurable fun ω => rename σ (s i ω) := fun i =>
    (measurable_from_top (f := rename σ)).comp (h.measurable i)
  have e1 := h.independent.map_fun_eq_infinitePi_map h.measurable
  have e2 := (h.independent.comp (fun _ => rename σ) fun _ => measurable_from_top).map_fun_eq_infinitePi_map hm
  have e3 : (fun i => μ.map (fun ω => rename σ (s i ω))) = fun i => μ.map (s i) := by
    funext i
    refine Measure.ext_of_singleton fun x => ?_
    rw [Measure.map_apply (hm i) (measurableSet_singleton x), Measure.map_apply (h.measurable i) (measurableSet_singleton x)]
    by_cases hx : x < n
    · have : (fun ω => rename σ (s i ω)) ⁻¹' {x} = {ω | s i ω = rename σ.symm x} := by
        ext ω
        simp only [Set.mem_preimage, Set.mem_singleton_iff, Set.mem_ofPred_eq]
        constructor
        · rintro rfl; rw [rename_inv]
        · intro e; rw [e]; exact rename_inv σ.symm x
      rw [this, h.uniform i _ (rename_lt _ hx)]
      exact (h.uniform i x hx).symm
    · have h1 : (fun ω => rename σ (s i ω)) ⁻¹' {x} = ∅ := by
        ext ω
        simp only [Set.mem_preimage, Set.mem_singleton_iff, Set.mem_empty_iff_false, iff_false]
        rintro rfl
        exact hx (rename_lt σ (h.below i ω))
      have h2 : s i ⁻¹' {x} = ∅ := by
        ext ω
        simp only [Set.mem_preimage, Set.mem_singleton_iff, Set.mem_empty_iff_false, iff_false]
        rintro rfl
        exact hx (h.below i ω)
      rw [h1, h2]
  have hm1 : Measurable fun ω i => s i ω := measurable_pi_iff.2 h.measurable
  have hm2 : Measurable fun ω i => rename σ (s i ω) := measurable_pi_iff.2 hm
  have := congrArg (fun m => m A) (e2.trans ((congrArg Measure.infinitePi e3).trans e1.symm))
  rw [Measure.map_apply hm1 hA] at this
  change (Measure.map (fun ω i => rename σ (s i ω)) μ) A = _ at this
  rw [Measure.map_apply hm2 hA] at this
  exact this

/-- Every index is drawn, almost surely. -/
theorem all_drawn (h : Spec.Generator μ n k perm s) : ∀ᵐ ω ∂μ, ∀ x < n, ∃ i, s i ω = x := by
  rw [ae_all_iff]
  intro x
  by_cases hx : x < n
  · have hm : ∀ i, MeasurableSet {ω | s i ω = x} := fun i => h.measurable i (measurableSet_singleton x)
    have hi : iIndepSet (fun i => {ω | s i ω = x}) μ := by
      rw [iIndepSet_iff_meas_biInter hm]
      intro t
      exact h.independent.measure_inter_preimage_eq_mul t (sets := fun _ => {x}) fun _ _ => measurableSet_singleton x
    have := hi.isProbabilityMeasure
    have hsum : (∑' i, μ {ω | s i ω = x}) = ⊤ := by
      simp only [fun i => h.uniform i x hx]
      exact ENNReal.tsum_const_eq_top_of_ne_zero (by simp)
    have h := (mem_ae_iff_prob_eq_one (MeasurableSet.measurableSet_limsup hm)).2 (measure_limsup_eq_one hm hi hsum)
    filter_upwards [h] with ω hω _
    rw [Filter.mem_limsup_iff_frequently_mem, Filter.frequently_atTop] at hω
    obtain ⟨i, _, hi⟩ := hω 0
    exact ⟨i, hi⟩
  · exact Filter.Eventually.of_forall fun ω hx' => absurd hx' hx

/-- The list of the values of an embedding. -/
def listOf (e : Fin k ↪ Fin n) : List ℕ := List.ofFn fun i => (e i : ℕ)

theorem listOf_choice (e : Fin k ↪ Fin n) : IsChoice n k (listOf e) := by
  refine ⟨List.nodup_ofFn.2 fun i j h => e.injective (Fin.ext h), by simp [listOf], fun x hx => ?_⟩
  obtain ⟨i, rfl⟩ := (List.mem_ofFn' _ _).1 hx
  exact (e i).2

theorem listOf_injective : Function.Injective (listOf (n := n) (k := k)) := fun e e' h => by
  have := List.ofFn_injective h
  ext i
  exact congrFun this i

theorem choice_listOf {l : List ℕ} (h : IsChoice n k l) : ∃ e : Fin k ↪ Fin n, l = listOf e := by
  obtain ⟨h1, rfl, h3⟩ := h
  exact ⟨⟨fun i => ⟨l[i], h3 _ (List.getElem_mem _)⟩, fun i j hij => h1.injective_get (by simpa using hij)⟩, by simp [listOf]⟩

theorem listOf_rename (σ : Equiv.Perm (Fin n)) {e e' : Fin k ↪ Fin n} (h : ∀ i, σ (e i) = e' i) : listOf e' = (listOf e).map (rename σ) := by
  simp only [listOf, List.map_ofFn]
  congr 1
  funext i
  simp [rename, h]

theorem ends_equal (h : Spec.Generator μ n k perm s) (e e' : Fin k ↪ Fin n) :
    μ {ω | (fun i => s i ω) ∈ ends k (listOf e')} = μ {ω | (fun i => s i ω) ∈ ends k (listOf e)} := by
  obtain ⟨σ, hσ⟩ := Equiv.Perm.exists_extending_pair e e' e.injective e'.injective
  rw [← law_rename h σ (ends_measurable k _)]
  congr 1
  ext ω
  rw [listOf_rename σ hσ]
  exact ends_rename σ

theorem ends_total (h : Spec.Generator μ n k perm s) (hk : 0 < k) (hn : 3 * k < n) :
    ∀ᵐ ω ∂μ, ∃ e : Fin k ↪ Fin n, (fun i => s i ω) ∈ ends k (listOf e) := by
  filter_upwards [all_drawn h] with ω hω
  have hN : ∃ N, ∀ x < n, ∃ i < N, s i ω = x := by
    choose! f hf using hω
    refine ⟨(Finset.range n).sup f + 1, fun x hx => ⟨f x, ?_, hf x hx⟩⟩
    exact Nat.lt_succ_of_le (Finset.le_sup (Finset.mem_range.2 hx))
  obtain ⟨N, hN⟩ := hN
  obtain ⟨r, hr⟩ := sample_n_k_progress (perm := perm ω) (s := fun i => s i ω) (fuel := N) (n := n) (k := k) (N := N) (T := List.range k) (by omega)
    List.nodup_range List.length_range (fun t ht => hN t (by have := List.mem_range.1 ht; omega)) le_rfl
  have hc := sample_n_k_sound (h.choice ω) (fun i => h.below i ω) hr
  obtain ⟨e, rfl⟩ := choice_listOf hc
  rw [sampleNK_reject _ _ _ _ _ hk hn] at hr
  exact ⟨e, N, hr⟩

theorem ends_prob (h : Spec.Generator μ n k perm s) (hk : 0 < k) (hn : 3 * k < n) (e : Fin k ↪ Fin n) :
    μ {ω | (fun i => s i ω) ∈ ends k (listOf e)} = 1 / n.descFactorial k := by
  have := h.independent.isProbabilityMeasure
  have hm1 : Measurable fun ω i => s i ω := measurable_pi_iff.2 h.measurable
  have hm : ∀ e : Fin k ↪ Fin n, MeasurableSet {ω | (fun i => s i ω) ∈ ends k (listOf e)} := fun e => hm1 (ends_measurable k _)
  have h1 : μ (⋃ e : Fin k ↪ Fin n, {ω | (fun i => s i ω) ∈ ends k (listOf e)}) = 1 := by
    rw [← mem_ae_iff_prob_eq_one (MeasurableSet.iUnion hm)]
    filter_upwards [ends_total h hk hn] with ω hω
    simpa using hω
  have hd : Pairwise (Function.onFun Disjoint fun e : Fin k ↪ Fin n => {ω | (fun i => s i ω) ∈ ends k (listOf e)}) :=
    fun e e' hne => Set.disjoint_left.2 fun ω h1 h2 => hne (listOf_injective (ends_unique h1 h2))
  rw [measure_iUnion hd hm, tsum_fintype,
    Finset.sum_congr rfl fun e' _ => ends_equal h e e', Finset.sum_const, Finset.card_univ, Fintype.card_embedding_eq, Fintype.card_fin, Fintype.card_fin,
    nsmul_eq_mul] at h1
  have h0 : (n.descFactorial k : ENNReal) ≠ 0 := by
    simp only [ne_eq, Nat.cast_eq_zero, Nat.descFactorial_eq_zero_iff_lt]
    omega
  rw [ENNReal.eq_div_iff h0 (by simp)]
  exact h1

end Law

omit [MeasurableSpace Ω] in
/-- What the three branches return. -/
theorem returns_cases {n k : ℕ} (hk : k ≤ n) (perm : Ω → List ℕ) (s : ℕ → Ω → ℕ) :
    (k = 0 ∧ ∀ l ω, Spec.Returns perm s n k l ω ↔ l = []) ∨ (∀ l ω, Spec.Returns perm s n k l ω ↔ perm ω = l) ∨
    (0 < k ∧ 3 * k < n ∧ ∀ l ω, Spec.Returns perm s n k l ω ↔ (fun i => s i ω) ∈ ends k l) := by
  by_cases h0 : k = 0
  · subst h0
    exact .inl ⟨rfl, fun l ω => by simp [Spec.Returns, sampleNK, eq_comm]⟩
  · by_cases h3 : 3 * k ≥ n
    · refine .inr (.inl fun l ω => ?_)
      have e : ∀ fuel, sampleNK (perm ω) (fun i => s i ω) fuel n k = .ok (perm ω) := fun fuel => by
        have a2 : ¬ ((k : Int) = 0) := by omega
        have a3 : (3 * (k : Int) ≥ n) := by omega
        unfold sampleNK
        rw [if_neg (by simpa using hk), if_neg a2, if_pos a3]
      simp [Spec.Returns, e]
    · refine .inr (.inr ⟨by omega, by omega, fun l ω => ?_⟩)
      unfold Spec.Returns
      simp only [sampleNK_reject _ _ _ n k (by omega) (by omega)]
      rfl

section
variable {μ : Measure Ω} {n k : ℕ} {perm : Ω → List ℕ} {s : ℕ → Ω → ℕ}

omit [MeasurableSpace Ω] in
theorem returns_unique (hk : k ≤ n) {l l' : List ℕ} {ω : Ω} (h : Spec.Returns perm s n k l ω) (h' : Spec.Returns perm s n k l' ω) : l = l' := by
  rcases returns_cases hk perm s with ⟨_, e⟩ | e | ⟨_, _, e⟩ <;> rw [e] at h h'
  · rw [h, h']
  · rw [← h, ← h']
  · exact ends_unique h h'

theorem returns_measurable (h : Spec.Generator μ n k perm s) (hk : k ≤ n) (l : List ℕ) : MeasurableSet {ω | Spec.Returns perm s n k l ω} := by
  rcases returns_cases hk perm s with ⟨_, e⟩ | e | ⟨_, _, e⟩ <;> simp only [e]
  · exact MeasurableSet.const _
  · exact h.choice_measurable l
  · exact (measurable_pi_iff.2 h.measurable : Measurable fun ω i => s i ω) (ends_measurable k l)

/-- The number of embeddings with `x` among their values. -/
theorem count_eq (n k : ℕ) (x : Fin n) : (Finset.univ.filter fun e : Fin k ↪ Fin n => ∃ i, e i = x).card * n = k * n.descFactorial k := by
  have hsame : ∀ y : Fin n, (Finset.univ.filter fun e : Fin k ↪ Fin n => ∃ i, e i = y).card = (Finset.univ.filter fun e : Fin k ↪ Fin n => ∃ i, e i = x).card := by
    intro y
    refine Finset.card_equiv (Equiv.embeddingCongr (Equiv.refl _) (Equiv.swap x y)) fun e => ?_
    simp only [Finset.mem_filter, Finset.mem_univ, true_and]
    refine exists_congr fun i => ?_
    rw [Equiv.embeddingCongr_apply]
    simp only [Function.Embedding.congr, Equiv.refl_symm, Function.Embedding.trans_apply, Equiv.coe_toEmbedding, Equiv.refl_apply]
    rw [Equiv.swap_apply_eq_iff, Equiv.swap_apply_left]
  have h := Finset.sum_card_bipartiteAbove_eq_sum_card_bipartiteBelow (s := (Finset.univ : Finset (Fin n))) (t := (Finset.univ : Finset (Fin k ↪ Fin n)))
    fun x e => ∃ i, e i = x
  simp only [Finset.bipartiteAbove, Finset.bipartiteBelow, hsame, Finset.sum_const, Finset.card_univ, Fintype.card_fin, smul_eq_mul] at h
  have hk : ∀ e : Fin k ↪ Fin n, (Finset.univ.filter fun x : Fin n => ∃ i, e i = x).card = k := by
    intro e
    have : (Finset.univ.filter fun x : Fin n => ∃ i, e i = x) = Finset.univ.map e := by ext x; simp
    rw [this, Finset.card_map, Finset.card_univ, Fintype.card_fin]
  simp only [hk, Finset.sum_const, Finset.card_univ, Fintype.card_embedding_eq, Fintype.card_fin, smul_eq_mul] at h
  rw [mul_comm, h, mul_comm]

end

/-! ## C146 -/

/-- **C146.** `sample_n_k(n, k)` returns with probability 1, and each list of `k` different indices below `n` has the same probability. -/
theorem sample_uniform {μ : Measure Ω} {n k : ℕ} {perm : Ω → List ℕ} {s : ℕ → Ω → ℕ} (h : Spec.Generator μ n k perm s) (hk : k ≤ n) :
    (∀ᵐ ω ∂μ, ∃ l, Spec.Returns perm s n k l ω) ∧
    ∀ l, IsChoice n k l → μ {ω | Spec.Returns perm s n k l ω} = 1 / n.descFactorial k := by
  have := h.independent.isProbabilityMeasure
  rcases returns_cases hk perm s with ⟨rfl, e⟩ | e | ⟨hk0, hn, e⟩ <;> simp only [e]
  · refine ⟨Filter.Eventually.of_forall fun ω => ⟨[], rfl⟩, fun l hl => ?_⟩
    have : l = [] := List.length_eq_zero_iff.1 hl.2.1
    simp [this]
  · exact ⟨Filter.Eventually.of_forall fun ω => ⟨_, rfl⟩, h.choice_uniform⟩
  · refine ⟨?_, fun l hl => ?_⟩
    · filter_upwards [ends_total h hk0 hn] with ω hω
      exact ⟨_, hω.choose_spec⟩
    · obtain ⟨e, rfl⟩ := choice_listOf hl
      exact ends_prob h hk0 hn e

/-- **C146 (each index).** Each index below `n` is among those returned with probability `k / n`. -/
theorem sample_inclusion {μ : Measure Ω} {n k : ℕ} {perm : Ω → List ℕ} {s : ℕ → Ω → ℕ} (h : Spec.Generator μ n k perm s) (hk : k ≤ n) {x : ℕ} (hx : x < n) :
    μ {ω | ∃ l, Spec.Returns perm s n k l ω ∧ x ∈ l} = k / n := by
  have hset : {ω | ∃ l, Spec.Returns perm s n k l ω ∧ x ∈ l} =
      ⋃ e ∈ (Finset.univ.filter fun e : Fin k ↪ Fin n => ∃ i, e i = ⟨x, hx⟩), {ω | Spec.Returns perm s n k (listOf e) ω} := by
    ext ω
    simp only [Set.mem_ofPred_eq, Set.mem_iUnion, Finset.mem_filter, Finset.mem_univ, true_and, exists_prop]
    constructor
    · rintro ⟨l, hl, hxl⟩
      obtain ⟨fuel, hf⟩ := id hl
      obtain ⟨e, rfl⟩ := choice_listOf (sample_n_k_sound (h.choice ω) (fun i => h.below i ω) hf)
      obtain ⟨i, hi⟩ := (List.mem_ofFn' _ _).1 hxl
      exact ⟨e, ⟨i, Fin.ext hi⟩, hl⟩
    · rintro ⟨e, ⟨i, hi⟩, hl⟩
      exact ⟨_, hl, (List.mem_ofFn' _ _).2 ⟨i, by simp [hi]⟩⟩
  have hd : Set.PairwiseDisjoint (↑(Finset.univ.filter fun e : Fin k ↪ Fin n => ∃ i, e i = ⟨x, hx⟩) : Set (Fin k ↪ Fin n))
      fun e => {ω | Spec.Returns perm s n k (listOf e) ω} :=
    fun e _ e' _ hne => Set.disjoint_left.2 fun ω (h1 : Spec.Returns perm s n k (listOf e) ω) (h2 : Spec.Returns perm s n k (listOf e') ω) =>
      hne (listOf_injective (returns_unique hk h1 h2))
  rw [hset, measure_biUnion_finset hd fun e _ => returns_measurable h hk _, Finset.sum_congr rfl fun e _ => (sample_uniform h hk).2 _ (listOf_choice e), Finset.sum_const, nsmul_eq_mul]
  have hc := count_eq n k ⟨x, hx⟩
  set c := (Finset.univ.filter fun e : Fin k ↪ Fin n => ∃ i, e i = ⟨x, hx⟩).card
  have hD : (n.descFactorial k : ENNReal) ≠ 0 := by
    simp only [ne_eq, Nat.cast_eq_zero, Nat.descFactorial_eq_zero_iff_lt]
    omega
  have hn : (n : ENNReal) ≠ 0 := by simp only [ne_eq, Nat.cast_eq_zero]; omega
  rw [mul_one_div, ENNReal.div_eq_div_iff hn (by simp) hD (by simp)]
  have : ((c * n : ℕ) : ENNReal) = ((k * n.descFactorial k : ℕ) : ENNReal) := by rw [hc]
  push_cast at this
  rw [mul_comm, this, mul_comm]

/-- **C146 (queue).** Sampling `k` of the `n` items of a queue without equal items gives each item with probability `k / n`. -/
theorem queue_inclusion {α : Type} {μ : Measure Ω} {q : Queue.RAQ α} {k : ℕ} {perm : Ω → List ℕ} {s : ℕ → Ω → ℕ} (h : Spec.Generator μ q.len k perm s)
    (hk : k ≤ q.len) (hq : q.iter.Nodup) {y : α} (hy : y ∈ q.iter) :
    μ {ω | ∃ fuel xs, raqSample (perm ω) (fun i => s i ω) fuel q k = .ok xs ∧ y ∈ xs} = k / q.len := by
  obtain ⟨x, hx, rfl⟩ := List.getElem_of_mem hy
  rw [← sample_inclusion h hk (x := x) (by rwa [Queue.RAQ.iter_length] at hx)]
  congr 1
  ext ω
  simp only [Set.mem_ofPred_eq, Spec.Returns]
  have key : ∀ fuel ixs, sampleNK (perm ω) (fun i => s i ω) fuel q.len k = .ok ixs →
      ∃ xs, raqSample (perm ω) (fun i => s i ω) fuel q k = .ok xs ∧ (q.iter[x] ∈ xs ↔ x ∈ ixs) := by
    intro fuel ixs hf
    have h3 := (sample_n_k_sound (h.choice ω) (fun i => h.below i ω) hf).2.2
    obtain ⟨xs, g1, g2⟩ := mapM_get q ixs h3
    refine ⟨xs, by rw [raqSample, hf]; exact g1, ?_⟩
    clear g1 h3 hf
    induction g2 with
    | nil => simp
    | cons hi _ ih =>
      rw [List.mem_cons, List.mem_cons, ih]
      refine or_congr_left ?_
      constructor
      · rintro rfl
        obtain ⟨hlt, e⟩ := List.getElem?_eq_some_iff.1 hi
        exact ((List.Nodup.getElem_inj_iff hq).1 e).symm
      · rintro rfl
        exact (List.getElem?_eq_some_iff.1 hi).2
  constructor
  · rintro ⟨fuel, xs, h1, h2⟩
    cases hf : sampleNK (perm ω) (fun i => s i ω) fuel q.len k with
    | error e => rw [raqSample, hf] at h1; cases h1
    | ok ixs =>
      obtain ⟨xs', h3, h4⟩ := key fuel ixs hf
      rw [h1] at h3
      cases h3
      exact ⟨ixs, ⟨fuel, hf⟩, h4.1 h2⟩
  · rintro ⟨ixs, ⟨fuel, hf⟩, h2⟩
    obtain ⟨xs, h3, h4⟩ := key fuel ixs hf
    exact ⟨fuel, xs, h3, h4.2 h2⟩

/-! ## Non-vacuity -/

instance {n k : ℕ} : MeasurableSpace (Fin k ↪ Fin n) := ⊤

/-- There is a generator for every `n` and `k`. -/
theorem generator_exists {n k : ℕ} (hn : 0 < n) (hk : k ≤ n) :
    ∃ (μ : Measure (ℕ → Fin n × (Fin k ↪ Fin n))) (perm : (ℕ → Fin n × (Fin k ↪ Fin n)) → List ℕ) (s : ℕ → (ℕ → Fin n × (Fin k ↪ Fin n)) → ℕ),
      Spec.Generator μ n k perm s := by
  have : Nonempty (Fin n) := ⟨⟨0, hn⟩⟩
  have : Nonempty (Fin k ↪ Fin n) := ⟨Fin.castLEEmb hk⟩
  have : DiscreteMeasurableSpace (Fin k ↪ Fin n) := ⟨fun _ => trivial⟩
  let P : Measure (Fin n × (Fin k ↪ Fin n)) := (PMF.uniformOfFintype _).toMeasure
  let μ : Measure (ℕ → Fin n × (Fin k ↪ Fin n)) := Measure.infinitePi fun _ => P
  have hn0 : (n : ENNReal) ≠ 0 := by simpa using hn.ne'
  have hD : (n.descFactorial k : ENNReal) ≠ 0 := by
    simp only [ne_eq, Nat.cast_eq_zero, Nat.descFactorial_eq_zero_iff_lt]
    omega
  have hP : ∀ i (A : Set (Fin n × (Fin k ↪ Fin n))), μ {ω | ω i ∈ A} = P A := fun i A => by
    have := Measure.infinitePi_map_eval (fun _ : ℕ => P) i
    rw [← this, Measure.map_apply (measurable_pi_apply i) (MeasurableSet.of_discrete)]
    rfl
  refine ⟨μ, fun ω => listOf (ω 0).2, fun i ω => (ω i).1, ⟨fun i => ?_, ?_, fun i ω => (ω i).1.2, fun i x hx => ?_, fun ω => listOf_choice _, fun l => ?_,
    fun l hl => ?_⟩⟩
  · exact (Measurable.of_discrete (f := fun t : Fin n × (Fin k ↪ Fin n) => (t.1 : ℕ))).comp (measurable_pi_apply i)
  · exact iIndepFun_infinitePi (P := fun _ : ℕ => P) (X := fun _ t => (t.1 : ℕ)) fun _ => Measurable.of_discrete
  · rw [show {ω : ℕ → Fin n × (Fin k ↪ Fin n) | ((ω i).1 : ℕ) = x} = {ω | ω i ∈ {t | t.1 = ⟨x, hx⟩}} by ext ω; simp [Fin.ext_iff], hP]
    have e : Fintype.card {t : Fin n × (Fin k ↪ Fin n) | t.1 = ⟨x, hx⟩} = n.descFactorial k := by
      rw [Fintype.card_congr (β := Fin k ↪ Fin n) ⟨fun t => t.1.2, fun e => ⟨(⟨x, hx⟩, e), rfl⟩, fun ⟨⟨a, e⟩, h⟩ => by cases h; rfl, fun _ => rfl⟩,
        Fintype.card_embedding_eq, Fintype.card_fin, Fintype.card_fin]
    rw [PMF.toMeasure_uniformOfFintype_apply _ MeasurableSet.of_discrete, e, Fintype.card_prod, Fintype.card_embedding_eq, Fintype.card_fin, Fintype.card_fin,
      Nat.cast_mul, ENNReal.div_eq_div_iff hn0 (by simp) (mul_ne_zero hn0 hD) (ENNReal.mul_ne_top (by simp) (by simp)), mul_one]
  · exact (measurable_pi_apply 0 : Measurable fun ω : ℕ → Fin n × (Fin k ↪ Fin n) => ω 0) (MeasurableSet.of_discrete (s := {t | listOf t.2 = l}))
  · obtain ⟨e, rfl⟩ := choice_listOf hl
    rw [show {ω : ℕ → Fin n × (Fin k ↪ Fin n) | listOf (ω 0).2 = listOf e} = {ω | ω 0 ∈ {t | t.2 = e}} by ext ω; simp [listOf_injective.eq_iff], hP]
    have c : Fintype.card {t : Fin n × (Fin k ↪ Fin n) | t.2 = e} = n := by
      rw [Fintype.card_congr (β := Fin n) ⟨fun t => t.1.1, fun x => ⟨(x, e), rfl⟩, fun ⟨⟨a, e⟩, h⟩ => by cases h; rfl, fun _ => rfl⟩, Fintype.card_fin]
    rw [PMF.toMeasure_uniformOfFintype_apply _ MeasurableSet.of_discrete, c, Fintype.card_prod, Fintype.card_embedding_eq, Fintype.card_fin, Fintype.card_fin,
      Nat.cast_mul, ENNReal.div_eq_div_iff hD (by simp) (mul_ne_zero hn0 hD) (ENNReal.mul_ne_top (by simp) (by simp)), mul_one, mul_comm]

/-- Two of ten indices: the rejection loop is used, each pair in each order has probability 1/90, each index is sampled with probability 1/5. -/
example : ∃ (μ : Measure (ℕ → Fin 10 × (Fin 2 ↪ Fin 10))) (perm : _ → List ℕ) (s : ℕ → _ → ℕ),
    μ {ω | Spec.Returns perm s 10 2 [7, 3] ω} = 1 / 90 ∧ μ {ω | ∃ l, Spec.Returns perm s 10 2 l ω ∧ 4 ∈ l} = 2 / 10 := by
  obtain ⟨μ, perm, s, h⟩ := generator_exists (n := 10) (k := 2) (by norm_num) (by norm_num)
  refine ⟨μ, perm, s, ?_, ?_⟩
  · rw [(sample_uniform h (by norm_num)).2 [7, 3] ⟨by decide, rfl, by decide⟩]
    norm_num [Nat.descFactorial]
  · rw [sample_inclusion h (by norm_num) (x := 4) (by norm_num)]
    norm_num

end Pfrl.Sample.Uniform
