import Mathlib.MeasureTheory.Integral.IntervalIntegral.Basic
import Mathlib.Data.List.Perm.Subperm
import Verif.Weights.Training

/-!
# Do importance weights undo the prioritization? (C100)

The model is that of `Weights/Training.lean`: `PrioritizedReplayBuffer` with the update of `DQN`.  A minibatch of one
experience uses one number `v`, uniformly distributed in `[0, 1)`; `np.random.uniform(0, total)` is `v * total`.
Expected values are integrals over `v`.
-/

namespace Pfrl.Weights.Unbiased

open Pfrl.PBuf (PB Rnd)
open Pfrl.Value.Loss (Row weightedValueLoss rowLoss)
open Pfrl.Weights.Training

variable {T : Type _}

/-! ## Model -/

/-- The random numbers of a call `sample(1)`: `np.random.uniform(0.0, root_value)` is `v * root_value`,
`pfrl/collections/prioritized.py:305`. -/
noncomputable def draw (v : ℝ) : Rnd ℝ := ⟨0, [], fun _ => 0, 0, fun _ total => v * total⟩

/-- The loss of `DQN.update` with a minibatch of one experience as a function of the random number,
`pfrl/agents/dqn.py:316-364`. -/
noncomputable def lossAt (s : Sys T) (clipDelta mean : Bool) (net : T → ℝ × ℝ) (v : ℝ) : ℝ :=
  match s.update 1 (draw v) clipDelta mean net with
  | .ok x => x.2.2
  | .error _ => 0

/-! ## Specification -/

/-- The unweighted loss of one experience. -/
noncomputable def Spec.loss (clipDelta : Bool) (net : T → ℝ × ℝ) (x : T) : ℝ :=
  rowLoss clipDelta ⟨(net x).1, (net x).2, 1⟩

/-- The average of the unweighted losses of everything in the memory: the expected loss of a uniformly drawn
experience. -/
noncomputable def Spec.average (clipDelta : Bool) (net : T → ℝ × ℝ) (xs : List T) : ℝ :=
  (xs.map (Spec.loss clipDelta net)).sum / xs.length

/-! ## Lemmas -/

theorem reached_sim {w : PWE} (hw : Training.Spec.Settings w) {cap : Option Int} (hcap : ∀ c, cap = some c → 1 ≤ c)
    {ops : List (Op T)} (ha : Training.Spec.Allowed w cap ⟨[], 1, w.beta⟩ ops) {s : Sys T} {outs}
    (hr : (Sys.new cap w : Sys T).run ops = .ok (s, outs)) :
    ∃ a, Training.Spec.Steps w cap ⟨[], 1, w.beta⟩ ops outs a ∧ Training.Sim w cap s a := by
  have key : ∀ (ops : List (Op T)) {s : Sys T} {a : Training.Spec.St T}, Training.Sim w cap s a →
      Training.Spec.Allowed w cap a ops →
      ∃ s' outs a', s.run ops = .ok (s', outs) ∧ Training.Spec.Steps w cap a ops outs a' ∧ Training.Sim w cap s' a' := by
    intro ops
    induction ops with
    | nil => intro s a h _; exact ⟨s, [], a, rfl, .nil a, h⟩
    | cons op ops ih =>
      intro s a h hal
      obtain ⟨s1, out, a1, g1, g2, g3⟩ := step_sim hw h op hal.1
      obtain ⟨s2, outs, a2, f1, f2, f3⟩ := ih g3 (hal.2 out a1 g2)
      refine ⟨s2, out :: outs, a2, ?_, .cons g2 f2, f3⟩
      unfold Sys.run
      rw [g1]
      simp only [f1]
  have h0 : Training.Sim w cap (Sys.new cap w : Sys T) ⟨[], 1, w.beta⟩ :=
    ⟨rfl, _, PBuf.new_sim hcap true one_pos, rfl, rfl, rfl, rfl, rfl⟩
  obtain ⟨s', outs', a, g1, g2, g3⟩ := key ops h0 ha
  rw [hr] at g1
  cases g1
  exact ⟨a, g2, g3⟩

theorem sim_pos {w : PWE} {cap : Option Int} {s : Sys T} {a : Training.Spec.St T} (h : Training.Sim w cap s a) :
    (∀ e ∈ a.entries, 0 < e.2) ∧ s.mem.data = a.entries.map (·.1) := by
  obtain ⟨p, h1, h2, h3, h4, h5, h6⟩ := h.mem
  refine ⟨fun e he => ?_, by rw [h1.data, h5]⟩
  rw [← h5] at he
  exact h1.pos e.2 (List.mem_map_of_mem he)

theorem draw_uniform {v : ℝ} (h0 : 0 ≤ v) (h1 : v < 1) : Tree.Spec.UniformRng (draw v).rng := by
  intro t hi hpos
  refine ⟨mul_nonneg h0 hpos.le, ?_⟩
  show v * hi < hi
  nlinarith

/-- The weight in a minibatch of one, where `m` is the least priority in the memory. -/
noncomputable def weight1 (w : PWE) (beta : ℝ) (prios : List ℝ) (m p : ℝ) : ℝ :=
  match w.norm with
  | .off => (prios.length * (p / prios.sum)) ^ (-beta)
  | .memory => (m / p) ^ beta
  | .batch => 1

/-- The loss for the number `v` is the weighted loss of the experience that owns `v * total`. -/
theorem update_one {w : PWE} (hw : Training.Spec.Settings w) {cap : Option Int} {s : Sys T} {a : Training.Spec.St T}
    (h : Training.Sim w cap s a) (hne : a.entries ≠ []) (c mean : Bool) (net : T → ℝ × ℝ) {m : ℝ}
    (hm : Training.Spec.Least (a.entries.map (·.2)) m) {v : ℝ} (h0 : 0 ≤ v) (h1 : v < 1) :
    ∃ out i e, s.update 1 (draw v) c mean net = .ok out ∧ a.entries[i]? = some e ∧
      Tree.Spec.Owns (a.entries.map (·.2)) i (v * (a.entries.map (·.2)).sum) ∧
      out.2.2 = weight1 w a.beta (a.entries.map (·.2)) m e.2 * Spec.loss c net e.1 := by
  have hlen : 1 ≤ a.entries.length := List.length_pos_of_ne_nil hne
  obtain ⟨s', out, a', g1, g2, g3⟩ := update_sim hw h 1 (draw v) c mean net ⟨le_refl _, hlen, draw_uniform h0 h1⟩
  have hpos := (sim_pos h).1
  generalize hop : Op.update 1 (draw v) c mean net = op at g2
  cases g2 with
  | store => cases hop
  | update n r c' mean' net' is vs ws drawn m' entries rows k1 k2 k3 k4 k5 k6 k7 k8 k9 =>
    cases hop
    simp only [Sys.step] at g1
    cases hu : s.update 1 (draw v) c mean net with
    | error e => rw [hu] at g1; cases g1
    | ok out =>
      rw [hu] at g1
      simp only [Except.map, Except.ok.injEq, Prod.mk.injEq, Option.some.injEq] at g1
      cases k1 with
      | nil => simp at k3
      | cons hown hv hrest =>
        rename_i i v' is' vs'
        have : is' = [] := by
          simp only [List.length_cons] at k3
          exact List.eq_nil_of_length_eq_zero (by omega)
        subst this
        obtain ⟨e, rfl⟩ : ∃ e, drawn = [e] := by
          have := congrArg List.length k4
          simp only [List.length_map, List.length_cons, List.length_nil] at this
          exact List.length_eq_one_iff.1 this.symm
        simp only [List.map_cons, List.map_nil, List.cons.injEq, and_true] at k4
        refine ⟨out, i, e, rfl, k4, hown, ?_⟩
        rw [g1.2, k6]
        simp only [List.map_cons, List.map_nil]
        rw [Pfrl.Value.Loss.weightedValueLoss_eq]
        simp only [List.map_cons, List.map_nil, List.sum_cons, List.sum_nil, add_zero, List.length_cons, List.length_nil,
          zero_add, Nat.cast_one, ite_self, div_one]
        have hl : rowLoss c ⟨(net e.1).1, (net e.1).2, Training.Spec.weight w a.beta (a.entries.map (·.2)) m' e.2⟩
            = Spec.loss c net e.1 := by
          unfold Spec.loss rowLoss
          cases c <;> rfl
        rw [hl, mul_comm]
        congr 1
        have hep : 0 < e.2 := hpos e (List.mem_of_getElem? k4)
        unfold Training.Spec.weight weight1
        cases hn : w.norm with
        | off => rfl
        | memory =>
          rw [hn] at k5
          simp only [reduceCtorEq, if_false] at k5
          have : m' = m := le_antisymm (k5.2 m hm.1) (hm.2 m' k5.1)
          rw [this]
        | batch =>
          rw [hn] at k5
          simp only [if_true, List.map_cons, List.map_nil] at k5
          have : m' = e.2 := by simpa using k5.1
          simp only [this, div_self hep.ne', Real.one_rpow]

theorem sum_range_getElem {α : Type _} (l : List α) (f : α → ℝ) (g : Nat → ℝ)
    (h : ∀ i e, l[i]? = some e → g i = f e) : ∑ i ∈ Finset.range l.length, g i = (l.map f).sum := by
  induction l generalizing g with
  | nil => simp
  | cons x l ih =>
    rw [List.length_cons, Finset.sum_range_succ', List.map_cons, List.sum_cons, ih (fun i => g (i + 1)), h 0 x rfl,
      add_comm]
    intro i e he
    exact h (i + 1) e (by simpa using he)

/-- The expected loss of a minibatch of one. -/
theorem expected {w : PWE} (hw : Training.Spec.Settings w) {cap : Option Int} {s : Sys T} {a : Training.Spec.St T}
    (h : Training.Sim w cap s a) (hne : a.entries ≠ []) (c mean : Bool) (net : T → ℝ × ℝ) {m : ℝ}
    (hm : Training.Spec.Least (a.entries.map (·.2)) m) :
    ∫ v in (0 : ℝ)..1, lossAt s c mean net v
      = (a.entries.map fun e => e.2 / (a.entries.map (·.2)).sum *
          (weight1 w a.beta (a.entries.map (·.2)) m e.2 * Spec.loss c net e.1)).sum := by
  set prios := a.entries.map (·.2) with hprios
  have hpos : ∀ p ∈ prios, 0 < p := by
    intro p hp
    obtain ⟨e, he, rfl⟩ := List.mem_map.1 hp
    exact (sim_pos h).1 e he
  have hS : 0 < prios.sum := lt_of_lt_of_le (hpos m hm.1) (List.single_le_sum (fun p hp => (hpos p hp).le) m hm.1)
  set A : Nat → ℝ := fun k => (prios.take k).sum / prios.sum with hA
  have hA0 : A 0 = 0 := by simp [hA]
  have hAn : A a.entries.length = 1 := by
    have : prios.take a.entries.length = prios := by
      rw [List.take_of_length_le]; simp [hprios]
    simp only [hA, this]
    exact div_self hS.ne'
  have hstep : ∀ i e, a.entries[i]? = some e → A (i + 1) = A i + e.2 / prios.sum := by
    intro i e he
    have hi : i < prios.length := by
      rw [hprios, List.length_map]
      by_contra hc
      rw [List.getElem?_eq_none (by omega)] at he
      cases he
    have hpe : prios[i] = e.2 := by
      have : prios[i]? = some e.2 := by simp [hprios, he]
      rw [List.getElem?_eq_getElem hi] at this
      exact Option.some.inj this
    simp only [hA]
    rw [List.take_succ_eq_append_getElem hi, List.sum_append, List.sum_singleton, hpe, add_div]
  have hmono1 : ∀ i, A i ≤ A (i + 1) := by
    intro i
    rcases he : a.entries[i]? with _ | e
    · have hi : prios.length ≤ i := by
        rw [hprios, List.length_map]
        exact List.getElem?_eq_none_iff.1 he
      simp only [hA, List.take_of_length_le hi, List.take_of_length_le (Nat.le_succ_of_le hi), le_refl]
    · rw [hstep i e he]
      have := hpos e.2 (by rw [hprios]; exact List.mem_map_of_mem (List.mem_of_getElem? he))
      have : 0 < e.2 / prios.sum := by positivity
      linarith
  have hmono : ∀ i j, i ≤ j → A i ≤ A j := fun i j hij => monotone_nat_of_le_succ hmono1 hij
  -- on each interval the loss is constant
  have hconst : ∀ i e, a.entries[i]? = some e → ∀ v, A i ≤ v → v < A (i + 1) →
      lossAt s c mean net v = weight1 w a.beta prios m e.2 * Spec.loss c net e.1 := by
    intro i e he v hv0 hv1
    have hi : i < a.entries.length := by
      by_contra hc
      rw [List.getElem?_eq_none (by omega)] at he
      cases he
    have h0 : 0 ≤ v := by
      have := hmono 0 i (Nat.zero_le _)
      rw [hA0] at this
      linarith
    have h1 : v < 1 := by
      have := hmono (i + 1) a.entries.length hi
      rw [hAn] at this
      linarith
    obtain ⟨out, j, e', k1, k2, k3, k4⟩ := update_one hw h hne c mean net hm h0 h1
    have hown : Tree.Spec.Owns prios i (v * prios.sum) := by
      refine ⟨?_, ?_⟩
      · have := (div_le_iff₀ hS).1 hv0
        exact this
      · exact (lt_div_iff₀ hS).1 hv1
    have hij : i = j := Tree.owns_unique (fun p hp => (hpos p hp).le) hown k3
    subst hij
    rw [he] at k2
    cases k2
    simp only [lossAt, k1, k4]
    rfl
  have hae : ∀ i e, a.entries[i]? = some e → ∀ᵐ v ∂MeasureTheory.volume, v ∈ Set.uIoc (A i) (A (i + 1)) →
      lossAt s c mean net v = weight1 w a.beta prios m e.2 * Spec.loss c net e.1 := by
    intro i e he
    have hnull : ∀ᵐ v : ℝ ∂MeasureTheory.volume, v ≠ A (i + 1) := by
      rw [MeasureTheory.ae_iff]
      simp
    filter_upwards [hnull] with v hv hmem
    rw [Set.uIoc_of_le (hmono1 i)] at hmem
    exact hconst i e he v hmem.1.le (lt_of_le_of_ne hmem.2 hv)
  have hint : ∀ i < a.entries.length, IntervalIntegrable (lossAt s c mean net) MeasureTheory.volume (A i) (A (i + 1)) := by
    intro i hi
    have he : a.entries[i]? = some a.entries[i] := List.getElem?_eq_getElem hi
    have h1 : IntervalIntegrable (fun _ : ℝ => weight1 w a.beta prios m a.entries[i].2 * Spec.loss c net a.entries[i].1)
        MeasureTheory.volume (A i) (A (i + 1)) := intervalIntegrable_const
    refine h1.congr_ae ?_
    rw [Filter.EventuallyEq, MeasureTheory.ae_restrict_iff' measurableSet_uIoc]
    filter_upwards [hae i _ he] with v hv hmem
    exact (hv hmem).symm
  have hsum := intervalIntegral.sum_integral_adjacent_intervals (a := A) (n := a.entries.length) hint
  rw [hA0, hAn] at hsum
  rw [← hsum]
  apply sum_range_getElem
  intro i e he
  rw [intervalIntegral.integral_congr_ae (hae i e he), intervalIntegral.integral_const, hstep i e he, add_sub_cancel_left,
    smul_eq_mul]

theorem least_exists (l : List ℝ) (h : l ≠ []) : ∃ m, Training.Spec.Least l m := by
  obtain ⟨p, ps, rfl⟩ := List.exists_cons_of_ne_nil h
  exact ⟨_, (foldl_min_spec p ps).1, (foldl_min_spec p ps).2⟩

/-- A minibatch of the whole memory: whatever is drawn, each experience once. -/
theorem update_all {w : PWE} (hw : Training.Spec.Settings w) {cap : Option Int} {s : Sys T} {a : Training.Spec.St T}
    (h : Training.Sim w cap s a) (hne : a.entries ≠ []) (c mean : Bool) (net : T → ℝ × ℝ) {m : ℝ}
    (hm : Training.Spec.Least (a.entries.map (·.2)) m) (r : Rnd ℝ) (hr : Tree.Spec.UniformRng r.rng) :
    ∃ out, s.update a.entries.length r c mean net = .ok out ∧
      out.2.2 = (a.entries.map fun e => Training.Spec.weight w a.beta (a.entries.map (·.2)) m e.2 * Spec.loss c net e.1).sum
        / (if mean then (a.entries.length : ℝ) else 1) := by
  have hlen : 1 ≤ a.entries.length := List.length_pos_of_ne_nil hne
  obtain ⟨s', out, a', g1, g2, g3⟩ := update_sim hw h a.entries.length r c mean net ⟨hlen, le_refl _, hr⟩
  generalize hop : Op.update a.entries.length r c mean net = op at g2
  cases g2 with
  | store => cases hop
  | update n r' c' mean' net' is vs ws drawn m' entries rows k1 k2 k3 k4 k5 k6 k7 k8 k9 =>
    cases hop
    simp only [Sys.step] at g1
    cases hu : s.update a.entries.length r c mean net with
    | error e => rw [hu] at g1; cases g1
    | ok out =>
      rw [hu] at g1
      simp only [Except.map, Except.ok.injEq, Prod.mk.injEq, Option.some.injEq] at g1
      refine ⟨out, rfl, ?_⟩
      -- the drawn positions are all positions
      have hlt : ∀ i ∈ is, i ∈ List.range a.entries.length := by
        intro i hi
        have : a.entries[i]? ∈ is.map (fun i => a.entries[i]?) := List.mem_map_of_mem hi
        rw [k4] at this
        obtain ⟨e, _, he⟩ := List.mem_map.1 this
        rw [List.mem_range]
        by_contra hc
        rw [List.getElem?_eq_none (by omega)] at he
        cases he
      have hperm : is.Perm (List.range a.entries.length) :=
        (List.subperm_of_subset k2 hlt).perm_of_length_le (by rw [List.length_range, k3])
      have hperm2 : (drawn.map some).Perm (a.entries.map some) := by
        rw [← k4]
        refine (hperm.map _).trans (List.Perm.of_eq ?_)
        apply List.ext_getElem?
        intro i
        rw [List.getElem?_map, List.getElem?_map]
        by_cases hi : i < a.entries.length
        · rw [List.getElem?_range hi, List.getElem?_eq_getElem hi]
          simp [List.getElem?_eq_getElem hi]
        · rw [List.getElem?_eq_none (by simpa using hi), List.getElem?_eq_none (by omega)]
          rfl
      have hperm3 : drawn.Perm a.entries := by
        have := hperm2.filterMap id
        simpa [List.filterMap_map] using this
      have hm' : m' = m := by
        have hle : ∀ x, x ∈ (if w.norm = .batch then drawn.map (·.2) else a.entries.map (·.2)) ↔
            x ∈ a.entries.map (·.2) := by
          intro x
          split
          · exact (hperm3.map _).mem_iff
          · exact Iff.rfl
        exact le_antisymm (k5.2 m ((hle m).2 hm.1)) (hm.2 m' ((hle m').1 k5.1))
      subst hm'
      rw [g1.2, k6, Pfrl.Value.Loss.weightedValueLoss_eq]
      simp only [List.length_map, List.map_map]
      rw [hperm3.length_eq]
      congr 1
      have hf : ((fun r : Row ℝ ℝ => rowLoss c r * r.w) ∘ (fun x : T × Row ℝ ℝ => x.2) ∘ fun e : T × ℝ =>
          (e.1, (⟨(net e.1).1, (net e.1).2, Training.Spec.weight w a.beta (a.entries.map (·.2)) m' e.2⟩ : Row ℝ ℝ)))
          = fun e => Training.Spec.weight w a.beta (a.entries.map (·.2)) m' e.2 * Spec.loss c net e.1 := by
        funext e
        simp only [Function.comp_apply]
        rw [mul_comm]
        congr 1
      rw [hf]
      exact (hperm3.map _).sum_eq

/-! ## C100 -/

/-- **C100 (one draw).** After every history, for a minibatch of one experience: with `beta` equal to 1, the expected
weighted loss is the average loss over the whole memory, exactly if weights are not normalised, and up to a factor that
does not depend on the networks if they are normalised over the memory.  So prioritization changes the variance of the
update but not its direction. -/
theorem prioritized_unbiased_partial {w : PWE} (hw : Training.Spec.Settings w) {cap : Option Int}
    (hcap : ∀ c, cap = some c → 1 ≤ c) (ops : List (Op T))
    (ha : Training.Spec.Allowed w cap ⟨[], 1, w.beta⟩ ops) (s : Sys T) (outs)
    (hr : (Sys.new cap w : Sys T).run ops = .ok (s, outs)) (hne : s.mem.data ≠ []) (hbeta : s.pwe.beta = 1) :
    (w.norm = .off → ∀ c mean net, ∫ v in (0 : ℝ)..1, lossAt s c mean net v = Spec.average c net s.mem.data) ∧
    (w.norm = .memory → ∃ k, 0 < k ∧ ∀ c mean net,
      ∫ v in (0 : ℝ)..1, lossAt s c mean net v = k * Spec.average c net s.mem.data) ∧
    ∀ c mean net v, 0 ≤ v → v < 1 → ∃ out, s.update 1 (draw v) c mean net = .ok out := by
  obtain ⟨a, _, hsim⟩ := reached_sim hw hcap ha hr
  obtain ⟨hpos, hdata⟩ := sim_pos hsim
  have hne' : a.entries ≠ [] := by
    rintro hc
    rw [hdata, hc] at hne
    exact hne rfl
  have hb : a.beta = 1 := by rw [hsim.pwe] at hbeta; exact hbeta
  obtain ⟨m, hm⟩ := least_exists (a.entries.map (·.2)) (by simpa using hne')
  have hpp : ∀ p ∈ a.entries.map (·.2), 0 < p := by
    intro p hp
    obtain ⟨e, he, rfl⟩ := List.mem_map.1 hp
    exact hpos e he
  have hS : 0 < (a.entries.map (·.2)).sum :=
    lt_of_lt_of_le (hpp m hm.1) (List.single_le_sum (fun p hp => (hpp p hp).le) m hm.1)
  have hN : (0 : ℝ) < a.entries.length := by
    have := List.length_pos_of_ne_nil hne'
    exact_mod_cast this
  have hscale : ∀ (k : ℝ) c net, k * Spec.average c net s.mem.data
      = (a.entries.map fun e => k / a.entries.length * Spec.loss c net e.1).sum := by
    intro k c net
    rw [Spec.average, hdata, List.sum_map_mul_left, List.map_map, List.length_map]
    have : (Spec.loss c net ∘ fun x : T × ℝ => x.1) = fun e => Spec.loss c net e.1 := rfl
    rw [this]
    ring
  refine ⟨fun hn c mean net => ?_, fun hn => ⟨a.entries.length * m / (a.entries.map (·.2)).sum, ?_, fun c mean net => ?_⟩,
    fun c mean net v h0 h1 => ?_⟩
  · rw [expected hw hsim hne' c mean net hm, ← one_mul (Spec.average c net s.mem.data), hscale]
    congr 1
    apply List.map_congr_left
    intro e he
    have := hpos e he
    simp only [weight1, hn, hb, Real.rpow_neg_one, List.length_map]
    field_simp
  · have := hpp m hm.1
    positivity
  · rw [expected hw hsim hne' c mean net hm, hscale]
    congr 1
    apply List.map_congr_left
    intro e he
    have := hpos e he
    simp only [weight1, hn, hb, Real.rpow_one]
    field_simp
  · obtain ⟨out, _, _, h, _⟩ := update_one hw hsim hne' c mean net hm h0 h1
    exact ⟨out, h⟩

/-- **C100, normalisation in the minibatch.** With the default normalisation, a minibatch of one experience always has
weight 1, whatever `beta`: nothing is corrected, and the expected loss is that of prioritized sampling. -/
theorem prioritized_batch_normalised {w : PWE} (hw : Training.Spec.Settings w) {cap : Option Int}
    (hcap : ∀ c, cap = some c → 1 ≤ c) (ops : List (Op T))
    (ha : Training.Spec.Allowed w cap ⟨[], 1, w.beta⟩ ops) (s : Sys T) (outs)
    (hr : (Sys.new cap w : Sys T).run ops = .ok (s, outs)) (hne : s.mem.data ≠ []) (hn : w.norm = .batch) :
    ∃ prios, Tree.Stores s.mem.sums prios ∧ prios.length = s.mem.data.length ∧ ∀ c mean net,
      ∫ v in (0 : ℝ)..1, lossAt s c mean net v
        = ((s.mem.data.zip prios).map fun e => e.2 / prios.sum * Spec.loss c net e.1).sum := by
  obtain ⟨a, _, hsim⟩ := reached_sim hw hcap ha hr
  obtain ⟨hpos, hdata⟩ := sim_pos hsim
  have hne' : a.entries ≠ [] := by
    rintro hc
    rw [hdata, hc] at hne
    exact hne rfl
  obtain ⟨m, hm⟩ := least_exists (a.entries.map (·.2)) (by simpa using hne')
  obtain ⟨p, h1, h2, h3, h4, h5, h6⟩ := hsim.mem
  refine ⟨a.entries.map (·.2), ?_, by simp [hdata], fun c mean net => ?_⟩
  · have := h1.sums
    simp only [PBuf.weights, h4, Bool.and_false, Bool.false_eq_true, if_false] at this
    rw [← h5]
    exact this.stores
  · rw [expected hw hsim hne' c mean net hm, hdata, List.zip_map']
    congr 1
    simp only [weight1, hn, one_mul, List.map_map]
    rfl

/-- **C100, violated for larger minibatches.** The weights assume independent draws, but a minibatch is drawn without
replacement.  With `beta = 1`, no normalisation, two stored experiences of priorities 1 and 3 and a minibatch of two: for
all random numbers the weighted loss is `loss 0 + loss 1 / 3` instead of the average `(loss 0 + loss 1) / 2`. -/
theorem prioritized_minibatch_biased : ∃ (w : PWE) (ops : List (Op Nat)) (s : Sys Nat) (outs : List _),
    Training.Spec.Settings w ∧ w.norm = .off ∧ Training.Spec.Allowed w none ⟨[], 1, w.beta⟩ ops ∧
    (Sys.new none w : Sys Nat).run ops = .ok (s, outs) ∧ s.pwe.beta = 1 ∧ s.mem.data = [0, 1] ∧
    Tree.Stores s.mem.sums [1, 3] ∧
    ∀ (r : Rnd ℝ) c net, Tree.Spec.UniformRng r.rng → ∃ out, s.update 2 r c true net = .ok out ∧
      out.2.2 = Spec.loss c net 0 + Spec.loss c net 1 / 3 := by
  let w : PWE := ⟨1, 1, 0, 1 / 2, .off, some 0, none⟩
  have hw : Training.Spec.Settings w := ⟨zero_le_one, by norm_num [w], ⟨0, rfl, le_refl _⟩, fun m hm => by cases hm⟩
  let net0 : Nat → ℝ × ℝ := fun i => if i = 0 then (1 / 2, 0) else (5 / 2, 0)
  let ops : List (Op Nat) := [.store 0, .store 1, .update 2 (draw 0) false true net0]
  have ha : Training.Spec.Allowed w none ⟨[], 1, w.beta⟩ ops := by
    refine ⟨trivial, fun _ _ h => ?_⟩
    cases h
    refine ⟨trivial, fun _ _ h => ?_⟩
    cases h
    exact ⟨⟨by decide, by simp, draw_uniform (le_refl _) one_pos⟩, fun _ _ _ => trivial⟩
  obtain ⟨s, outs, _, hrun, _⟩ := prioritized_training hw (cap := none) (fun c hc => by cases hc) ops ha
  obtain ⟨a, hsteps, hsim⟩ := reached_sim hw (fun c hc => by cases hc) ha hrun
  -- what is stored now
  have hentries : a.entries = [(0, 1), (1, 3)] ∧ a.beta = 1 := by
    change Training.Spec.Steps w none ⟨[], 1, w.beta⟩
      [.store 0, .store 1, .update 2 (draw 0) false true net0] outs a at hsteps
    cases hsteps with
    | cons h1 hs =>
      cases h1
      cases hs with
      | cons h2 hs =>
        cases h2
        cases hs with
        | cons h3 hs =>
          cases hs
          cases h3 with
          | update _ _ _ _ _ is vs ws drawn m entries rows k1 k2 k3 k4 k5 k6 k7 k8 k9 =>
            refine ⟨?_, by simp [w]⟩
            simp only [reduceCtorEq, if_false, List.nil_append, List.cons_append] at k4 k7 k8 k9 k1
            have hlt : ∀ i ∈ is, i < 2 := by
              intro i hi
              have : [((0 : Nat), (1 : ℝ)), (1, 1)][i]? ∈ is.map (fun i => [((0 : Nat), (1 : ℝ)), (1, 1)][i]?) :=
                List.mem_map_of_mem hi
              rw [k4] at this
              obtain ⟨e, _, he⟩ := List.mem_map.1 this
              by_contra hc
              rw [List.getElem?_eq_none (by simp; omega)] at he
              cases he
            have hperm : is.Perm (List.range 2) :=
              (List.subperm_of_subset k2 (fun i hi => List.mem_range.2 (hlt i hi))).perm_of_length_le
                (by rw [List.length_range, k3])
            have hget : ∀ i e, i < 2 → [((0 : Nat), (1 : ℝ)), (1, 1)][i]? = some e →
                entries[i]? = some (e.1, Training.Spec.priority w |(net0 e.1).1 - (net0 e.1).2|) := by
              intro i e hi he
              have hmem : i ∈ is := hperm.mem_iff.2 (List.mem_range.2 hi)
              obtain ⟨k, hk, hki⟩ := List.mem_iff_getElem.1 hmem
              have hk' : is[k]? = some i := by rw [List.getElem?_eq_getElem hk, hki]
              have := congrArg (fun l => l[k]?) k4
              simp only [List.getElem?_map, hk', Option.map_some, he] at this
              rcases hd : drawn[k]? with _ | e'
              · rw [hd] at this; cases this
              · rw [hd] at this
                cases this
                exact k8 k i e hk' hd
            have g0 := hget 0 (0, 1) (by decide) rfl
            have g1 := hget 1 (1, 1) (by decide) rfl
            have p0 : Training.Spec.priority w |(net0 0).1 - (net0 0).2| = 1 := by
              simp only [Training.Spec.priority, PWE.clip, w, net0, if_true, Real.rpow_one]
              norm_num
            have p1 : Training.Spec.priority w |(net0 1).1 - (net0 1).2| = 3 := by
              simp only [Training.Spec.priority, PWE.clip, w, net0, Real.rpow_one]
              norm_num
            rw [p0] at g0
            rw [p1] at g1
            match entries, k7, g0, g1 with
            | [x, y], _, g0, g1 =>
              simp only [List.getElem?_cons_zero, Option.some.injEq, List.getElem?_cons_succ] at g0 g1
              simp only [g0, g1]
  obtain ⟨he, hb⟩ := hentries
  obtain ⟨p, h1, h2, h3, h4, h5, h6⟩ := hsim.mem
  refine ⟨w, ops, s, outs, hw, rfl, ha, hrun, by rw [hsim.pwe]; exact hb, by rw [(sim_pos hsim).2, he]; rfl, ?_, ?_⟩
  · have := h1.sums
    simp only [PBuf.weights, h4, Bool.and_false, Bool.false_eq_true, if_false] at this
    have hp : p.prios = [1, 3] := by simp [PBuf.Spec.St.prios, h5, he]
    rw [hp] at this
    exact this.stores
  · intro r c net hr
    have hm : Training.Spec.Least (a.entries.map (·.2)) 1 := by
      rw [he]
      constructor
      · simp
      · intro x hx
        simp at hx
        rcases hx with rfl | rfl <;> norm_num
    obtain ⟨out, k1, k2⟩ := update_all hw hsim (by rw [he]; simp) c true net hm r hr
    have hl : a.entries.length = 2 := by rw [he]; rfl
    rw [hl] at k1 k2
    refine ⟨out, k1, ?_⟩
    rw [k2, he, hb]
    simp only [List.map_cons, List.map_nil, List.sum_cons, List.sum_nil, Training.Spec.weight, w, Real.rpow_neg_one,
      List.length_cons, List.length_nil, if_true]
    norm_num
    ring

/-! ## Non-vacuity -/

/-- The memory of `prioritized_minibatch_biased` meets the hypotheses of `prioritized_unbiased_partial`: there one draw
is unbiased and two draws are not. -/
example : ∃ (w : PWE) (ops : List (Op Nat)) (s : Sys Nat) (outs : List _),
    (Sys.new none w : Sys Nat).run ops = .ok (s, outs) ∧
    (∀ c net, ∫ v in (0 : ℝ)..1, lossAt s c true net v = (Spec.loss c net 0 + Spec.loss c net 1) / 2) ∧
    ∀ r : Rnd ℝ, Tree.Spec.UniformRng r.rng → ∃ out, s.update 2 r false true (fun i => (i, 0)) = .ok out ∧
      out.2.2 = 1 / 6 := by
  obtain ⟨w, ops, s, outs, hw, hn, ha, hr, hb, hd, _, h2⟩ := prioritized_minibatch_biased
  have h1 := prioritized_unbiased_partial hw (fun c hc => by cases hc) ops ha s outs hr (by rw [hd]; simp) hb
  refine ⟨w, ops, s, outs, hr, fun c net => ?_, fun r hu => ?_⟩
  · rw [h1.1 hn, hd]
    simp [Spec.average]
  · obtain ⟨out, k1, k2⟩ := h2 r false (fun i => (i, 0)) hu
    refine ⟨out, k1, ?_⟩
    rw [k2]
    norm_num [Spec.loss, rowLoss]

/-- The default settings with one stored experience meet the hypotheses of `prioritized_batch_normalised`. -/
example : ∃ (w : PWE) (ops : List (Op Nat)) (s : Sys Nat) (outs : List _), Training.Spec.Settings w ∧ w.norm = .batch ∧
    Training.Spec.Allowed w (some 5) ⟨[], 1, w.beta⟩ ops ∧
    (Sys.new (some 5) w : Sys Nat).run ops = .ok (s, outs) ∧ s.mem.data = [7, 8] := by
  let w : PWE := ⟨6 / 10, 4 / 10, 1 / 1000, 1 / 100, .batch, some 0, some 1⟩
  have hw : Training.Spec.Settings w :=
    ⟨by norm_num [w], by norm_num [w], ⟨0, rfl, le_refl _⟩, fun m hm => by cases hm; norm_num⟩
  have ha : Training.Spec.Allowed w (some 5) ⟨[], 1, w.beta⟩ ([.store 7, .store 8] : List (Op Nat)) :=
    ⟨trivial, fun _ _ _ => ⟨trivial, fun _ _ _ => trivial⟩⟩
  have hcap : ∀ c, (some 5 : Option Int) = some c → 1 ≤ c := fun c hc => by cases hc; decide
  obtain ⟨s, outs, _, hrun, _⟩ := prioritized_training hw hcap _ ha
  obtain ⟨a, hsteps, hsim⟩ := reached_sim hw hcap ha hrun
  refine ⟨w, _, s, outs, hw, rfl, ha, hrun, ?_⟩
  rw [(sim_pos hsim).2]
  cases hsteps with
  | cons h1 hs =>
    cases h1
    cases hs with
    | cons h2 hs => cases h2; cases hs; rfl

end Pfrl.Weights.Unbiased
