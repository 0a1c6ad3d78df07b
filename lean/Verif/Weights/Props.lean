import Verif.Weights.Model
import Mathlib.Tactic.Linarith
import Mathlib.Tactic.FieldSimp
import Mathlib.Tactic.NormNum

/-!
# Importance weights and annealing (C10)
-/

namespace Pfrl.Weights

theorem foldl_min_spec (p : ℝ) (ps : List ℝ) :
    ps.foldl min p ∈ p :: ps ∧ ∀ x ∈ p :: ps, ps.foldl min p ≤ x := by
  induction ps generalizing p with
  | nil => simp
  | cons b bs ih =>
    obtain ⟨h1, h2⟩ := ih (min p b)
    rw [List.foldl_cons]
    have h3 := h2 (min p b) (by simp)
    constructor
    · rcases List.mem_cons.1 h1 with h | h
      · rw [h]; rcases min_choice p b with g | g <;> rw [g] <;> simp
      · simp [h]
    · intro x hx
      rcases List.mem_cons.1 hx with rfl | hx
      · exact h3.trans (min_le_left _ _)
      · rcases List.mem_cons.1 hx with rfl | hx
        · exact h3.trans (min_le_right _ _)
        · exact h2 x (by simp [hx])

/-- The least probability the weights are normalised by: the least of the batch, or the one the
memory reports. -/
def IsNormaliser (norm : Norm) (probs : List ℝ) (memMin m : ℝ) : Prop :=
  match norm with
  | .batch => m ∈ probs ∧ ∀ p ∈ probs, m ≤ p
  | .memory => m = memMin
  | .off => False

theorem rpow_div_neg {p m b : ℝ} (hp : 0 < p) (hm : 0 < m) : (p / m) ^ (-b) = (m / p) ^ b := by
  rw [Real.rpow_neg (by positivity), ← Real.inv_rpow (by positivity), inv_div]

/-- **C10 (weights).** With normalisation, for a non-empty batch of positive probabilities none of
which is below the normaliser, the call returns one weight per probability; the weight of `p` is
`(p_min / p) ^ beta`, lies in `(0, 1]`, and a rarer item never weighs less. -/
theorem importance_weights {w : PWE} (hn : w.norm ≠ .off) (hb : 0 ≤ w.beta)
    (memLen : Nat) {probs : List ℝ} (hne : probs ≠ []) (hpos : ∀ p ∈ probs, 0 < p) {memMin : ℝ}
    (hmem : w.norm = .memory → 0 < memMin ∧ ∀ p ∈ probs, memMin ≤ p) :
    ∃ ws w' m, w.weightsFromProbabilities memLen probs memMin = .ok (ws, w') ∧
      IsNormaliser w.norm probs memMin m ∧
      ws = probs.map (fun p => (m / p) ^ w.beta) ∧
      (∀ x ∈ ws, 0 < x ∧ x ≤ 1) ∧
      (∀ (i j : Nat) p q x y, probs[i]? = some p → probs[j]? = some q → ws[i]? = some x →
        ws[j]? = some y → p ≤ q → y ≤ x) ∧
      (w.norm = .batch → 1 ∈ ws) := by
  obtain ⟨p0, ps, rfl⟩ := List.exists_cons_of_ne_nil hne
  obtain ⟨m, hm1, hm2, hm3, hm4⟩ : ∃ m,
      w.weightsFromProbabilities memLen (p0 :: ps) memMin =
        .ok ((p0 :: ps).map (fun p => (p / m) ^ (-w.beta)),
          { w with beta := min 1 (w.beta + w.betaAdd) }) ∧
      IsNormaliser w.norm (p0 :: ps) memMin m ∧ 0 < m ∧ ∀ p ∈ p0 :: ps, m ≤ p := by
    obtain ⟨al, be, ba, ep, nm, e1, e2⟩ := w
    cases nm with
    | off => exact absurd rfl hn
    | batch =>
      have := foldl_min_spec p0 ps
      exact ⟨_, rfl, this, hpos _ this.1, this.2⟩
    | memory => exact ⟨memMin, rfl, rfl, (hmem rfl).1, (hmem rfl).2⟩
  have hws : (p0 :: ps).map (fun p => (p / m) ^ (-w.beta))
      = (p0 :: ps).map (fun p => (m / p) ^ w.beta) :=
    List.map_congr_left fun p hp => rpow_div_neg (hpos p hp) hm3
  refine ⟨(p0 :: ps).map (fun p => (m / p) ^ w.beta),
    { w with beta := min 1 (w.beta + w.betaAdd) }, m, ?_, hm2, rfl, ?_, ?_, ?_⟩
  · rw [hm1, hws]
  · intro x hx
    obtain ⟨p, hp, rfl⟩ := List.mem_map.1 hx
    have h1 := hpos p hp
    have h2 : m / p ≤ 1 := (div_le_one h1).2 (hm4 p hp)
    exact ⟨Real.rpow_pos_of_pos (by positivity) _,
      Real.rpow_le_one (by positivity) h2 hb⟩
  · intro i j p q x y hi hj hx hy hpq
    rw [List.getElem?_map, hi] at hx
    rw [List.getElem?_map, hj] at hy
    simp only [Option.map_some, Option.some.injEq] at hx hy
    subst hx hy
    have h1 := hpos p (List.mem_of_getElem? hi)
    have h2 := hpos q (List.mem_of_getElem? hj)
    apply Real.rpow_le_rpow (by positivity) _ hb
    exact div_le_div_of_nonneg_left hm3.le h1 hpq
  · intro hbat
    rw [hbat] at hm2
    refine List.mem_map.2 ⟨m, hm2.1, ?_⟩
    rw [div_self hm3.ne', Real.one_rpow]

/-- The hypotheses of `importance_weights` are met by a batch of three. -/
example : ∃ w : PWE, w.norm ≠ .off ∧ 0 ≤ w.beta ∧ ([0.5, 0.25, 0.25] : List ℝ) ≠ [] ∧
    ∀ p ∈ ([0.5, 0.25, 0.25] : List ℝ), 0 < p :=
  ⟨⟨0.6, 0.4, 0.1, 0.01, .batch, some 0, some 1⟩, by simp, by norm_num, by simp, by
    intro p hp; simp at hp; rcases hp with rfl | rfl | rfl <;> norm_num⟩

/-- Without normalisation the weight is `(N p) ^ (-beta)` and positive. -/
theorem importance_weights_unnormalised {w : PWE} (hn : w.norm = .off) {memLen : Nat}
    (hl : 0 < memLen) {probs : List ℝ} (hpos : ∀ p ∈ probs, 0 < p) (memMin : ℝ) :
    ∃ w', w.weightsFromProbabilities memLen probs memMin
        = .ok (probs.map (fun p => 1 / ((memLen : ℝ) * p) ^ w.beta), w') ∧
      ∀ x ∈ probs.map (fun p => 1 / ((memLen : ℝ) * p) ^ w.beta), 0 < x := by
  have hl' : (0 : ℝ) < memLen := by exact_mod_cast hl
  refine ⟨{ w with beta := min 1 (w.beta + w.betaAdd) }, ?_, ?_⟩
  · unfold PWE.weightsFromProbabilities
    simp only [hn]
    congr 2
    apply List.map_congr_left
    intro p hp
    have := hpos p hp
    rw [Real.rpow_neg (by positivity), one_div]
  · intro x hx
    obtain ⟨p, hp, rfl⟩ := List.mem_map.1 hx
    have := hpos p hp
    positivity

theorem beta_step {w w' : PWE} {n : Nat} {ps ws : List ℝ} {mp : ℝ}
    (h : w.weightsFromProbabilities n ps mp = .ok (ws, w')) :
    w'.beta = min 1 (w.beta + w.betaAdd) ∧ w'.betaAdd = w.betaAdd := by
  unfold PWE.weightsFromProbabilities at h
  cases hn : w.norm <;> simp only [hn] at h
  · cases h; exact ⟨rfl, rfl⟩
  · cases hm : npMin ps with
    | error e => rw [hm] at h; cases h
    | ok m => rw [hm] at h; cases h; exact ⟨rfl, rfl⟩
  · cases h; exact ⟨rfl, rfl⟩

theorem beta_run {w0 : PWE} (hadd : 0 ≤ w0.betaAdd) (hle : w0.beta ≤ 1) :
    ∀ (batches : List (Nat × List ℝ × ℝ)) {wss w'}, w0.run batches = .ok (wss, w') →
    w'.beta = min 1 (w0.beta + batches.length * w0.betaAdd) ∧ w'.betaAdd = w0.betaAdd := by
  intro batches
  induction batches generalizing w0 with
  | nil =>
    intro wss w' h
    cases h
    simp [hle]
  | cons bt rest ih =>
    intro wss w' h
    obtain ⟨n, ps, mp⟩ := bt
    unfold PWE.run at h
    cases h1 : w0.weightsFromProbabilities n ps mp with
    | error e => rw [h1] at h; cases h
    | ok r =>
      obtain ⟨ws, w1⟩ := r
      rw [h1] at h
      simp only at h
      obtain ⟨b1, b2⟩ := beta_step h1
      cases h2 : w1.run rest with
      | error e => rw [h2] at h; cases h
      | ok r2 =>
        obtain ⟨wss', w2⟩ := r2
        rw [h2] at h
        cases h
        obtain ⟨c1, c2⟩ := ih (w0 := w1) (by rw [b2]; exact hadd)
          (by rw [b1]; exact min_le_left _ _) h2
        refine ⟨?_, c2.trans b2⟩
        rw [c1, b1, b2]
        push_cast [List.length_cons]
        have hk : (0 : ℝ) ≤ rest.length * w0.betaAdd := by positivity
        rcases le_total 1 (w0.beta + w0.betaAdd) with h | h
        · rw [min_eq_left h, min_eq_left (by linarith), min_eq_left (by nlinarith)]
        · rw [min_eq_right h]; ring_nf

/-- **C10 (annealing).** For a successfully constructed object with `betasteps > 0`, after any `k`
batches beta equals `min(1, beta0 + k * (1 - beta0) / betasteps)`; it therefore never decreases and
never exceeds 1. -/
theorem beta_anneals {alpha beta0 steps eps : ℝ} {norm : Norm} {emin emax : Option ℝ} {w : PWE}
    (hsteps : 0 < steps) (hnew : PWE.new alpha beta0 (some steps) eps norm emin emax = .ok w)
    {batches : List (Nat × List ℝ × ℝ)} {wss : List (List ℝ)} {w' : PWE}
    (hrun : w.run batches = .ok (wss, w')) :
    w'.beta = min 1 (beta0 + batches.length * ((1 - beta0) / steps)) ∧ w'.beta ≤ 1 ∧
      beta0 ≤ w'.beta ∧
      ∀ b ws w'', w'.run [b] = .ok (ws, w'') → w'.beta ≤ w''.beta := by
  unfold PWE.new at hnew
  by_cases ha : 0 ≤ alpha
  · by_cases hb : 0 ≤ beta0 ∧ beta0 ≤ 1
    · simp only [ha, hb, not_true_eq_false, if_false, hsteps.ne', and_self] at hnew
      cases hnew
      have hadd : 0 ≤ (1 - beta0) / steps := div_nonneg (by linarith [hb.2]) hsteps.le
      obtain ⟨h1, h2⟩ := beta_run (w0 := ⟨alpha, beta0, (1 - beta0) / steps, eps, norm, emin, emax⟩)
        hadd hb.2 batches hrun
      simp only at h1 h2
      have hle : w'.beta ≤ 1 := by rw [h1]; exact min_le_left _ _
      have hk : (0 : ℝ) ≤ batches.length * ((1 - beta0) / steps) := by positivity
      refine ⟨h1, hle, ?_, ?_⟩
      · rw [h1]; exact le_min hb.2 (by linarith)
      · intro b ws w'' h3
        have := (beta_run (w0 := w') (by rw [h2]; exact hadd) hle [b] h3).1
        rw [this, h2]
        simp only [List.length_singleton, Nat.cast_one, one_mul]
        exact le_min hle (by linarith)
    · simp only [ha, hb, not_true_eq_false, not_false_eq_true, if_false, if_true] at hnew
      cases hnew
  · simp only [ha, not_false_eq_true, if_true] at hnew
    cases hnew

/-- With `betasteps = None` beta stays at `beta0`. -/
theorem beta_constant {alpha beta0 eps : ℝ} {norm : Norm} {emin emax : Option ℝ} {w : PWE}
    (hnew : PWE.new alpha beta0 none eps norm emin emax = .ok w)
    {batches : List (Nat × List ℝ × ℝ)} {wss : List (List ℝ)} {w' : PWE}
    (hrun : w.run batches = .ok (wss, w')) : w'.beta = beta0 := by
  unfold PWE.new at hnew
  by_cases ha : 0 ≤ alpha
  · by_cases hb : 0 ≤ beta0 ∧ beta0 ≤ 1
    · simp only [ha, hb, not_true_eq_false, if_false, and_self] at hnew
      cases hnew
      obtain ⟨h1, _⟩ := beta_run (w0 := ⟨alpha, beta0, 0, eps, norm, emin, emax⟩) le_rfl hb.2
        batches hrun
      simp only [mul_zero, add_zero] at h1
      rw [h1, min_eq_right hb.2]
    · simp only [ha, hb, not_true_eq_false, not_false_eq_true, if_false, if_true] at hnew
      cases hnew
  · simp only [ha, not_false_eq_true, if_true] at hnew
    cases hnew

/-- A construction and two batches that succeed. -/
example : ∃ w wss w', PWE.new 0.6 0.4 (some 10) 0.01 .batch (some 0) (some 1) = .ok w ∧
    w.run [(3, [0.5, 0.25], 0.1), (3, [1], 0.1)] = .ok (wss, w') := by
  refine ⟨⟨0.6, 0.4, (1 - 0.4) / 10, 0.01, .batch, some 0, some 1⟩, _, _, ?_, rfl⟩
  unfold PWE.new
  norm_num

/-- **C10 (priorities).** If `eps > 0` and clipping keeps errors non-negative (a lower bound `≥ 0`,
and an upper bound `≥ 0` if any), every error gets a positive priority, and larger errors never get
smaller priorities. -/
theorem priority_positive {w : PWE} (heps : 0 < w.eps) (ha : 0 ≤ w.alpha)
    (hmin : ∃ m, w.errorMin = some m ∧ 0 ≤ m) (hmax : ∀ m, w.errorMax = some m → 0 ≤ m)
    (errors : List ℝ) :
    (∀ p ∈ w.priorityFromErrors errors, 0 < p) ∧
    (w.priorityFromErrors errors).length = errors.length ∧
    ∀ (i j : Nat) d e p q, errors[i]? = some d → errors[j]? = some e →
      (w.priorityFromErrors errors)[i]? = some p → (w.priorityFromErrors errors)[j]? = some q →
      d ≤ e → p ≤ q := by
  obtain ⟨mn, hmn, hmn0⟩ := hmin
  have hclip : ∀ d, 0 ≤ w.clip d := by
    intro d
    unfold PWE.clip
    rw [hmn]
    cases hm : w.errorMax with
    | none => exact hmn0.trans (le_max_left _ _)
    | some m => exact le_min (hmax m hm) (hmn0.trans (le_max_left _ _))
  have hmono : ∀ d e, d ≤ e → w.clip d ≤ w.clip e := by
    intro d e hde
    unfold PWE.clip
    rw [hmn]
    cases hm : w.errorMax with
    | none => exact max_le_max le_rfl hde
    | some m => exact min_le_min le_rfl (max_le_max le_rfl hde)
  refine ⟨?_, by simp [PWE.priorityFromErrors], ?_⟩
  · intro p hp
    obtain ⟨d, _, rfl⟩ := List.mem_map.1 hp
    exact Real.rpow_pos_of_pos (by linarith [hclip d]) _
  · intro i j d e p q hi hj hp hq hde
    simp only [PWE.priorityFromErrors, List.getElem?_map, hi, hj, Option.map_some,
      Option.some.injEq] at hp hq
    subst hp hq
    exact Real.rpow_le_rpow (by linarith [hclip d]) (by linarith [hmono d e hde]) ha

example : ∃ w : PWE, 0 < w.eps ∧ 0 ≤ w.alpha ∧ (∃ m, w.errorMin = some m ∧ 0 ≤ m) ∧
    ∀ m, w.errorMax = some m → 0 ≤ m :=
  ⟨⟨0.6, 0.4, 0.1, 0.01, .batch, some 0, some 1⟩, by norm_num, by norm_num, ⟨0, rfl, le_rfl⟩, by
    intro m hm; cases hm; norm_num⟩

end Pfrl.Weights
