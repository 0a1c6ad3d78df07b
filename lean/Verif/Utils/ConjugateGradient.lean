import Mathlib.Analysis.InnerProductSpace.Basic
import Mathlib.Analysis.InnerProductSpace.PiL2
import Mathlib.LinearAlgebra.FiniteDimensional.Lemmas
import Mathlib.Tactic.Ring
import Mathlib.Tactic.Linarith
import Mathlib.Tactic.FieldSimp

/-!
# Conjugate gradient (C55)

Vectors of any finite-dimensional real inner product space (in the code: arrays); numbers are exact.  A division by zero
gives NaN in the code, and everything computed afterwards is NaN: the result is then `none`.
-/

namespace Pfrl.CG

open scoped InnerProductSpace

variable {E : Type _} [NormedAddCommGroup E] [InnerProductSpace ℝ E]

/-! ## Model -/

/-- The loop of `conjugate_gradient`, `pfrl/utils/conjugate_gradient.py:23-32`, with `n` iterations to go. -/
noncomputable def loop (A : E → E) (tol : ℝ) : Nat → E → E → E → Option E
  | 0, x, _, _ => some x
  | n + 1, x, r0, p =>
    if ⟪A p, p⟫_ℝ = 0 then none
    else
      let a := ⟪r0, r0⟫_ℝ / ⟪A p, p⟫_ℝ
      let x := x + a • p
      let r1 := r0 - a • A p
      if ‖r1‖ < tol then some x
      else if ⟪r0, r0⟫_ℝ = 0 then none
      else
        let b := ⟪r1, r1⟫_ℝ / ⟪r0, r0⟫_ℝ
        loop A tol n x r1 (r1 + b • p)

/-- `conjugate_gradient`, `conjugate_gradient.py:4-33`. -/
noncomputable def conjugateGradient (A : E → E) (b : E) (tol : ℝ) (maxIter : Nat) : Option E :=
  let x : E := 0
  let r0 := b - A x
  loop A tol maxIter x r0 r0

/-! ## Specification -/

/-- A symmetric positive definite operator. -/
structure Spec.SPD (A : E →ₗ[ℝ] E) : Prop where
  symm : ∀ x y, ⟪A x, y⟫_ℝ = ⟪x, A y⟫_ℝ
  pos : ∀ x, x ≠ 0 → 0 < ⟪A x, x⟫_ℝ

/-! ## Lemmas -/

/-- What holds at the head of the loop: `ps` are the directions used so far. -/
structure Inv (A : E →ₗ[ℝ] E) (b : E) (ps : List E) (x r p : E) : Prop where
  residual : r = b - A x
  orth : ∀ q ∈ ps, ⟪r, q⟫_ℝ = 0
  conj : ∀ q ∈ ps, ⟪A p, q⟫_ℝ = 0
  rp : ⟪r, p⟫_ℝ = ⟪r, r⟫_ℝ
  mem : r ∈ Submodule.span ℝ {y | y ∈ p :: ps}
  closed : ∀ q ∈ ps, A q ∈ Submodule.span ℝ {y | y ∈ p :: ps}
  dim : ps.length ≤ Module.finrank ℝ (Submodule.span ℝ {y | y ∈ ps})

theorem orth_span {S : Set E} {r : E} (h : ∀ q ∈ S, ⟪r, q⟫_ℝ = 0) : ∀ q ∈ Submodule.span ℝ S, ⟪r, q⟫_ℝ = 0 := by
  intro q hq
  induction hq using Submodule.span_induction with
  | mem x hx => exact h x hx
  | zero => exact inner_zero_right _
  | add x y _ _ hx hy => rw [inner_add_right, hx, hy, add_zero]
  | smul a x _ hx => rw [inner_smul_right, hx, mul_zero]

theorem inv_init (A : E →ₗ[ℝ] E) (b : E) : Inv A b [] 0 (b - A 0) (b - A 0) := by
  refine ⟨rfl, by simp, by simp, rfl, ?_, by simp, by simp⟩
  exact Submodule.subset_span (List.mem_cons_self ..)

theorem inv_p_ne {A : E →ₗ[ℝ] E} {b : E} {ps : List E} {x r p : E} (h : Inv A b ps x r p) (hr : r ≠ 0) : p ≠ 0 := by
  intro hp
  have := h.rp
  rw [hp, inner_zero_right] at this
  exact hr (inner_self_eq_zero.mp this.symm)

theorem inv_dim [FiniteDimensional ℝ E] {A : E →ₗ[ℝ] E} (hA : Spec.SPD A) {b : E} {ps : List E} {x r p : E}
    (h : Inv A b ps x r p) (hr : r ≠ 0) :
    (p :: ps).length ≤ Module.finrank ℝ (Submodule.span ℝ {y | y ∈ p :: ps}) := by
  have hp := inv_p_ne h hr
  have hlt : Submodule.span ℝ {y | y ∈ ps} < Submodule.span ℝ {y | y ∈ p :: ps} := by
    refine lt_of_le_of_ne (Submodule.span_mono fun y hy => List.mem_cons_of_mem _ hy) ?_
    intro heq
    have hmem : p ∈ Submodule.span ℝ {y | y ∈ ps} := by
      rw [heq]
      exact Submodule.subset_span (List.mem_cons_self ..)
    have := orth_span (r := A p) (S := {y | y ∈ ps}) (fun q hq => h.conj q hq) p hmem
    exact (hA.pos p hp).ne' this
  have := Submodule.finrank_lt_finrank_of_lt hlt
  simp only [List.length_cons]
  have := h.dim
  omega

theorem inv_step [FiniteDimensional ℝ E] {A : E →ₗ[ℝ] E} (hA : Spec.SPD A) {b : E} {ps : List E} {x r p : E}
    (h : Inv A b ps x r p) (hr : r ≠ 0) :
    Inv A b (p :: ps) (x + (⟪r, r⟫_ℝ / ⟪A p, p⟫_ℝ) • p) (r - (⟪r, r⟫_ℝ / ⟪A p, p⟫_ℝ) • A p)
      ((r - (⟪r, r⟫_ℝ / ⟪A p, p⟫_ℝ) • A p) +
        (⟪r - (⟪r, r⟫_ℝ / ⟪A p, p⟫_ℝ) • A p, r - (⟪r, r⟫_ℝ / ⟪A p, p⟫_ℝ) • A p⟫_ℝ / ⟪r, r⟫_ℝ) • p) := by
  have hp := inv_p_ne h hr
  have hAp : ⟪A p, p⟫_ℝ ≠ 0 := (hA.pos p hp).ne'
  have hrr : ⟪r, r⟫_ℝ ≠ 0 := fun h0 => hr (inner_self_eq_zero.mp h0)
  generalize ha : ⟪r, r⟫_ℝ / ⟪A p, p⟫_ℝ = a
  have ha0 : a ≠ 0 := by rw [← ha]; exact div_ne_zero hrr hAp
  have haA : a * ⟪A p, p⟫_ℝ = ⟪r, r⟫_ℝ := by rw [← ha]; field_simp
  generalize hr1 : r - a • A p = r1
  generalize hβ : ⟪r1, r1⟫_ℝ / ⟪r, r⟫_ℝ = β
  have hβr : β * ⟪r, r⟫_ℝ = ⟪r1, r1⟫_ℝ := by rw [← hβ]; field_simp
  have horth : ∀ q ∈ p :: ps, ⟪r1, q⟫_ℝ = 0 := by
    intro q hq
    rw [← hr1, inner_sub_left, real_inner_smul_left]
    rcases List.mem_cons.mp hq with hq | hq
    · subst hq
      rw [h.rp, haA, sub_self]
    · rw [h.orth q hq, h.conj q hq, mul_zero, sub_zero]
  have horthS := orth_span (r := r1) (S := {y | y ∈ p :: ps}) (fun q hq => horth q hq)
  have hmono : Submodule.span ℝ {y | y ∈ p :: ps} ≤ Submodule.span ℝ {y | y ∈ (r1 + β • p) :: p :: ps} :=
    Submodule.span_mono fun y hy => List.mem_cons_of_mem _ hy
  have hpmem : p ∈ Submodule.span ℝ {y | y ∈ (r1 + β • p) :: p :: ps} :=
    hmono (Submodule.subset_span (List.mem_cons_self ..))
  have hr1mem : r1 ∈ Submodule.span ℝ {y | y ∈ (r1 + β • p) :: p :: ps} := by
    have h1 : r1 + β • p ∈ Submodule.span ℝ {y | y ∈ (r1 + β • p) :: p :: ps} :=
      Submodule.subset_span (List.mem_cons_self ..)
    have := Submodule.sub_mem _ h1 (Submodule.smul_mem _ β hpmem)
    rwa [add_sub_cancel_right] at this
  have hApeq : A p = a⁻¹ • (r - r1) := by
    rw [← hr1, sub_sub_cancel, smul_smul, inv_mul_cancel₀ ha0, one_smul]
  refine ⟨?_, horth, ?_, ?_, hr1mem, ?_, inv_dim hA h hr⟩
  · rw [← hr1, h.residual, map_add, map_smul]
    abel
  · intro q hq
    rw [map_add, map_smul, inner_add_left, real_inner_smul_left, hA.symm r1 q]
    rcases List.mem_cons.mp hq with hq | hq
    · subst hq
      have h1 : ⟪r1, A q⟫_ℝ = a⁻¹ * (0 - ⟪r1, r1⟫_ℝ) := by
        rw [hApeq, real_inner_smul_right, inner_sub_right, horthS r h.mem]
      rw [h1, ← hβr, ← haA]
      field_simp
      ring
    · rw [horthS _ (h.closed q hq), h.conj q hq, mul_zero, add_zero]
  · rw [inner_add_right, real_inner_smul_right, horth p (List.mem_cons_self ..), mul_zero, add_zero]
  · intro q hq
    rcases List.mem_cons.mp hq with hq | hq
    · subst hq
      rw [hApeq]
      exact Submodule.smul_mem _ _ (Submodule.sub_mem _ (hmono h.mem) hr1mem)
    · exact hmono (h.closed q hq)

/-- The invariant holds with as many directions as dimensions only if the residual is zero. -/
theorem inv_full [FiniteDimensional ℝ E] {A : E →ₗ[ℝ] E} {b : E} {ps : List E} {x r p : E}
    (h : Inv A b ps x r p) (hfull : Module.finrank ℝ E ≤ ps.length) : r = 0 := by
  have htop : Submodule.span ℝ {y | y ∈ ps} = ⊤ := by
    apply Submodule.eq_top_of_finrank_eq
    have h1 := Submodule.finrank_le (Submodule.span ℝ {y | y ∈ ps})
    have h2 := h.dim
    omega
  have := orth_span (r := r) (S := {y | y ∈ ps}) (fun q hq => h.orth q hq) r (by rw [htop]; trivial)
  exact inner_self_eq_zero.mp this

theorem loop_spec [FiniteDimensional ℝ E] {A : E →ₗ[ℝ] E} (hA : Spec.SPD A) (b : E) (tol : ℝ) :
    ∀ (n : Nat) (ps : List E) (x r p : E), Inv A b ps x r p → r ≠ 0 →
    (0 < tol → ∃ y, loop A tol n x r p = some y) ∧
    ∀ y, loop A tol n x r p = some y →
      (Module.finrank ℝ E ≤ ps.length + n → ‖b - A y‖ < tol ∨ A y = b) ∧
      (⟪A y, y⟫_ℝ - 2 * ⟪b, y⟫_ℝ ≤ ⟪A x, x⟫_ℝ - 2 * ⟪b, x⟫_ℝ) ∧
      (0 < n → ⟪A y, y⟫_ℝ - 2 * ⟪b, y⟫_ℝ < ⟪A x, x⟫_ℝ - 2 * ⟪b, x⟫_ℝ)
  | 0, ps, x, r, p, h, hr => by
    refine ⟨fun _ => ⟨x, rfl⟩, ?_⟩
    intro y hy
    cases hy
    exact ⟨fun hd => absurd (inv_full h (by omega)) hr, le_rfl, fun hn => absurd hn (by omega)⟩
  | n + 1, ps, x, r, p, h, hr => by
    have hp := inv_p_ne h hr
    have hApos := hA.pos p hp
    have hAp : ⟪A p, p⟫_ℝ ≠ 0 := hApos.ne'
    have hrr : ⟪r, r⟫_ℝ ≠ 0 := fun h0 => hr (inner_self_eq_zero.mp h0)
    have hrpos : 0 < ⟪r, r⟫_ℝ := lt_of_le_of_ne real_inner_self_nonneg (Ne.symm hrr)
    have hinv := inv_step hA h hr
    -- the energy decreases
    have henergy : ⟪A (x + (⟪r, r⟫_ℝ / ⟪A p, p⟫_ℝ) • p), x + (⟪r, r⟫_ℝ / ⟪A p, p⟫_ℝ) • p⟫_ℝ -
        2 * ⟪b, x + (⟪r, r⟫_ℝ / ⟪A p, p⟫_ℝ) • p⟫_ℝ < ⟪A x, x⟫_ℝ - 2 * ⟪b, x⟫_ℝ := by
      generalize ha : ⟪r, r⟫_ℝ / ⟪A p, p⟫_ℝ = a
      have haA : a * ⟪A p, p⟫_ℝ = ⟪r, r⟫_ℝ := by rw [← ha]; field_simp
      have hapos : 0 < a := by rw [← ha]; exact div_pos hrpos hApos
      have h1 : ⟪b, p⟫_ℝ = ⟪r, r⟫_ℝ + ⟪A x, p⟫_ℝ := by
        have := h.rp
        rw [h.residual, inner_sub_left, ← h.residual] at this
        linarith
      have h2 : ⟪A p, x⟫_ℝ = ⟪A x, p⟫_ℝ := by rw [hA.symm, real_inner_comm]
      simp only [map_add, map_smul, inner_add_left, inner_add_right, real_inner_smul_left, real_inner_smul_right]
      rw [h1, h2]
      nlinarith
    unfold loop
    rw [if_neg hAp]
    simp only
    generalize hx1 : x + (⟪r, r⟫_ℝ / ⟪A p, p⟫_ℝ) • p = x1 at hinv henergy ⊢
    generalize hr1 : r - (⟪r, r⟫_ℝ / ⟪A p, p⟫_ℝ) • A p = r1 at hinv ⊢
    by_cases htol : ‖r1‖ < tol
    · rw [if_pos htol]
      refine ⟨fun _ => ⟨_, rfl⟩, ?_⟩
      intro y hy
      cases hy
      refine ⟨fun _ => .inl ?_, henergy.le, fun _ => henergy⟩
      rw [← hinv.residual]
      exact htol
    · rw [if_neg htol, if_neg hrr]
      by_cases h0 : r1 = 0
      · -- the residual is exactly zero, but the tolerance is not positive
        have htol0 : ¬ 0 < tol := by
          intro hpos
          apply htol
          rw [h0, norm_zero]
          exact hpos
        refine ⟨fun hpos => absurd hpos htol0, ?_⟩
        intro y hy
        rw [h0] at hy
        simp only [inner_zero_left, zero_div, zero_smul, add_zero] at hy
        cases n with
        | zero =>
          cases hy
          refine ⟨fun _ => .inr ?_, henergy.le, fun _ => henergy⟩
          have := hinv.residual
          rw [h0] at this
          exact (sub_eq_zero.mp this.symm).symm
        | succ n =>
          unfold loop at hy
          rw [if_pos (by rw [inner_zero_right])] at hy
          cases hy
      · obtain ⟨h1, h2⟩ := loop_spec hA b tol n _ _ _ _ hinv h0
        refine ⟨h1, ?_⟩
        intro y hy
        obtain ⟨h3, h4, _⟩ := h2 y hy
        refine ⟨fun hd => h3 (by simp only [List.length_cons]; omega), h4.trans henergy.le, fun _ => lt_of_le_of_lt h4 henergy⟩

/-! ## C55 -/

/-- **C55 (partial).** For a symmetric positive definite operator, a non-zero right-hand side and a positive
tolerance, the function returns a vector (no division by zero occurs) and, if it may make at least as many iterations
as there are dimensions, the residual of this vector is below the tolerance or it is the exact solution.

What is missing: the right-hand side zero; see `conjugate_gradient_zero`. -/
theorem conjugate_gradient_partial [FiniteDimensional ℝ E] {A : E →ₗ[ℝ] E} (hA : Spec.SPD A) {b : E} (hb : b ≠ 0)
    {tol : ℝ} (htol : 0 < tol) (maxIter : Nat) :
    ∃ x, conjugateGradient A b tol maxIter = some x ∧
      (Module.finrank ℝ E ≤ maxIter → ‖b - A x‖ < tol ∨ A x = b) := by
  have hr : b - A 0 ≠ 0 := by rw [map_zero, sub_zero]; exact hb
  obtain ⟨h1, h2⟩ := loop_spec hA b tol maxIter [] 0 _ _ (inv_init A b) hr
  obtain ⟨y, hy⟩ := h1 htol
  exact ⟨y, hy, fun hd => (h2 y hy).1 (by simpa using hd)⟩

/-- **C55 (exactness).** Without early stopping (tolerance zero), whatever the function returns after as many
iterations as there are dimensions is the exact solution. -/
theorem conjugate_gradient_exact [FiniteDimensional ℝ E] {A : E →ₗ[ℝ] E} (hA : Spec.SPD A) {b : E} (hb : b ≠ 0)
    {maxIter : Nat} (hd : Module.finrank ℝ E ≤ maxIter) {x : E} (h : conjugateGradient A b 0 maxIter = some x) :
    A x = b := by
  have hr : b - A 0 ≠ 0 := by rw [map_zero, sub_zero]; exact hb
  obtain ⟨_, h2⟩ := loop_spec hA b 0 maxIter [] 0 _ _ (inv_init A b) hr
  rcases (h2 x h).1 (by simpa using hd) with h3 | h3
  · exact absurd h3 (not_lt.mpr (norm_nonneg _))
  · exact h3

/-- **C55 (ascent direction).** However few iterations (but at least one) are made, the vector returned has a positive inner
product with the right-hand side: in TRPO, where the right-hand side is the gradient, it is a direction of ascent. -/
theorem conjugate_gradient_ascent [FiniteDimensional ℝ E] {A : E →ₗ[ℝ] E} (hA : Spec.SPD A) {b : E} (hb : b ≠ 0)
    {tol : ℝ} {maxIter : Nat} (hn : 0 < maxIter) {x : E} (h : conjugateGradient A b tol maxIter = some x) :
    0 < ⟪b, x⟫_ℝ := by
  have hr : b - A 0 ≠ 0 := by rw [map_zero, sub_zero]; exact hb
  obtain ⟨_, h2⟩ := loop_spec hA b tol maxIter [] 0 _ _ (inv_init A b) hr
  have h3 := (h2 x h).2.2 hn
  simp only [map_zero, inner_zero_right, mul_zero, sub_zero] at h3
  have hnonneg : 0 ≤ ⟪A x, x⟫_ℝ := by
    by_cases hx : x = 0
    · rw [hx, inner_zero_right]
    · exact (hA.pos x hx).le
  linarith

/-- **C55 fails for the right-hand side zero.** With any positive number of iterations the function then divides zero by
zero, although the solution is zero. -/
theorem conjugate_gradient_zero (A : E →ₗ[ℝ] E) (tol : ℝ) (n : Nat) :
    conjugateGradient A (0 : E) tol (n + 1) = none := by
  unfold conjugateGradient loop
  simp

/-- Multiplication by two is a symmetric positive definite operator. -/
example : Spec.SPD ((2 : ℝ) • (LinearMap.id : EuclideanSpace ℝ (Fin 3) →ₗ[ℝ] EuclideanSpace ℝ (Fin 3))) := by
  constructor
  · intro x y
    simp only [LinearMap.smul_apply, LinearMap.id_apply, real_inner_smul_left, real_inner_smul_right]
  · intro x hx
    simp only [LinearMap.smul_apply, LinearMap.id_apply, real_inner_smul_left]
    have : 0 < ⟪x, x⟫_ℝ := lt_of_le_of_ne real_inner_self_nonneg
      (fun h => hx (inner_self_eq_zero.mp h.symm))
    linarith

end Pfrl.CG
