import Verif.Categorical.Model
import Mathlib.Algebra.BigOperators.Fin
import Mathlib.Algebra.BigOperators.Intervals
import Mathlib.Algebra.Order.BigOperators.Ring.Finset
import Mathlib.Tactic.Ring
import Mathlib.Tactic.Linarith
import Mathlib.Tactic.FieldSimp
import Mathlib.Data.Rat.Floor

/-!
# Categorical projection (C23)
-/

namespace Pfrl.Categorical

set_option linter.unusedSectionVars false

variable {K : Type _} [Field K] [LinearOrder K] [IsStrictOrderedRing K] [FloorRing K]

/-! ## Specification -/

/-- `z` is the evenly spaced grid `vMin, vMin + δ, …` with `n` atoms. -/
def Spec.Grid (z : List K) (n : Nat) (vMin δ : K) : Prop :=
  z = (List.range n).map fun j : Nat => vMin + (j : K) * δ

/-- The share of a unit mass at `x` that belongs to grid point `c`: 1 at `c`, falling linearly to 0
at distance `δ`. -/
def Spec.share (δ x c : K) : K := max 0 (1 - |x - c| / δ)

/-- One row of the projected distribution: grid point `j` receives from every source atom (clipped to
the range of the grid) its share. -/
def Spec.projected (n : Nat) (vMin δ : K) (yrow prow : List K) : List K :=
  (List.range n).map fun j : Nat => ((yrow.zip prow).map fun x =>
    x.2 * Spec.share δ (min (max x.1 vMin) (vMin + ((n : K) - 1) * δ)) (vMin + (j : K) * δ)).sum

/-- Mass of a row of probabilities. -/
def Spec.mass (p : List K) : K := p.sum

/-- Mean of the distribution with atoms `z` and probabilities `p`. -/
def Spec.mean (z p : List K) : K := (List.zipWith (· * ·) z p).sum

/-! ## Lemmas -/

/-- Total amount added at index `t`. -/
def addedAt (t : Nat) (ps : List (Int × K)) : K :=
  (ps.map fun x => if x.1 = (t : Int) then x.2 else 0).sum

omit [IsStrictOrderedRing K] [LinearOrder K] [FloorRing K] in
theorem scatterAdd_spec (ps : List (Int × K)) : ∀ (acc : List K),
    (∀ x ∈ ps, 0 ≤ x.1 ∧ x.1 < acc.length) →
    ∃ out, scatterAdd acc ps = .ok out ∧ out.length = acc.length ∧
      ∀ t (h : t < acc.length) (h' : t < out.length), out[t] = acc[t] + addedAt t ps := by
  induction ps with
  | nil => intro acc _; exact ⟨acc, rfl, rfl, by simp [addedAt]⟩
  | cons x ps ih =>
    intro acc h
    obtain ⟨i, v⟩ := x
    obtain ⟨h0, h1⟩ := h (i, v) (by simp)
    simp only at h0 h1
    have hi : i.toNat < acc.length := by omega
    obtain ⟨out, o1, o2, o3⟩ := ih (acc.set i.toNat (acc[i.toNat] + v))
      (fun x hx => by rw [List.length_set]; exact h x (by simp [hx]))
    refine ⟨out, ?_, by rw [o2, List.length_set], ?_⟩
    · simp only [scatterAdd, List.getElem?_eq_getElem hi, if_pos h0, o1]
    · intro t ht ht'
      rw [o3 t (by rw [List.length_set]; exact ht) ht', List.getElem_set]
      simp only [addedAt, List.map_cons, List.sum_cons]
      by_cases hit : i.toNat = t
      · have h2 : i = (t : Int) := by omega
        subst h2
        rw [if_pos hit, if_pos rfl]
        simp only [Int.toNat_natCast]
        ring
      · rw [if_neg hit, if_neg (by omega)]
        ring

omit [IsStrictOrderedRing K] [LinearOrder K] [FloorRing K] in
theorem addedAt_append (t : Nat) (a b : List (Int × K)) :
    addedAt t (a ++ b) = addedAt t a + addedAt t b := by simp [addedAt]

/-- The pairs of one row hit only that row. -/
theorem flatPairs_range (g : K → K → Int × K) (n : Nat)
    (hg : ∀ y p, 0 ≤ (g y p).1 ∧ (g y p).1 < n) : ∀ (ys ps : List (List K)) (i : Nat),
    ∀ x ∈ flatPairs g n i ys ps, ((i * n : Nat) : Int) ≤ x.1 ∧ x.1 < (((i + ys.length) * n : Nat) : Int) := by
  intro ys
  induction ys with
  | nil => intro ps i x hx; simp [flatPairs] at hx
  | cons yr ys ih =>
    intro ps i x hx
    cases ps with
    | nil => simp [flatPairs] at hx
    | cons pr ps =>
      simp only [flatPairs, List.mem_append, List.mem_map] at hx
      have e : (i + (yr :: ys).length) * n = i * n + n + ys.length * n := by
        rw [List.length_cons]; ring
      rcases hx with ⟨y, hy, rfl⟩ | hx
      · have hmem : ∃ a b, y = g a b := by
          rw [List.mem_iff_getElem] at hy
          obtain ⟨k, hk, rfl⟩ := hy
          rw [List.getElem_zipWith]
          exact ⟨_, _, rfl⟩
        obtain ⟨a, b, rfl⟩ := hmem
        have := hg a b
        have h2 : 0 ≤ ((ys.length * n : Nat) : Int) := Int.natCast_nonneg _
        rw [e]
        push_cast at *
        exact ⟨by linarith, by linarith⟩
      · have := ih ps (i + 1) x hx
        have e2 : (i + 1) * n = i * n + n := by ring
        have e3 : (i + 1 + ys.length) * n = i * n + n + ys.length * n := by ring
        rw [e, ← e3]
        rw [e2] at this
        exact ⟨by push_cast at *; linarith [this.1, (Int.natCast_nonneg n)], this.2⟩

omit [IsStrictOrderedRing K] [LinearOrder K] [FloorRing K] in
theorem addedAt_eq_zero {t : Nat} {ps : List (Int × K)} (h : ∀ x ∈ ps, x.1 ≠ (t : Int)) :
    addedAt t ps = 0 := by
  unfold addedAt
  apply List.sum_eq_zero
  intro v hv
  rw [List.mem_map] at hv
  obtain ⟨x, hx, rfl⟩ := hv
  rw [if_neg (h x hx)]

theorem addedAt_flatPairs (g : K → K → Int × K) (n : Nat)
    (hg : ∀ y p, 0 ≤ (g y p).1 ∧ (g y p).1 < n) : ∀ (ys ps : List (List K)) (i0 i j : Nat),
    ys.length = ps.length → j < n → (h : i < ys.length) → (h' : i < ps.length) →
    addedAt ((i0 + i) * n + j) (flatPairs g n i0 ys ps)
      = addedAt j (List.zipWith g ys[i] ps[i]) := by
  intro ys
  induction ys with
  | nil => intro ps i0 i j _ _ h; simp at h
  | cons yr ys ih =>
    intro ps i0 i j hl hj h h'
    cases ps with
    | nil => simp at h'
    | cons pr ps =>
      simp only [flatPairs, addedAt_append]
      cases i with
      | zero =>
        have hz : addedAt ((i0 + 0) * n + j) (flatPairs g n (i0 + 1) ys ps) = 0 := by
          apply addedAt_eq_zero
          intro x hx
          have := (flatPairs_range g n hg ys ps (i0 + 1) x hx).1
          have e : ((i0 + 1) * n : Nat) = i0 * n + n := by ring
          rw [e] at this
          rw [Nat.add_zero]
          push_cast at *
          omega
        rw [hz, add_zero]
        simp only [List.getElem_cons_zero, addedAt, List.map_map, Function.comp_def, Nat.add_zero]
        congr 1
        apply List.map_congr_left
        intro x _
        have : (x.1 + ((i0 * n : Nat) : Int) = ((i0 * n + j : Nat) : Int)) ↔ x.1 = (j : Int) := by
          push_cast; constructor <;> intro h <;> linarith
        simp only [this]
      | succ i =>
        have hz : addedAt ((i0 + (i + 1)) * n + j) ((List.zipWith g yr pr).map
            (fun x => (x.1 + ((i0 * n : Nat) : Int), x.2))) = 0 := by
          apply addedAt_eq_zero
          intro x hx
          rw [List.mem_map] at hx
          obtain ⟨y, hy, rfl⟩ := hx
          rw [List.mem_iff_getElem] at hy
          obtain ⟨k, hk, rfl⟩ := hy
          rw [List.getElem_zipWith]
          have := (hg (yr[k]'(by simp at hk; omega)) (pr[k]'(by simp at hk; omega))).2
          have e : ((i0 + (i + 1)) * n + j : Nat) = i0 * n + n + i * n + j := by ring
          rw [e]
          have h2 : 0 ≤ ((i * n : Nat) : Int) := Int.natCast_nonneg _
          push_cast at *
          intro hc
          linarith [Int.natCast_nonneg j]
        rw [hz, zero_add]
        have := ih ps (i0 + 1) i j (by simpa using hl) hj (by simpa using h) (by simpa using h')
        rw [show i0 + 1 + i = i0 + (i + 1) by omega] at this
        simpa using this

theorem position_range {n : Nat} (hn : 1 ≤ n) (vMin vMax d y : K) :
    0 ≤ position n vMin vMax d y ∧ position n vMin vMax d y ≤ (n : K) - 1 := by
  have : (1 : K) ≤ n := by exact_mod_cast hn
  unfold position clamp
  exact ⟨le_min (le_max_right _ _) (by linarith), min_le_right _ _⟩

theorem floor_range {n : Nat} {x : K} (h0 : 0 ≤ x) (h1 : x ≤ (n : K) - 1) :
    (0 ≤ ⌊x⌋ ∧ ⌊x⌋ < n) ∧ (0 ≤ ⌈x⌉ ∧ ⌈x⌉ < n) := by
  refine ⟨⟨Int.floor_nonneg.2 h0, ?_⟩, ⟨Int.ceil_nonneg h0, ?_⟩⟩
  · rw [Int.floor_lt]; push_cast; linarith
  · have : ⌈x⌉ ≤ (n : Int) - 1 := Int.ceil_le.2 (by push_cast; exact h1)
    omega

/-- The two shares added for one source atom at integer grid index `j`. -/
theorem shares_eq_hat (x : K) (j : Int) :
    (if ⌊x⌋ = j then 1 - (x - (⌊x⌋ : Int)) else 0) + (if ⌈x⌉ = j then x - (⌊x⌋ : Int) else 0)
      = max 0 (1 - |x - (j : K)|) := by
  have hf := Int.floor_le x
  have hf' := Int.lt_floor_add_one x
  by_cases hint : x = (⌊x⌋ : Int)
  · have hc : ⌈x⌉ = ⌊x⌋ := by rw [hint]; simp
    rw [hc]
    by_cases hj : ⌊x⌋ = j
    · subst hj
      rw [if_pos rfl, if_pos rfl]
      have : x - ((⌊x⌋ : Int) : K) = 0 := by linarith [hint]
      rw [this]; simp
    · rw [if_neg hj, if_neg hj, add_zero]
      have : 1 ≤ |⌊x⌋ - j| := Int.one_le_abs (by omega)
      have h2 : (1 : K) ≤ |((⌊x⌋ : Int) : K) - (j : K)| := by exact_mod_cast this
      rw [← hint] at h2
      rw [max_eq_left]
      linarith
  · have hlt : ((⌊x⌋ : Int) : K) < x := lt_of_le_of_ne hf (fun h => hint h.symm)
    have hc : ⌈x⌉ = ⌊x⌋ + 1 := by
      rw [Int.ceil_eq_iff]; push_cast; exact ⟨by linarith, by linarith⟩
    rw [hc]
    by_cases hj : ⌊x⌋ = j
    · subst hj
      rw [if_pos rfl, if_neg (by omega), abs_of_pos (by linarith), max_eq_right (by linarith)]
      ring
    · rw [if_neg hj]
      by_cases hj' : ⌊x⌋ + 1 = j
      · rw [if_pos hj', ← hj', abs_of_neg (by push_cast; linarith), max_eq_right (by push_cast; linarith)]
        push_cast; ring
      · rw [if_neg hj', add_zero, max_eq_left]
        rcases lt_or_ge j ⌊x⌋ with h | h
        · have : ((j : Int) : K) + 1 ≤ (⌊x⌋ : Int) := by exact_mod_cast h
          rw [abs_of_pos (by linarith)]; linarith
        · have : ((⌊x⌋ : Int) : K) + 2 ≤ (j : Int) := by exact_mod_cast (by omega : ⌊x⌋ + 2 ≤ j)
          rw [abs_of_neg (by linarith)]; linarith

theorem position_eq {n : Nat} (hn : 2 ≤ n) {vMin δ : K} (hδ : 0 < δ) (y : K) :
    position n vMin (vMin + ((n : K) - 1) * δ) δ y
      = (min (max y vMin) (vMin + ((n : K) - 1) * δ) - vMin) / δ := by
  have hn' : (2 : K) ≤ n := by exact_mod_cast hn
  unfold position clamp
  have h0 : vMin ≤ min (max y vMin) (vMin + ((n : K) - 1) * δ) :=
    le_min (le_max_right _ _) (by nlinarith)
  have h1 : min (max y vMin) (vMin + ((n : K) - 1) * δ) ≤ vMin + ((n : K) - 1) * δ :=
    min_le_right _ _
  have h2 : 0 ≤ (min (max y vMin) (vMin + ((n : K) - 1) * δ) - vMin) / δ :=
    div_nonneg (by linarith) hδ.le
  have h3 : (min (max y vMin) (vMin + ((n : K) - 1) * δ) - vMin) / δ ≤ (n : K) - 1 := by
    rw [div_le_iff₀ hδ]; linarith
  rw [max_eq_left h2, min_eq_left h3]

/-- What one source atom contributes at grid index `j`. -/
theorem contribution {n : Nat} (hn : 2 ≤ n) {vMin δ : K} (hδ : 0 < δ) (y p : K) (j : Nat) :
    (if (lower n vMin (vMin + ((n : K) - 1) * δ) δ y p).1 = (j : Int)
        then (lower n vMin (vMin + ((n : K) - 1) * δ) δ y p).2 else 0)
      + (if (upper n vMin (vMin + ((n : K) - 1) * δ) δ y p).1 = (j : Int)
        then (upper n vMin (vMin + ((n : K) - 1) * δ) δ y p).2 else 0)
      = p * Spec.share δ (min (max y vMin) (vMin + ((n : K) - 1) * δ)) (vMin + (j : K) * δ) := by
  have hs := shares_eq_hat (position n vMin (vMin + ((n : K) - 1) * δ) δ y) (j : Int)
  simp only [lower, upper]
  have e : Spec.share δ (min (max y vMin) (vMin + ((n : K) - 1) * δ)) (vMin + (j : K) * δ)
      = max 0 (1 - |position n vMin (vMin + ((n : K) - 1) * δ) δ y - ((j : Int) : K)|) := by
    unfold Spec.share
    rw [position_eq hn hδ]
    congr 2
    rw [← abs_of_pos hδ, ← abs_div, abs_of_pos hδ]
    congr 1
    push_cast
    field_simp
    ring
  rw [e, ← hs, mul_add, mul_ite, mul_ite, mul_zero]
  congr 1

theorem addedAt_lower_upper {n : Nat} (hn : 2 ≤ n) {vMin δ : K} (hδ : 0 < δ) (j : Nat)
    (yr pr : List K) :
    addedAt j (List.zipWith (lower n vMin (vMin + ((n : K) - 1) * δ) δ) yr pr)
      + addedAt j (List.zipWith (upper n vMin (vMin + ((n : K) - 1) * δ) δ) yr pr)
      = ((yr.zip pr).map fun x =>
        x.2 * Spec.share δ (min (max x.1 vMin) (vMin + ((n : K) - 1) * δ)) (vMin + (j : K) * δ)).sum := by
  induction yr generalizing pr with
  | nil => simp [addedAt]
  | cons y yr ih =>
    cases pr with
    | nil => simp [addedAt]
    | cons p pr =>
      have := ih pr
      simp only [List.zipWith_cons_cons, List.zip_cons_cons, List.map_cons, List.sum_cons,
        addedAt] at this ⊢
      rw [← this, ← contribution hn hδ y p j]
      ring

theorem sum_range_map (n : Nat) (f : Nat → K) :
    ((List.range n).map f).sum = ∑ j ∈ Finset.range n, f j := by
  induction n with
  | zero => simp
  | succ n ih => simp [List.range_succ, Finset.sum_range_succ, ih]

theorem sum_swap {ι : Type _} (n : Nat) (w : Nat → K) (L : List ι) (q : ι → K) (s : ι → Nat → K) :
    ∑ j ∈ Finset.range n, w j * (L.map fun x => q x * s x j).sum
      = (L.map fun x => q x * ∑ j ∈ Finset.range n, w j * s x j).sum := by
  induction L with
  | nil => simp
  | cons x L ih =>
    simp only [List.map_cons, List.sum_cons, mul_add, Finset.sum_add_distrib, ih, Finset.mul_sum]
    congr 1
    apply Finset.sum_congr rfl
    intros; ring

/-- The shares of one atom sum to one and have the atom as their mean. -/
theorem share_sums {n : Nat} {vMin δ : K} (hδ : 0 < δ) {x : K} (h0 : vMin ≤ x)
    (h1 : x ≤ vMin + ((n : K) - 1) * δ) :
    (∑ j ∈ Finset.range n, Spec.share δ x (vMin + (j : K) * δ) = 1) ∧
    (∑ j ∈ Finset.range n, (vMin + (j : K) * δ) * Spec.share δ x (vMin + (j : K) * δ) = x) := by
  set b := (x - vMin) / δ with hb
  have hb0 : 0 ≤ b := div_nonneg (by linarith) hδ.le
  have hb1 : b ≤ (n : K) - 1 := by rw [hb, div_le_iff₀ hδ]; linarith
  have hx : x = vMin + b * δ := by rw [hb]; field_simp; ring
  obtain ⟨⟨f0, f1⟩, ⟨c0, c1⟩⟩ := floor_range hb0 hb1
  have hs : ∀ j : Nat, Spec.share δ x (vMin + (j : K) * δ)
      = (if ⌊b⌋.toNat = j then 1 - (b - (⌊b⌋ : Int)) else 0)
        + (if ⌈b⌉.toNat = j then b - (⌊b⌋ : Int) else 0) := by
    intro j
    have := shares_eq_hat b (j : Int)
    have e : Spec.share δ x (vMin + (j : K) * δ) = max 0 (1 - |b - ((j : Int) : K)|) := by
      unfold Spec.share
      congr 2
      rw [hb, ← abs_of_pos hδ, ← abs_div, abs_of_pos hδ]
      congr 1
      push_cast; field_simp; ring
    rw [e, ← this]
    have e1 : (⌊b⌋ = (j : Int)) ↔ ⌊b⌋.toNat = j := by omega
    have e2 : (⌈b⌉ = (j : Int)) ↔ ⌈b⌉.toNat = j := by omega
    simp only [e1, e2]
  have hfm : ⌊b⌋.toNat ∈ Finset.range n := by rw [Finset.mem_range]; omega
  have hcm : ⌈b⌉.toNat ∈ Finset.range n := by rw [Finset.mem_range]; omega
  have hfc : ((⌊b⌋.toNat : Nat) : K) = ((⌊b⌋ : Int) : K) := by
    have : ((⌊b⌋.toNat : Nat) : Int) = ⌊b⌋ := Int.toNat_of_nonneg f0
    exact_mod_cast congrArg (Int.cast (R := K)) this
  have hcc : ((⌈b⌉.toNat : Nat) : K) = ((⌈b⌉ : Int) : K) := by
    have : ((⌈b⌉.toNat : Nat) : Int) = ⌈b⌉ := Int.toNat_of_nonneg c0
    exact_mod_cast congrArg (Int.cast (R := K)) this
  constructor
  · simp only [hs, Finset.sum_add_distrib, Finset.sum_ite_eq, hfm, hcm, if_true]
    ring
  · simp only [hs, mul_add, Finset.sum_add_distrib, mul_ite, mul_zero, Finset.sum_ite_eq, hfm, hcm,
      if_true, hfc, hcc]
    rw [hx]
    by_cases hint : b = (⌊b⌋ : Int)
    · have : b - ((⌊b⌋ : Int) : K) = 0 := by linarith [hint]
      rw [this]
      rw [← hint]; ring
    · have hlt : ((⌊b⌋ : Int) : K) < b := lt_of_le_of_ne (Int.floor_le b) (fun h => hint h.symm)
      have hc : ⌈b⌉ = ⌊b⌋ + 1 := by
        rw [Int.ceil_eq_iff]; push_cast
        exact ⟨by linarith, by linarith [Int.lt_floor_add_one b]⟩
      rw [hc]; push_cast; ring

/-! ## C23 -/

/-- The projection is, row by row, the piecewise linear interpolation onto the grid: rows do not
influence each other, and source atoms outside the range of the grid are moved to its end points. -/
theorem categorical_projection_eq {n : Nat} (hn : 2 ≤ n) {vMin δ : K} (hδ : 0 < δ) {z : List K}
    (hz : Spec.Grid z n vMin δ) {y p : List (List K)} (hy : ∀ r ∈ y, r.length = n)
    (hp : ∀ r ∈ p, r.length = n) (hl : p.length = y.length) :
    project y p z = .ok (List.zipWith (Spec.projected n vMin δ) y p) := by
  have hzl : z.length = n := by rw [hz]; simp
  have hz0 : z[0]? = some vMin := by rw [hz]; simp [show 0 < n by omega]
  have hz1 : z[1]? = some (vMin + δ) := by rw [hz]; simp [show 1 < n by omega]
  have hzlast : z.getLast? = some (vMin + ((n : K) - 1) * δ) := by
    rw [hz, List.getLast?_map, List.getLast?_range, if_neg (by omega)]
    simp only [Option.map_some]
    rw [Nat.cast_sub (by omega)]; simp
  have hd : vMin + δ - vMin = δ := by ring
  unfold project
  simp only [hzl]
  rw [if_pos ⟨hy, hp, hl⟩, hz0, hz1, hzlast]
  simp only [hd]
  have hpos := fun (y : K) => position_range (n := n) (by omega) vMin (vMin + ((n : K) - 1) * δ) δ y
  have hgl : ∀ a b : K, 0 ≤ (lower n vMin (vMin + ((n : K) - 1) * δ) δ a b).1 ∧
      (lower n vMin (vMin + ((n : K) - 1) * δ) δ a b).1 < n :=
    fun a b => (floor_range (hpos a).1 (hpos a).2).1
  have hgu : ∀ a b : K, 0 ≤ (upper n vMin (vMin + ((n : K) - 1) * δ) δ a b).1 ∧
      (upper n vMin (vMin + ((n : K) - 1) * δ) δ a b).1 < n :=
    fun a b => (floor_range (hpos a).1 (hpos a).2).2
  obtain ⟨o1, e1, l1, v1⟩ := scatterAdd_spec
    (flatPairs (lower n vMin (vMin + ((n : K) - 1) * δ) δ) n 0 y p)
    (List.replicate (y.length * n) (0 : K)) (fun x hx => by
      have := flatPairs_range _ n hgl y p 0 x hx
      rw [List.length_replicate]
      simpa using this)
  rw [e1]
  obtain ⟨o2, e2, l2, v2⟩ := scatterAdd_spec
    (flatPairs (upper n vMin (vMin + ((n : K) - 1) * δ) δ) n 0 y p) o1 (fun x hx => by
      have := flatPairs_range _ n hgu y p 0 x hx
      rw [l1, List.length_replicate]
      simpa using this)
  simp only [e2]
  rw [List.length_replicate] at l1
  have lout : o2.length = y.length * n := by rw [l2, l1]
  congr 1
  apply List.ext_getElem
  · simp [unflatten, hl]
  · intro i hi1 hi2
    have hi : i < y.length := by simpa [unflatten] using hi1
    have hip : i < p.length := by omega
    simp only [unflatten, List.getElem_map, List.getElem_range, List.getElem_zipWith]
    have hin : i * n + n ≤ y.length * n := by
      have : (i + 1) * n ≤ y.length * n := Nat.mul_le_mul_right n hi
      rw [Nat.succ_mul] at this; exact this
    apply List.ext_getElem
    · simp [Spec.projected, lout]; omega
    · intro j hj1 hj2
      have hj : j < n := by simpa [Spec.projected] using hj2
      have hlt : i * n + j < y.length * n := by omega
      simp only [List.getElem_take, List.getElem_drop, Spec.projected, List.getElem_map,
        List.getElem_range]
      rw [v2 _ (by rw [l1]; exact hlt) (by rw [lout]; exact hlt),
        v1 _ (by rw [List.length_replicate]; exact hlt) (by rw [l1]; exact hlt)]
      rw [List.getElem_replicate, zero_add, ← addedAt_lower_upper hn hδ]
      have a1 := addedAt_flatPairs _ n hgl y p 0 i j hl.symm hj hi hip
      have a2 := addedAt_flatPairs _ n hgu y p 0 i j hl.symm hj hi hip
      rw [Nat.zero_add] at a1 a2
      rw [a1, a2]

/-- **C23.** For a grid of at least two evenly spaced atoms and any batch of distributions: the
projection succeeds; every entry of every row is non-negative if the source probabilities are; every
row keeps its total mass exactly; and if the source atoms of a row lie within the range of the grid,
the row keeps its mean exactly. -/
theorem categorical_projection_preserves {n : Nat} (hn : 2 ≤ n) {vMin δ : K} (hδ : 0 < δ)
    {z : List K} (hz : Spec.Grid z n vMin δ) {y p : List (List K)} (hy : ∀ r ∈ y, r.length = n)
    (hp : ∀ r ∈ p, r.length = n) (hl : p.length = y.length) :
    ∃ out, project y p z = .ok out ∧ out.length = y.length ∧
      ∀ i (hi : i < y.length) (hip : i < p.length) (hio : i < out.length),
        out[i].length = n ∧
        ((∀ q ∈ p[i], 0 ≤ q) → ∀ q ∈ out[i], 0 ≤ q) ∧
        Spec.mass out[i] = Spec.mass p[i] ∧
        ((∀ a ∈ y[i], vMin ≤ a ∧ a ≤ vMin + ((n : K) - 1) * δ) →
          Spec.mean z out[i] = Spec.mean y[i] p[i]) := by
  refine ⟨_, categorical_projection_eq hn hδ hz hy hp hl, by simp [hl], ?_⟩
  intro i hi hip hio
  rw [List.getElem_zipWith]
  have hyl := hy _ (List.getElem_mem hi)
  have hpl := hp _ (List.getElem_mem hip)
  generalize y[i] = yr at *
  generalize p[i] = pr at *
  have hn' : (2 : K) ≤ n := by exact_mod_cast hn
  have hclip : ∀ a : K, vMin ≤ min (max a vMin) (vMin + ((n : K) - 1) * δ) ∧
      min (max a vMin) (vMin + ((n : K) - 1) * δ) ≤ vMin + ((n : K) - 1) * δ :=
    fun a => ⟨le_min (le_max_right _ _) (by nlinarith), min_le_right _ _⟩
  refine ⟨by simp [Spec.projected], ?_, ?_, ?_⟩
  · intro hq v hv
    simp only [Spec.projected, List.mem_map] at hv
    obtain ⟨j, _, rfl⟩ := hv
    apply List.sum_nonneg
    intro v hv
    rw [List.mem_map] at hv
    obtain ⟨x, hx, rfl⟩ := hv
    exact mul_nonneg (hq _ (List.of_mem_zip hx).2) (le_max_left _ _)
  · unfold Spec.mass Spec.projected
    rw [sum_range_map]
    have := sum_swap n (fun _ => (1 : K)) (yr.zip pr) (fun x => x.2)
      (fun x j => Spec.share δ (min (max x.1 vMin) (vMin + ((n : K) - 1) * δ)) (vMin + (j : K) * δ))
    simp only [one_mul] at this
    rw [this]
    have h1 : ∀ x : K × K, x.2 * ∑ j ∈ Finset.range n,
        Spec.share δ (min (max x.1 vMin) (vMin + ((n : K) - 1) * δ)) (vMin + (j : K) * δ) = x.2 := by
      intro x
      rw [(share_sums hδ (hclip x.1).1 (hclip x.1).2).1, mul_one]
    simp only [h1]
    rw [List.map_snd_zip (by omega)]
  · intro hin
    have hzip : List.zipWith (· * ·) z (Spec.projected n vMin δ yr pr)
        = (List.range n).map fun j : Nat => (vMin + (j : K) * δ) * ((yr.zip pr).map fun x =>
          x.2 * Spec.share δ (min (max x.1 vMin) (vMin + ((n : K) - 1) * δ)) (vMin + (j : K) * δ)).sum := by
      rw [hz]
      unfold Spec.projected
      rw [List.zipWith_map, List.zipWith_self]
    unfold Spec.mean
    rw [hzip, sum_range_map]
    rw [sum_swap n (fun j => vMin + (j : K) * δ) (yr.zip pr) (fun x => x.2)
      (fun x j => Spec.share δ (min (max x.1 vMin) (vMin + ((n : K) - 1) * δ)) (vMin + (j : K) * δ))]
    rw [← List.map_uncurry_zip_eq_zipWith]
    congr 1
    apply List.map_congr_left
    intro x hx
    rw [(share_sums hδ (hclip x.1).1 (hclip x.1).2).2]
    obtain ⟨a1, a2⟩ := hin _ (List.of_mem_zip hx).1
    rw [max_eq_left a1, min_eq_left a2]
    simp [Function.uncurry, mul_comm]

/-- The grid used below and a batch of two distributions on it: the first with atoms inside the
range, the second with atoms outside. -/
example : Spec.Grid ([-1, 1/2, 2] : List ℚ) 3 (-1) (3/2) := by
  norm_num [Spec.Grid, List.range_succ]

example : project ([[0, 1, 1/2], [-5, 0, 7]] : List (List ℚ)) [[1/2, 1/4, 1/4], [1/2, 1/4, 1/4]]
    [-1, 1/2, 2] = .ok [[1/6, 3/4, 1/12], [7/12, 1/6, 1/4]] := by decide +kernel

/-- The batch meets the hypotheses of the theorem. -/
example : (∀ r ∈ ([[0, 1, 1/2], [-5, 0, 7]] : List (List ℚ)), r.length = 3) ∧
    (∀ a ∈ ([0, 1, 1/2] : List ℚ), -1 ≤ a ∧ a ≤ -1 + ((3 : Nat) - 1 : ℚ) * (3/2)) := by
  constructor
  · decide
  · norm_num

end Pfrl.Categorical
