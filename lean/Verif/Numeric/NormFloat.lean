import Verif.Numeric.Float
import Verif.Numeric.EmpiricalNorm

/-!
# Rounding in `EmpiricalNormalization` (C141)

One element of the running statistics of `pfrl/nn/empirical_normalization.py` with floating point numbers.
-/

namespace Pfrl.Floats

open Pfrl.Tree (rne pow_pos' eps_pos eps_lt float_mult float_zero log_bounds)

/-! ## Model -/

/-- One element of `_mean` and `_var`, and `count`, `pfrl/nn/empirical_normalization.py:34-42`. -/
structure Norm where
  mean : ℚ
  var : ℚ
  count : ℕ
  deriving DecidableEq

/-- The state after the constructor. -/
def Norm.init : Norm := ⟨0, 1, 0⟩

/-- A batch: its size, and one element of the mean and the variance that `torch.var_mean` computes for it. -/
structure Batch where
  size : ℕ
  mean : ℚ
  var : ℚ

/-- `experience`, `empirical_normalization.py:61-84`, with a rounding after every operation; `self.count.float()` and the division round as well.
`none`: an assertion fails. -/
def fexperience (rnd : ℚ → ℚ) (until_ : Option ℕ) (st : Norm) (x : Batch) : Option Norm :=
  if (until_.any fun u => decide (st.count ≥ u)) then some st
  else if x.size = 0 then some st
  else
    let count := st.count + x.size
    let rate := rnd (rnd (x.size : ℚ) / rnd (count : ℚ))
    if ¬ (rate > 0) then none
    else if ¬ (rate ≤ 1) then none
    else
      let deltaMean := rnd (x.mean - st.mean)
      let mean := rnd (st.mean + rnd (rate * deltaMean))
      let var := rnd (st.var + rnd (rate * rnd (rnd (x.var - st.var) + rnd (deltaMean * rnd (x.mean - mean)))))
      some ⟨mean, var, count⟩

/-- A history of batches. -/
def fexperiences (rnd : ℚ → ℚ) (until_ : Option ℕ) : Norm → List Batch → Option Norm
  | st, [] => some st
  | st, x :: xs => (fexperience rnd until_ st x).bind fun st' => fexperiences rnd until_ st' xs

/-! ## Specification -/

/-- The batches that are learnt from: those given before `until` values have been seen, without empty ones. -/
def Spec.learnt (until_ : Option ℕ) : ℕ → List Batch → List Batch
  | _, [] => []
  | c, x :: xs =>
    if (∃ u ∈ until_, u ≤ c) ∨ x.size = 0 then Spec.learnt until_ c xs else x :: Spec.learnt until_ (c + x.size) xs

/-- The number of values in batches. -/
def Spec.total (xs : List Batch) : ℕ := (xs.map Batch.size).sum

/-- The exact mean of the values in batches with these means. -/
def Spec.mean (xs : List Batch) : ℚ := (xs.map fun x => (x.size : ℚ) * x.mean).sum / Spec.total xs

/-- Their exact variance, given those of the batches. -/
def Spec.variance (xs : List Batch) : ℚ := (xs.map fun x => (x.size : ℚ) * (x.var + x.mean ^ 2)).sum / Spec.total xs - Spec.mean xs ^ 2

/-- No batch but the first is more than `K` times as large as all before it together. -/
def Spec.Moderate (K : ℚ) : ℕ → List Batch → Prop
  | _, [] => True
  | c, x :: xs => (c = 0 ∨ (x.size : ℚ) ≤ K * c) ∧ Spec.Moderate K (c + x.size) xs

/-- Batch statistics that are floating point numbers, with variances that are not negative. -/
def Spec.Valid (p : ℕ) (emin : ℤ) (x : Batch) : Prop := Tree.Spec.Float p emin x.mean ∧ Tree.Spec.Float p emin x.var ∧ 0 ≤ x.var

/-! ## Lemmas -/

variable {p : ℕ} {emin : ℤ} {rnd : ℚ → ℚ}

theorem float_two {x : ℚ} (h : Tree.Spec.Float p emin x) : Tree.Spec.Float p emin (2 * x) := by
  obtain ⟨m, e, he, hm, rfl⟩ := h
  refine ⟨m, e + 1, by omega, hm, ?_⟩
  rw [zpow_add₀ (by norm_num), zpow_one]
  ring

/-- A floating point number just below. -/
theorem below {x : ℚ} (hx : 0 ≤ x) (hm : ∃ k : ℤ, x = k * 2 ^ emin) : ∃ f, Tree.Spec.Float p emin f ∧ f ≤ x ∧ (1 - Tree.Spec.eps p) * x ≤ f := by
  rcases hx.lt_or_eq with hx0 | rfl
  · obtain ⟨hb1, hb2⟩ := log_bounds hx0
    set n := Int.log 2 x with hn
    by_cases he : emin ≤ n - (p - 1)
    · set e := n - (p - 1) with hedef
      have hz : (⌊x / 2 ^ e⌋ : ℚ) * 2 ^ e ≤ x := (le_div_iff₀ (pow_pos' e)).1 (Int.floor_le _)
      have hz2 : x ≤ ((⌊x / 2 ^ e⌋ + 1 : ℤ) : ℚ) * 2 ^ e := by
        push_cast
        exact ((div_lt_iff₀ (pow_pos' e)).1 (Int.lt_floor_add_one _)).le
      have hf0 : 0 ≤ ⌊x / 2 ^ e⌋ := Int.floor_nonneg.2 (div_pos hx0 (pow_pos' _)).le
      have hlt : ⌊x / 2 ^ e⌋ < 2 ^ p := by
        rw [Int.floor_lt, div_lt_iff₀ (pow_pos' _), Int.cast_pow, Int.cast_ofNat, ← zpow_natCast, ← zpow_add₀ (by norm_num)]
        rw [show (p : ℤ) + e = n + 1 by omega]
        exact hb2
      have hE : (2 : ℚ) ^ e ≤ Tree.Spec.eps p * x := by
        calc (2 : ℚ) ^ e = Tree.Spec.eps p * 2 ^ n := by
              unfold Tree.Spec.eps
              rw [← zpow_add₀ (by norm_num)]
              congr 1
              omega
          _ ≤ _ := mul_le_mul_of_nonneg_left hb1 eps_pos.le
      refine ⟨_, ⟨_, e, he, by rw [abs_of_nonneg hf0]; exact hlt.le, rfl⟩, hz, ?_⟩
      push_cast at hz2
      linarith
    · refine ⟨x, ?_, le_rfl, by nlinarith [eps_pos (p := p)]⟩
      obtain ⟨k, hk⟩ := hm
      have hk0 : 0 ≤ k := by
        by_contra hc
        have : (k : ℚ) < 0 := by exact_mod_cast not_le.1 hc
        have := mul_neg_of_neg_of_pos this (pow_pos' emin)
        linarith
      refine ⟨k, emin, le_rfl, ?_, hk⟩
      rw [abs_of_nonneg hk0]
      have h1 : (k : ℚ) * 2 ^ emin < 2 ^ p * 2 ^ emin := by
        rw [← hk]
        refine hb2.trans_le ?_
        rw [← zpow_natCast, ← zpow_add₀ (by norm_num)]
        exact zpow_le_zpow_right₀ (by norm_num) (by omega)
      have h2 := lt_of_mul_lt_mul_right h1 (pow_pos' emin).le
      exact_mod_cast h2.le
  · exact ⟨0, float_zero, le_rfl, by simp⟩

/-- What rates do not lead past the exact difference. -/
def RateOk (p : ℕ) (rate m : ℚ) : Prop := 0 ≤ rate ∧ rate ≤ 1 ∧ (rate ≤ 1 - 4 * Tree.Spec.eps p ∨ m = 0)

theorem eps_small (hp : 7 ≤ p) : Tree.Spec.eps p ≤ 1 / 64 := by
  unfold Tree.Spec.eps
  have : (2 : ℚ) ^ (1 - (p : ℤ)) ≤ 2 ^ (-6 : ℤ) := zpow_le_zpow_right₀ (by norm_num) (by omega)
  exact this.trans (by norm_num)

/-- A part of a rounded difference is rounded to at most the exact difference. -/
theorem part_step (hr : Spec.Rounding p emin rnd) {x rate : ℚ} (hx : 0 ≤ x) (hm : ∃ k : ℤ, x = k * 2 ^ emin) (h0 : 0 ≤ rate)
    (h1 : rate ≤ 1 - 4 * Tree.Spec.eps p) : rnd (rate * rnd x) ≤ x := by
  obtain ⟨f, hf, hfx, hxf⟩ := below (p := p) hx hm
  obtain ⟨_, hu⟩ := hr.pos.err hx hm
  have hE := eps_pos (p := p)
  have h6 : 0 ≤ rnd x := by have := hr.mono _ _ hx; rwa [hr.zero] at this
  have h7 : rate * rnd x ≤ f := by
    have g1 : rate * rnd x ≤ (1 - 4 * Tree.Spec.eps p) * ((1 + Tree.Spec.eps p) * x) :=
      mul_le_mul h1 hu h6 (h0.trans h1)
    have g2 : 0 ≤ Tree.Spec.eps p * Tree.Spec.eps p * x := by positivity
    have g3 : 0 ≤ Tree.Spec.eps p * x := by positivity
    nlinarith
  have := hr.mono _ _ h7
  rw [hr.fixed _ hf] at this
  exact this.trans hfx

theorem diff_mult {a b : ℚ} (ha : Tree.Spec.Float p emin a) (hb : Tree.Spec.Float p emin b) : ∃ k : ℤ, a - b = k * 2 ^ emin := by
  obtain ⟨k1, e1⟩ := float_mult ha
  obtain ⟨k2, e2⟩ := float_mult hb
  exact ⟨k1 - k2, by rw [e1, e2]; push_cast; ring⟩

/-- The new mean lies between the old one and that of the batch. -/
theorem mean_between (hr : Spec.Rounding p emin rnd) {m x rate : ℚ} (hm : Tree.Spec.Float p emin m) (hx : Tree.Spec.Float p emin x) (hR : RateOk p rate m) :
    (m ≤ x → m ≤ rnd (m + rnd (rate * rnd (x - m))) ∧ rnd (m + rnd (rate * rnd (x - m))) ≤ x) ∧
    (x ≤ m → x ≤ rnd (m + rnd (rate * rnd (x - m))) ∧ rnd (m + rnd (rate * rnd (x - m))) ≤ m) := by
  obtain ⟨h0, h1, h2⟩ := hR
  constructor
  · intro h
    have hd : 0 ≤ rnd (x - m) := by have := hr.mono 0 _ (sub_nonneg.2 h); rwa [hr.zero] at this
    have hs : 0 ≤ rnd (rate * rnd (x - m)) := by have := hr.mono 0 _ (mul_nonneg h0 hd); rwa [hr.zero] at this
    have hu : rnd (rate * rnd (x - m)) ≤ x - m := by
      rcases h2 with h2 | rfl
      · exact part_step hr (sub_nonneg.2 h) (diff_mult hx hm) h0 h2
      · rw [sub_zero] at *
        rw [hr.fixed _ hx] at *
        have := hr.mono (rate * x) x (by nlinarith)
        rwa [hr.fixed _ hx] at this
    constructor
    · have := hr.mono m (m + rnd (rate * rnd (x - m))) (by linarith); rwa [hr.fixed _ hm] at this
    · have := hr.mono (m + rnd (rate * rnd (x - m))) x (by linarith); rwa [hr.fixed _ hx] at this
  · intro h
    have hd : rnd (x - m) ≤ 0 := by have := hr.mono _ 0 (sub_nonpos.2 h); rwa [hr.zero] at this
    have hs : rnd (rate * rnd (x - m)) ≤ 0 := by have := hr.mono _ 0 (mul_nonpos_of_nonneg_of_nonpos h0 hd); rwa [hr.zero] at this
    have hu : x - m ≤ rnd (rate * rnd (x - m)) := by
      rcases h2 with h2 | rfl
      · have hn : Spec.Rounding p emin (fun y => -rnd (-y)) :=
          ⟨fun y => float_neg (hr.float _), fun y hy => by rw [hr.fixed _ (float_neg hy), neg_neg], fun a b hab => neg_le_neg (hr.mono _ _ (neg_le_neg hab))⟩
        have := part_step hn (sub_nonneg.2 h) (diff_mult hm hx) h0 h2
        simp only [neg_sub, mul_neg, neg_neg] at this
        linarith
      · rw [sub_zero] at *
        rw [hr.fixed _ hx] at *
        have := hr.mono x (rate * x) (by nlinarith)
        rwa [hr.fixed _ hx] at this
    constructor
    · have := hr.mono x (m + rnd (rate * rnd (x - m))) (by linarith); rwa [hr.fixed _ hx] at this
    · have := hr.mono (m + rnd (rate * rnd (x - m))) m (by linarith); rwa [hr.fixed _ hm] at this

/-- The new variance is not negative. -/
theorem var_nonneg (hr : Spec.Rounding p emin rnd) {m x v w rate : ℚ} (hm : Tree.Spec.Float p emin m) (hx : Tree.Spec.Float p emin x)
    (hv : Tree.Spec.Float p emin v) (hv0 : 0 ≤ v) (hw0 : 0 ≤ w) (hR : RateOk p rate m) :
    0 ≤ rnd (v + rnd (rate * rnd (rnd (w - v) + rnd (rnd (x - m) * rnd (x - rnd (m + rnd (rate * rnd (x - m)))))))) := by
  have hprod : 0 ≤ rnd (rnd (x - m) * rnd (x - rnd (m + rnd (rate * rnd (x - m))))) := by
    obtain ⟨hb1, hb2⟩ := mean_between hr hm hx hR
    have : 0 ≤ rnd (x - m) * rnd (x - rnd (m + rnd (rate * rnd (x - m)))) := by
      rcases le_total m x with h | h
      · have g1 := hr.mono 0 _ (sub_nonneg.2 h)
        have g2 := hr.mono 0 _ (sub_nonneg.2 (hb1 h).2)
        rw [hr.zero] at g1 g2
        exact mul_nonneg g1 g2
      · have g1 := hr.mono _ 0 (sub_nonpos.2 h)
        have g2 := hr.mono _ 0 (sub_nonpos.2 (hb2 h).1)
        rw [hr.zero] at g1 g2
        exact mul_nonneg_of_nonpos_of_nonpos g1 g2
    have h2 := hr.mono _ _ this
    rwa [hr.zero] at h2
  set P := rnd (rnd (x - m) * rnd (x - rnd (m + rnd (rate * rnd (x - m)))))
  have hnv : rnd (-v) = -v := hr.fixed _ (float_neg hv)
  have ha : -v ≤ rnd (w - v) := by have := hr.mono (-v) (w - v) (by linarith); rwa [hnv] at this
  have hb : -v ≤ rnd (rnd (w - v) + P) := by have := hr.mono (-v) (rnd (w - v) + P) (by linarith); rwa [hnv] at this
  obtain ⟨h0, hr1, _⟩ := hR
  have hc : -v ≤ rnd (rate * rnd (rnd (w - v) + P)) := by
    have := hr.mono (-v) (rate * rnd (rnd (w - v) + P)) (by nlinarith)
    rwa [hnv] at this
  have := hr.mono 0 (v + rnd (rate * rnd (rnd (w - v) + P))) (by linarith)
  rwa [hr.zero] at this

theorem nat_mult (he : emin ≤ 0) (n : ℕ) : ∃ k : ℤ, (n : ℚ) = k * 2 ^ emin := by
  refine ⟨n * 2 ^ (-emin).toNat, ?_⟩
  push_cast
  rw [← zpow_natCast, Int.toNat_of_nonneg (by omega), mul_assoc, ← zpow_add₀ (by norm_num)]
  simp

/-- The rate: positive, at most 1, less than 1 by some units of rounding if the batch is not too large, and close to the exact one. -/
theorem rate_spec (hr : Spec.Rounding p emin rnd) (hp : 7 ≤ p) (he : emin ≤ -p) {c s : ℕ} (hs : 0 < s) (hc : (c + s : ℕ) ≤ (2 : ℚ) ^ (-emin)) :
    0 < rnd (rnd (s : ℚ) / rnd ((c + s : ℕ) : ℚ)) ∧ rnd (rnd (s : ℚ) / rnd ((c + s : ℕ) : ℚ)) ≤ 1 ∧
      ((s : ℚ) * (8 * Tree.Spec.eps p) ≤ c → rnd (rnd (s : ℚ) / rnd ((c + s : ℕ) : ℚ)) ≤ 1 - 4 * Tree.Spec.eps p) ∧
      |rnd (rnd (s : ℚ) / rnd ((c + s : ℕ) : ℚ)) - s / (c + s : ℕ)| ≤ 4 * Tree.Spec.eps p + 2 * 2 ^ emin := by
  have hE := eps_pos (p := p)
  have hE1 := eps_small hp
  have hθ := pow_pos' emin
  set ε := Tree.Spec.eps p with hε
  have hs' : (1 : ℚ) ≤ s := by exact_mod_cast hs
  have hc0 : (0 : ℚ) ≤ c := by positivity
  have f1 : Tree.Spec.Float p emin 1 := float_one (by omega)
  obtain ⟨s1, s2⟩ := hr.pos.err (x := (s : ℚ)) (by positivity) (nat_mult (by omega) s)
  obtain ⟨n1, n2⟩ := hr.pos.err (x := ((c + s : ℕ) : ℚ)) (by positivity) (nat_mult (by omega) (c + s))
  have hS : (1 : ℚ) ≤ rnd s := by have := hr.mono _ _ hs'; rwa [hr.fixed _ f1] at this
  have hSN : rnd (s : ℚ) ≤ rnd ((c + s : ℕ) : ℚ) := hr.mono _ _ (by push_cast; linarith)
  set S := rnd (s : ℚ)
  set N := rnd ((c + s : ℕ) : ℚ)
  have hN0 : 0 < N := by linarith
  have hn0 : (0 : ℚ) < (c + s : ℕ) := by push_cast; linarith
  have hq0 : 0 ≤ S / N := by positivity
  have hq1 : S / N ≤ 1 := by rw [div_le_one hN0]; exact hSN
  refine ⟨?_, ?_, ?_, ?_⟩
  · have hup : N ≤ 2 ^ (-emin) := by
      have hf : Tree.Spec.Float p emin ((2 : ℚ) ^ (-emin)) := ⟨1, -emin, by omega, by simpa using (one_le_pow₀ (by norm_num : (1 : ℤ) ≤ 2) : (1 : ℤ) ≤ 2 ^ p), by simp⟩
      have := hr.mono _ _ hc
      rwa [hr.fixed _ hf] at this
    have hlow : (2 : ℚ) ^ emin ≤ S / N := by
      rw [le_div_iff₀ hN0]
      have h3 : (2 : ℚ) ^ emin * 2 ^ (-emin) = 1 := by rw [← zpow_add₀ (by norm_num)]; simp
      have := mul_le_mul_of_nonneg_left hup (pow_pos' emin).le
      linarith
    have hf : Tree.Spec.Float p emin ((2 : ℚ) ^ emin) := ⟨1, emin, le_rfl, by simpa using (one_le_pow₀ (by norm_num : (1 : ℤ) ≤ 2) : (1 : ℤ) ≤ 2 ^ p), by simp⟩
    have := hr.mono _ _ hlow
    rw [hr.fixed _ hf] at this
    exact (pow_pos' emin).trans_le this
  · have := hr.mono (S / N) 1 hq1
    rwa [hr.fixed _ f1] at this
  · intro hsc
    have hf : Tree.Spec.Float p emin (1 - 4 * ε) := by
      refine ⟨2 ^ p - 8, -p, he, ?_, ?_⟩
      · have : (8 : ℤ) ≤ 2 ^ p := by
          calc (8 : ℤ) = 2 ^ 3 := by norm_num
            _ ≤ 2 ^ p := pow_le_pow_right₀ (by norm_num) (by omega)
        rw [abs_of_nonneg (by omega)]
        omega
      · rw [hε]
        unfold Tree.Spec.eps
        push_cast
        rw [sub_mul, zpow_neg, zpow_natCast, mul_inv_cancel₀ (by positivity), zpow_sub₀ (by norm_num), zpow_natCast]
        ring
    have h := hr.mono (S / N) (1 - 4 * ε) ?_
    · rwa [hr.fixed _ hf] at h
    · rw [div_le_iff₀ hN0]
      push_cast at n1
      have g1 : (1 - 4 * ε) * ((1 - ε) * (c + s)) ≤ (1 - 4 * ε) * N := mul_le_mul_of_nonneg_left n1 (by linarith)
      have g2 : (1 - 4 * ε) * ((1 - ε) * (s * (8 * ε) + s)) ≤ (1 - 4 * ε) * ((1 - ε) * (c + s)) :=
        mul_le_mul_of_nonneg_left (mul_le_mul_of_nonneg_left (by linarith) (by linarith)) (by linarith)
      have g3 : (1 + ε) * s ≤ (1 - 4 * ε) * ((1 - ε) * (s * (8 * ε) + s)) := by
        have : (1 - 4 * ε) * ((1 - ε) * (s * (8 * ε) + s)) - (1 + ε) * s = s * (ε * (2 - ε * (36 - 32 * ε))) := by ring
        have h2 : 0 ≤ s * (ε * (2 - ε * (36 - 32 * ε))) := by
          have : ε * (36 - 32 * ε) ≤ 2 := by nlinarith
          have := sub_nonneg.2 this
          positivity
        linarith
      linarith
  · have h1 := hr.err (by omega) (S / N)
    rw [abs_of_nonneg hq0] at h1
    have h1' : |rnd (S / N) - S / N| ≤ ε + 2 * 2 ^ emin := h1.trans (by nlinarith)
    have h2 : |S / N - s / (c + s : ℕ)| ≤ 3 * ε := by
      set n : ℚ := ((c + s : ℕ) : ℚ)
      have hsn : (s : ℚ) ≤ n := by simp only [n]; push_cast; linarith
      have e : S / N - s / n = ((S - s) * n + s * (n - N)) / (N * n) := by field_simp; ring
      rw [e, abs_div, abs_of_pos (mul_pos hN0 hn0), div_le_iff₀ (mul_pos hN0 hn0)]
      have a1 : |S - s| ≤ ε * s := by rw [abs_le]; constructor <;> linarith
      have a2 : |n - N| ≤ ε * n := by rw [abs_le]; constructor <;> linarith
      have b := abs_add_le ((S - s) * n) (s * (n - N))
      rw [abs_mul, abs_mul, abs_of_pos hn0, abs_of_nonneg (by linarith : (0 : ℚ) ≤ s)] at b
      have b1 := mul_le_mul_of_nonneg_right a1 hn0.le
      have b2 := mul_le_mul_of_nonneg_left a2 (by linarith : (0 : ℚ) ≤ s)
      have b3 : s * n ≤ n * n := mul_le_mul_of_nonneg_right hsn hn0.le
      have b4 : (1 - ε) * (n * n) ≤ N * n := by have := mul_le_mul_of_nonneg_right n1 hn0.le; linarith
      have b5 : 0 ≤ ε * (n * n) := by positivity
      have b6 := mul_le_mul_of_nonneg_left b3 hE.le
      have b7 := mul_le_mul_of_nonneg_left b4 hE.le
      have b8 : ε * (ε * (n * n)) ≤ 1 / 64 * (ε * (n * n)) := mul_le_mul_of_nonneg_right hE1 b5
      linarith
    have := abs_tri h1' h2
    linarith

/-- One batch: assertions, count, range and sign. -/
theorem fexperience_step (hr : Spec.Rounding p emin rnd) (hp : 7 ≤ p) (he : emin ≤ -p) {until_ : Option ℕ} {st : Norm} {x : Batch}
    (hu : ∀ u ∈ until_, st.count < u) (hs : 0 < x.size) (hc : (st.count + x.size : ℕ) ≤ (2 : ℚ) ^ (-emin))
    (hK : (x.size : ℚ) * (8 * Tree.Spec.eps p) ≤ st.count ∨ st.mean = 0) :
    ∃ rate, rate = rnd (rnd (x.size : ℚ) / rnd ((st.count + x.size : ℕ) : ℚ)) ∧ RateOk p rate st.mean ∧
      fexperience rnd until_ st x = some ⟨rnd (st.mean + rnd (rate * rnd (x.mean - st.mean))),
        rnd (st.var + rnd (rate * rnd (rnd (x.var - st.var) + rnd (rnd (x.mean - st.mean) * rnd (x.mean - rnd (st.mean + rnd (rate * rnd (x.mean - st.mean)))))))),
        st.count + x.size⟩ := by
  obtain ⟨r1, r2, r3, _⟩ := rate_spec hr hp he hs hc
  refine ⟨_, rfl, ⟨r1.le, r2, hK.imp r3 id⟩, ?_⟩
  unfold fexperience
  have h1 : ¬ ((until_.any fun u => decide (st.count ≥ u)) = true) := by
    cases until_ with
    | none => simp
    | some u => have := hu u rfl; simp; omega
  rw [if_neg h1, if_neg (by omega)]
  simp only
  rw [if_neg (not_not.2 r1), if_neg (not_not.2 r2)]

theorem fexperience_skip {until_ : Option ℕ} {st : Norm} {x : Batch} (h : (∃ u ∈ until_, u ≤ st.count) ∨ x.size = 0) :
    fexperience rnd until_ st x = some st := by
  unfold fexperience
  by_cases h1 : (until_.any fun u => decide (st.count ≥ u)) = true
  · rw [if_pos h1]
  · rw [if_neg h1]
    rcases h with ⟨u, hu, h⟩ | h
    · exfalso
      refine h1 ?_
      cases until_ with
      | none => simp at hu
      | some v => cases hu; simpa using h
    · rw [if_pos h]

theorem total_append (xs ys : List Batch) : Spec.total (xs ++ ys) = Spec.total xs + Spec.total ys := by simp [Spec.total]

/-- Induction over the batches learnt from: `P` is kept by every one of them. -/
theorem fexperiences_induct (P : Norm → List Batch → Prop) (until_ : Option ℕ) (all : List Batch)
    (step : ∀ st done x tail, done ++ x :: tail = all → P st done → st.count = Spec.total done → (∀ u ∈ until_, st.count < u) → 0 < x.size →
      ∃ st', fexperience rnd until_ st x = some st' ∧ st'.count = st.count + x.size ∧ P st' (done ++ [x])) :
    ∀ (xs : List Batch) (st : Norm) (done : List Batch), done ++ Spec.learnt until_ st.count xs = all → st.count = Spec.total done → P st done →
      ∃ st', fexperiences rnd until_ st xs = some st' ∧ st'.count = Spec.total all ∧ P st' all := by
  intro xs
  induction xs with
  | nil =>
    intro st done h1 h2 h3
    have : done = all := by simpa [Spec.learnt] using h1
    subst this
    exact ⟨st, rfl, h2, h3⟩
  | cons x xs ih =>
    intro st done h1 h2 h3
    unfold Spec.learnt at h1
    by_cases hc : (∃ u ∈ until_, u ≤ st.count) ∨ x.size = 0
    · rw [if_pos hc] at h1
      obtain ⟨st', g⟩ := ih st done h1 h2 h3
      refine ⟨st', ?_, g.2⟩
      rw [fexperiences, fexperience_skip hc]
      exact g.1
    · rw [if_neg hc] at h1
      push Not at hc
      obtain ⟨s1, e1, e2, e3⟩ := step st done x _ h1 h3 h2 hc.1 (by omega)
      obtain ⟨st', g⟩ := ih s1 (done ++ [x]) (by rw [e2, List.append_assoc]; exact h1) (by rw [e2, total_append, h2]; simp [Spec.total]) e3
      refine ⟨st', ?_, g.2⟩
      rw [fexperiences, e1]
      exact g.1

theorem moderate_split {K : ℚ} (done : List Batch) : ∀ {c : ℕ} {x : Batch} {tail : List Batch}, Spec.Moderate K c (done ++ x :: tail) →
    c + Spec.total done = 0 ∨ (x.size : ℚ) ≤ K * (c + Spec.total done : ℕ) := by
  induction done with
  | nil => intro c x tail h; simpa [Spec.total] using h.1
  | cons y ys ih =>
    intro c x tail h
    have := ih h.2
    have e : c + y.size + Spec.total ys = c + Spec.total (y :: ys) := by simp [Spec.total]; omega
    rwa [e] at this

theorem total_le {done tail : List Batch} {x : Batch} : Spec.total done + x.size ≤ Spec.total (done ++ x :: tail) := by
  simp [Spec.total]

theorem first_rate (hr : Spec.Rounding p emin rnd) (he : emin ≤ 0) {s : ℕ} (hs : 0 < s) : rnd (rnd (s : ℚ) / rnd ((0 + s : ℕ) : ℚ)) = 1 := by
  have hS : (1 : ℚ) ≤ rnd s := by
    have := hr.mono 1 (s : ℚ) (by exact_mod_cast hs)
    rwa [hr.fixed _ (float_one he)] at this
  rw [Nat.zero_add, div_self (by linarith), hr.fixed _ (float_one he)]

theorem first_mean (hr : Spec.Rounding p emin rnd) {x : ℚ} (hx : Tree.Spec.Float p emin x) : rnd (0 + rnd (1 * rnd (x - 0))) = x := by
  simp [hr.fixed _ hx]

/-- A rounded number is bounded like the exact one. -/
theorem abs_rnd_le (hr : Spec.Rounding p emin rnd) {x C : ℚ} (hC : Tree.Spec.Float p emin C) (h : |x| ≤ C) : |rnd x| ≤ C := by
  rw [abs_le] at *
  constructor
  · have := hr.mono _ _ h.1; rwa [hr.fixed _ (float_neg hC)] at this
  · have := hr.mono _ _ h.2; rwa [hr.fixed _ hC] at this

theorem err_sub (hr : Spec.Rounding p emin rnd) {a b : ℚ} (ha : Tree.Spec.Float p emin a) (hb : Tree.Spec.Float p emin b) :
    |rnd (a - b) - (a - b)| ≤ Tree.Spec.eps p * |a - b| := by
  have := hr.err_add ha (float_neg hb)
  rwa [← sub_eq_add_neg] at this

theorem abs_mul_le {a b x y : ℚ} (h1 : |a| ≤ x) (h2 : |b| ≤ y) : |a * b| ≤ x * y := by
  rw [abs_mul]
  exact mul_le_mul h1 h2 (abs_nonneg _) ((abs_nonneg _).trans h1)

/-- The error of one update of the mean. -/
def Spec.meanErr (p : ℕ) (emin : ℤ) (B : ℚ) : ℚ := 15 * Tree.Spec.eps p * B + (2 + 4 * B) * 2 ^ emin

/-- The error of one update of the variance. -/
def Spec.varErr (p : ℕ) (emin : ℤ) (C : ℚ) : ℚ := 19 * Tree.Spec.eps p * C + (4 + 4 * C) * 2 ^ emin

theorem mean_err (hr : Spec.Rounding p emin rnd) (hp : 7 ≤ p) {m x B rate q : ℚ} (hm : Tree.Spec.Float p emin m) (hx : Tree.Spec.Float p emin x)
    (hB : Tree.Spec.Float p emin B) (hmB : |m| ≤ B) (hxB : |x| ≤ B) (r0 : 0 ≤ rate) (r1 : rate ≤ 1) (q0 : 0 ≤ q) (q1 : q ≤ 1)
    (hrq : |rate - q| ≤ 4 * Tree.Spec.eps p + 2 * 2 ^ emin) :
    |rnd (m + rnd (rate * rnd (x - m))) - (m + q * (x - m))| ≤ Spec.meanErr p emin B := by
  have hE := eps_pos (p := p)
  have hθ := pow_pos' emin
  unfold Spec.meanErr
  set ε := Tree.Spec.eps p
  set θ : ℚ := 2 ^ emin
  have hB0 : 0 ≤ B := (abs_nonneg _).trans hmB
  have hxm : |x - m| ≤ 2 * B := by rw [abs_le] at *; constructor <;> linarith [hmB.1, hmB.2, hxB.1, hxB.2]
  have d1 := abs_rnd_le hr (float_two hB) hxm
  have d2 : |rnd (x - m) - (x - m)| ≤ ε * (2 * B) := (err_sub hr hx hm).trans (mul_le_mul_of_nonneg_left hxm hE.le)
  set d := rnd (x - m)
  have hra : |rate| ≤ 1 := by rwa [abs_of_nonneg r0]
  have hqa : |q| ≤ 1 := by rwa [abs_of_nonneg q0]
  have hrd : |rate * d| ≤ 2 * B := by have := abs_mul_le hra d1; rwa [one_mul] at this
  have u1 := abs_rnd_le hr (float_two hB) hrd
  have u2 : |rnd (rate * d) - rate * d| ≤ ε * (2 * B) + 2 * θ := (hr.err (by omega) _).trans (by linarith [mul_le_mul_of_nonneg_left hrd hE.le])
  have uf := hr.float (rate * d)
  set u := rnd (rate * d)
  have hmu : |m + u| ≤ 3 * B := (abs_add_le _ _).trans (by linarith)
  have f := (hr.err_add hm uf).trans (mul_le_mul_of_nonneg_left hmu hE.le)
  have a1 : |(rate - q) * d| ≤ (4 * ε + 2 * θ) * (2 * B) := abs_mul_le hrq d1
  have a2 : |q * (d - (x - m))| ≤ 1 * (ε * (2 * B)) := abs_mul_le hqa d2
  have e : rnd (m + u) - (m + q * (x - m)) = (rnd (m + u) - (m + u)) + (u - rate * d) + (rate - q) * d + q * (d - (x - m)) := by ring
  rw [e]
  refine (abs_add_le _ _).trans ?_
  have g1 := abs_add_le ((rnd (m + u) - (m + u)) + (u - rate * d)) ((rate - q) * d)
  have g2 := abs_add_le (rnd (m + u) - (m + u)) (u - rate * d)
  linarith

theorem var_err (hr : Spec.Rounding p emin rnd) (hp : 7 ≤ p) {m x y v w B C rate q : ℚ} (hm : Tree.Spec.Float p emin m) (hx : Tree.Spec.Float p emin x)
    (hy : Tree.Spec.Float p emin y) (hv : Tree.Spec.Float p emin v) (hw : Tree.Spec.Float p emin w)
    (hB : Tree.Spec.Float p emin B) (hC : Tree.Spec.Float p emin C) (hmB : |m| ≤ B) (hxB : |x| ≤ B) (hyB : |y| ≤ B) (hv0 : 0 ≤ v) (hvC : v ≤ C)
    (hw0 : 0 ≤ w) (hwC : w ≤ C) (hBC : 4 * B ^ 2 ≤ C) (r0 : 0 ≤ rate) (r1 : rate ≤ 1) (q0 : 0 ≤ q) (q1 : q ≤ 1)
    (hrq : |rate - q| ≤ 4 * Tree.Spec.eps p + 2 * 2 ^ emin) :
    |rnd (v + rnd (rate * rnd (rnd (w - v) + rnd (rnd (x - m) * rnd (x - y))))) - (v + q * (w - v + (x - m) * (x - y)))| ≤
      Spec.varErr p emin C := by
  have hE := eps_pos (p := p)
  have hθ := pow_pos' emin
  unfold Spec.varErr
  set ε := Tree.Spec.eps p
  set θ : ℚ := 2 ^ emin
  have hB0 : 0 ≤ B := (abs_nonneg _).trans hmB
  have hxm : |x - m| ≤ 2 * B := by rw [abs_le] at *; constructor <;> linarith [hmB.1, hmB.2, hxB.1, hxB.2]
  have hxy : |x - y| ≤ 2 * B := by rw [abs_le] at *; constructor <;> linarith [hyB.1, hyB.2, hxB.1, hxB.2]
  have d1 := abs_rnd_le hr (float_two hB) hxm
  have d2 : |rnd (x - m) - (x - m)| ≤ ε * (2 * B) := (err_sub hr hx hm).trans (mul_le_mul_of_nonneg_left hxm hE.le)
  have f1 := abs_rnd_le hr (float_two hB) hxy
  have f2 : |rnd (x - y) - (x - y)| ≤ ε * (2 * B) := (err_sub hr hx hy).trans (mul_le_mul_of_nonneg_left hxy hE.le)
  set d := rnd (x - m)
  set f := rnd (x - y)
  have hdf : |d * f| ≤ C := (abs_mul_le d1 f1).trans (by linarith)
  have P1 := abs_rnd_le hr hC hdf
  have P2 : |rnd (d * f) - d * f| ≤ ε * C + 2 * θ := (hr.err (by omega) _).trans (by linarith [mul_le_mul_of_nonneg_left hdf hE.le])
  have P3 := hr.float (d * f)
  set P := rnd (d * f)
  have c1 : |(d - (x - m)) * f| ≤ ε * (2 * B) * (2 * B) := abs_mul_le d2 f1
  have c2 : |(x - m) * (f - (x - y))| ≤ 2 * B * (ε * (2 * B)) := abs_mul_le hxm f2
  have hBC' := mul_le_mul_of_nonneg_left hBC hE.le
  have P4 : |P - (x - m) * (x - y)| ≤ 3 * ε * C + 2 * θ := by
    have e : P - (x - m) * (x - y) = (P - d * f) + (d - (x - m)) * f + (x - m) * (f - (x - y)) := by ring
    rw [e]
    refine (abs_add_le _ _).trans ?_
    have := abs_add_le (P - d * f) ((d - (x - m)) * f)
    linarith
  have hwv : |w - v| ≤ C := by rw [abs_le]; constructor <;> linarith
  have A1 := abs_rnd_le hr hC hwv
  have A2 : |rnd (w - v) - (w - v)| ≤ ε * C := (err_sub hr hw hv).trans (mul_le_mul_of_nonneg_left hwv hE.le)
  have A3 := hr.float (w - v)
  set A := rnd (w - v)
  have hAP : |A + P| ≤ 2 * C := (abs_add_le _ _).trans (by linarith)
  have S1 := abs_rnd_le hr (float_two hC) hAP
  have S2 : |rnd (A + P) - (A + P)| ≤ ε * (2 * C) := (hr.err_add A3 P3).trans (mul_le_mul_of_nonneg_left hAP hE.le)
  set S := rnd (A + P)
  have hra : |rate| ≤ 1 := by rwa [abs_of_nonneg r0]
  have hqa : |q| ≤ 1 := by rwa [abs_of_nonneg q0]
  have hrS : |rate * S| ≤ 2 * C := by have := abs_mul_le hra S1; rwa [one_mul] at this
  have U1 := abs_rnd_le hr (float_two hC) hrS
  have U2 : |rnd (rate * S) - rate * S| ≤ ε * (2 * C) + 2 * θ := (hr.err (by omega) _).trans (by linarith [mul_le_mul_of_nonneg_left hrS hE.le])
  have U3 := hr.float (rate * S)
  set U := rnd (rate * S)
  have hvU : |v + U| ≤ 3 * C := (abs_add_le _ _).trans (by rw [abs_of_nonneg hv0]; linarith)
  have F := (hr.err_add hv U3).trans (mul_le_mul_of_nonneg_left hvU hE.le)
  have a1 : |(rate - q) * S| ≤ (4 * ε + 2 * θ) * (2 * C) := abs_mul_le hrq S1
  have hin : |S - (w - v + (x - m) * (x - y))| ≤ 6 * ε * C + 2 * θ := by
    have e : S - (w - v + (x - m) * (x - y)) = (S - (A + P)) + (A - (w - v)) + (P - (x - m) * (x - y)) := by ring
    rw [e]
    refine (abs_add_le _ _).trans ?_
    have := abs_add_le (S - (A + P)) (A - (w - v))
    linarith
  have a2 : |q * (S - (w - v + (x - m) * (x - y)))| ≤ 1 * (6 * ε * C + 2 * θ) := abs_mul_le hqa hin
  have e : rnd (v + U) - (v + q * (w - v + (x - m) * (x - y))) =
      (rnd (v + U) - (v + U)) + (U - rate * S) + (rate - q) * S + q * (S - (w - v + (x - m) * (x - y))) := by ring
  rw [e]
  refine (abs_add_le _ _).trans ?_
  have g1 := abs_add_le ((rnd (v + U) - (v + U)) + (U - rate * S)) ((rate - q) * S)
  have g2 := abs_add_le (rnd (v + U) - (v + U)) (U - rate * S)
  linarith

theorem mean_snoc {done : List Batch} {x : Batch} (h : 0 < Spec.total done) :
    Spec.mean (done ++ [x]) = Spec.mean done + x.size / (Spec.total done + x.size : ℕ) * (x.mean - Spec.mean done) := by
  have h1 : (0 : ℚ) < Spec.total done := by exact_mod_cast h
  have h2 : (Spec.total done : ℚ) + x.size ≠ 0 := by positivity
  unfold Spec.mean
  rw [total_append]
  simp only [List.map_append, List.sum_append, List.map_cons, List.map_nil, List.sum_cons, List.sum_nil, add_zero]
  have e : Spec.total [x] = x.size := by simp [Spec.total]
  rw [e]
  push_cast
  field_simp
  ring

theorem variance_snoc {done : List Batch} {x : Batch} (h : 0 < Spec.total done) :
    Spec.variance (done ++ [x]) = Spec.variance done + x.size / (Spec.total done + x.size : ℕ) *
      (x.var - Spec.variance done + (x.mean - Spec.mean done) * (x.mean - Spec.mean (done ++ [x]))) := by
  have h1 : (0 : ℚ) < Spec.total done := by exact_mod_cast h
  have h2 : (Spec.total done : ℚ) + x.size ≠ 0 := by positivity
  have e : Spec.total [x] = x.size := by simp [Spec.total]
  unfold Spec.variance
  rw [mean_snoc h, total_append, e]
  simp only [List.map_append, List.sum_append, List.map_cons, List.map_nil, List.sum_cons, List.sum_nil, add_zero]
  push_cast
  generalize Spec.mean done = M
  generalize (Spec.total done : ℚ) = T at *
  field_simp
  ring

theorem sum_bound {done : List Batch} {f : Batch → ℚ} {lo hi : ℚ} (h : ∀ x ∈ done, lo ≤ f x ∧ f x ≤ hi) :
    lo * Spec.total done ≤ (done.map fun x => (x.size : ℚ) * f x).sum ∧ (done.map fun x => (x.size : ℚ) * f x).sum ≤ hi * Spec.total done := by
  induction done with
  | nil => simp [Spec.total]
  | cons y ys ih =>
    obtain ⟨h1, h2⟩ := ih fun x hx => h x (by simp [hx])
    obtain ⟨h3, h4⟩ := h y (by simp)
    have hs : (0 : ℚ) ≤ y.size := by positivity
    have e : (Spec.total (y :: ys) : ℚ) = y.size + Spec.total ys := by simp [Spec.total]
    rw [e, List.map_cons, List.sum_cons]
    constructor <;> nlinarith

theorem mean_bound {done : List Batch} {B : ℚ} (h : 0 < Spec.total done) (hb : ∀ x ∈ done, |x.mean| ≤ B) : |Spec.mean done| ≤ B := by
  have h1 : (0 : ℚ) < Spec.total done := by exact_mod_cast h
  obtain ⟨a, b⟩ := sum_bound (f := Batch.mean) (lo := -B) (hi := B) fun x hx => abs_le.1 (hb x hx)
  unfold Spec.mean
  rw [abs_le, le_div_iff₀ h1, div_le_iff₀ h1]
  exact ⟨a, b⟩

theorem variance_bound {done : List Batch} {B V : ℚ} (h : 0 < Spec.total done) (hb : ∀ x ∈ done, |x.mean| ≤ B) (hV : ∀ x ∈ done, 0 ≤ x.var ∧ x.var ≤ V) :
    Spec.variance done ≤ V + B ^ 2 := by
  have h1 : (0 : ℚ) < Spec.total done := by exact_mod_cast h
  obtain ⟨a, b⟩ := sum_bound (done := done) (f := fun x => x.var + x.mean ^ 2) (lo := 0) (hi := V + B ^ 2) fun x hx => by
    have := sq_le_sq' (abs_le.1 (hb x hx)).1 (abs_le.1 (hb x hx)).2
    have h2 := hV x hx
    constructor
    · have := sq_nonneg x.mean; linarith
    · linarith
  have : (done.map fun x => (x.size : ℚ) * (x.var + x.mean ^ 2)).sum / Spec.total done ≤ V + B ^ 2 := by rw [div_le_iff₀ h1]; exact b
  unfold Spec.variance
  have := sq_nonneg (Spec.mean done)
  linarith

/-! ## C141 -/

/-- **C141 (range, partial).** With any correct rounding of at least 7 bits, for any history of batches in which no batch but the first is more
than `1 / (8 eps)` times (a million times in single precision) as large as all before it together: the assertions hold, the count is the number
of values learnt from, the variance is never negative, and the mean lies between any bounds of the means of the batches.

What is missing: larger batches (`normalizer_negative`). -/
theorem normalizer_range_partial (hr : Spec.Rounding p emin rnd) (hp : 7 ≤ p) (he : emin ≤ -p) (until_ : Option ℕ) (xs : List Batch)
    (hx : ∀ x ∈ Spec.learnt until_ 0 xs, Spec.Valid p emin x) (hK : Spec.Moderate (1 / (8 * Tree.Spec.eps p)) 0 (Spec.learnt until_ 0 xs))
    (hc : (Spec.total (Spec.learnt until_ 0 xs) : ℚ) ≤ 2 ^ (-emin)) :
    ∃ st, fexperiences rnd until_ Norm.init xs = some st ∧ st.count = Spec.total (Spec.learnt until_ 0 xs) ∧ 0 ≤ st.var ∧
      (Spec.learnt until_ 0 xs ≠ [] → ∀ lo hi, (∀ x ∈ Spec.learnt until_ 0 xs, lo ≤ x.mean ∧ x.mean ≤ hi) → lo ≤ st.mean ∧ st.mean ≤ hi) := by
  have hE := eps_pos (p := p)
  have key := fexperiences_induct (rnd := rnd) (fun st done => Tree.Spec.Float p emin st.mean ∧ Tree.Spec.Float p emin st.var ∧ 0 ≤ st.var ∧
      (st.count = 0 → done = [] ∧ st.mean = 0) ∧ (done ≠ [] → ∀ lo hi, (∀ x ∈ done, lo ≤ x.mean ∧ x.mean ≤ hi) → lo ≤ st.mean ∧ st.mean ≤ hi))
    until_ (Spec.learnt until_ 0 xs) ?_ xs Norm.init [] rfl rfl ⟨float_zero, float_one (by omega), zero_le_one, fun _ => ⟨rfl, rfl⟩, fun h => absurd rfl h⟩
  · obtain ⟨st, h1, h2, h3⟩ := key
    exact ⟨st, h1, h2, h3.2.2.1, h3.2.2.2.2⟩
  · intro st done x tail hall ⟨p1, p2, p3, p4, p5⟩ hcount hu hs
    have hvx := hx x (by rw [← hall]; simp)
    rw [← hall] at hK hc
    have hsz : (st.count + x.size : ℕ) ≤ (2 : ℚ) ^ (-emin) := by
      refine le_trans ?_ hc
      rw [hcount]
      exact_mod_cast total_le
    have hrate : (x.size : ℚ) * (8 * Tree.Spec.eps p) ≤ st.count ∨ st.mean = 0 := by
      rcases moderate_split done hK with h | h
      · exact Or.inr (p4 (by omega)).2
      · left
        rw [Nat.zero_add, ← hcount, div_mul_eq_mul_div, le_div_iff₀ (by positivity), one_mul] at h
        exact h
    obtain ⟨rate, hrv, hR, hres⟩ := fexperience_step hr hp he hu hs hsz hrate
    refine ⟨_, hres, rfl, hr.float _, hr.float _, var_nonneg hr p1 hvx.1 p2 p3 hvx.2.2 hR, fun h => absurd h (by simp only; omega),
      fun _ lo hi hb => ?_⟩
    simp only
    have hbx := hb x (by simp)
    by_cases h0 : st.count = 0
    · rw [h0, first_rate hr (by omega) hs] at hrv
      rw [hrv, (p4 h0).2, first_mean hr hvx.1]
      exact hbx
    · have hne : done ≠ [] := by
        rintro rfl
        exact h0 hcount
      have hold := p5 hne lo hi fun y hy => hb y (by simp [hy])
      obtain ⟨b1, b2⟩ := mean_between hr p1 hvx.1 hR
      rcases le_total st.mean x.mean with h | h
      · obtain ⟨c1, c2⟩ := b1 h
        constructor <;> linarith [hold.1, hold.2, hbx.1, hbx.2]
      · obtain ⟨c1, c2⟩ := b2 h
        constructor <;> linarith [hold.1, hold.2, hbx.1, hbx.2]

/-- **C141 (accuracy, partial).** In the setting of `normalizer_range_partial`, if the means of the batches are bounded by `B` and their variances
by `V`: after `k` batches the running mean and the running variance differ from the exact mean and variance of everything learnt by at most `k`
times some units of rounding.  `C` is any bound of the running variance: `V + B ^ 2` and the error.

What is missing: a bound that does not grow with the number of batches (`normalizer_stuck`). -/
theorem normalizer_accuracy_partial (hr : Spec.Rounding p emin rnd) (hp : 7 ≤ p) (he : emin ≤ -p) (until_ : Option ℕ) (xs : List Batch)
    (hx : ∀ x ∈ Spec.learnt until_ 0 xs, Spec.Valid p emin x) (hK : Spec.Moderate (1 / (8 * Tree.Spec.eps p)) 0 (Spec.learnt until_ 0 xs))
    (hc : (Spec.total (Spec.learnt until_ 0 xs) : ℚ) ≤ 2 ^ (-emin)) {B V C : ℚ} (hB : Tree.Spec.Float p emin B) (hC : Tree.Spec.Float p emin C)
    (hb : ∀ x ∈ Spec.learnt until_ 0 xs, |x.mean| ≤ B ∧ x.var ≤ V) (hBC : 4 * B ^ 2 ≤ C) (hC1 : 1 ≤ C)
    (hVC : V + B ^ 2 + (Spec.learnt until_ 0 xs).length * (4 * B * Spec.meanErr p emin B + Spec.varErr p emin C) ≤ C) :
    ∃ st, fexperiences rnd until_ Norm.init xs = some st ∧ (Spec.learnt until_ 0 xs ≠ [] →
      |st.mean - Spec.mean (Spec.learnt until_ 0 xs)| ≤ (Spec.learnt until_ 0 xs).length * Spec.meanErr p emin B ∧
      |st.var - Spec.variance (Spec.learnt until_ 0 xs)| ≤
        (Spec.learnt until_ 0 xs).length * (4 * B * Spec.meanErr p emin B + Spec.varErr p emin C)) := by
  have hE := eps_pos (p := p)
  have hθ := pow_pos' emin
  generalize hall' : Spec.learnt until_ 0 xs = all at *
  by_cases hnil : all = []
  · obtain ⟨st, h1, _⟩ := normalizer_range_partial hr hp he until_ xs (by rwa [hall']) (by rwa [hall']) (by rwa [hall'])
    exact ⟨st, h1, fun h => absurd hnil h⟩
  have hB0 : 0 ≤ B := by
    obtain ⟨x, hx'⟩ := List.exists_mem_of_ne_nil _ hnil
    exact (abs_nonneg _).trans (hb x hx').1
  have hδ : 0 ≤ Spec.meanErr p emin B := by unfold Spec.meanErr; positivity
  have hρ : 0 ≤ Spec.varErr p emin C := by unfold Spec.varErr; positivity
  have hρ3 : 3 * Tree.Spec.eps p * C ≤ Spec.varErr p emin C := by
    unfold Spec.varErr
    have : 0 ≤ (4 + 4 * C) * 2 ^ emin := by positivity
    have : 0 ≤ Tree.Spec.eps p * C := by positivity
    linarith
  set δ := Spec.meanErr p emin B
  set ρ := Spec.varErr p emin C
  have key := fexperiences_induct (rnd := rnd) (fun st done => Tree.Spec.Float p emin st.mean ∧ Tree.Spec.Float p emin st.var ∧ 0 ≤ st.var ∧
      (st.count = 0 → st = Norm.init) ∧ (done ≠ [] → 0 < st.count ∧ |st.mean| ≤ B ∧
        |st.mean - Spec.mean done| ≤ done.length * δ ∧ |st.var - Spec.variance done| ≤ done.length * (4 * B * δ + ρ)))
    until_ all ?_ xs Norm.init [] hall' rfl ⟨float_zero, float_one (by omega), zero_le_one, fun _ => rfl, fun h => absurd rfl h⟩
  · obtain ⟨st, h1, h2, h3⟩ := key
    exact ⟨st, h1, fun h => (h3.2.2.2.2 h).2.2⟩
  · intro st done x tail hall ⟨p1, p2, p3, p4, p5⟩ hcount hu hs
    have hxm : x ∈ all := by rw [← hall]; simp
    have hvx := hx x hxm
    obtain ⟨hxB, hxV⟩ := hb x hxm
    have hlen : ((done.length : ℚ) + 1) * (4 * B * δ + ρ) ≤ all.length * (4 * B * δ + ρ) := by
      refine mul_le_mul_of_nonneg_right ?_ (by positivity)
      rw [← hall]
      simp
    have hxC : x.var ≤ C := by
      have : 0 ≤ ((done.length : ℚ) + 1) * (4 * B * δ + ρ) := by positivity
      nlinarith [sq_nonneg B]
    have hsz : (st.count + x.size : ℕ) ≤ (2 : ℚ) ^ (-emin) := by
      refine le_trans ?_ hc
      rw [hcount, ← hall]
      exact_mod_cast total_le
    have hrate : (x.size : ℚ) * (8 * Tree.Spec.eps p) ≤ st.count ∨ st.mean = 0 := by
      rw [← hall] at hK
      rcases moderate_split done hK with h | h
      · exact Or.inr (by rw [p4 (by omega)]; rfl)
      · left
        rw [Nat.zero_add, ← hcount, div_mul_eq_mul_div, le_div_iff₀ (by positivity), one_mul] at h
        exact h
    obtain ⟨rate, hrv, hR, hres⟩ := fexperience_step hr hp he hu hs hsz hrate
    obtain ⟨_, _, _, hrq⟩ := rate_spec hr hp he hs hsz
    rw [← hrv] at hrq
    refine ⟨_, hres, rfl, hr.float _, hr.float _, var_nonneg hr p1 hvx.1 p2 p3 hvx.2.2 hR, fun h => absurd h (by simp only; omega),
      fun _ => ⟨by simp only; omega, ?_⟩⟩
    simp only [List.length_append, List.length_cons, List.length_nil]
    by_cases h0 : st.count = 0
    · have hd : done = [] := by
        by_contra h
        exact absurd (p5 h).1 (by omega)
      subst hd
      have hst := p4 h0
      subst hst
      have hr1 : rate = 1 := by rw [hrv]; exact first_rate hr (by omega) hs
      subst hr1
      have hs' : (x.size : ℚ) ≠ 0 := by exact_mod_cast hs.ne'
      have hsm : Spec.mean [x] = x.mean := by simp [Spec.mean, Spec.total]; field_simp
      have hsv : Spec.variance [x] = x.var := by
        unfold Spec.variance
        rw [hsm]
        simp [Spec.total]
        field_simp
        ring
      have hmn : rnd (Norm.init.mean + rnd (1 * rnd (x.mean - Norm.init.mean))) = x.mean := first_mean hr hvx.1
      rw [hmn]
      refine ⟨hxB, ?_, ?_⟩
      · simp [hsm, hδ]
      · have e1 : Norm.init.var = 1 := rfl
        rw [List.nil_append, hsv, e1, sub_self, hr.zero, mul_zero, hr.zero, add_zero, hr.fixed _ (hr.float _), one_mul, hr.fixed _ (hr.float _)]
        have a1 : |x.var - 1| ≤ C := by rw [abs_le]; constructor <;> linarith [hvx.2.2]
        have a2 := (err_sub hr hvx.2.1 (float_one (by omega : emin ≤ 0))).trans (mul_le_mul_of_nonneg_left a1 hE.le)
        have a3 := abs_rnd_le hr hC a1
        have a4 := hr.err_add (float_one (by omega : emin ≤ 0)) (hr.float (x.var - 1))
        have a5 : |1 + rnd (x.var - 1)| ≤ 2 * C := (abs_add_le _ _).trans (by rw [abs_one]; linarith)
        have a6 := a4.trans (mul_le_mul_of_nonneg_left a5 hE.le)
        have a7 : |1 + rnd (x.var - 1) - x.var| ≤ Tree.Spec.eps p * C := by
          have e : 1 + rnd (x.var - 1) - x.var = rnd (x.var - 1) - (x.var - 1) := by ring
          rwa [e]
        have a8 := abs_tri a6 a7
        have : 0 ≤ B * δ := by positivity
        simp only [List.length_nil]
        push_cast
        linarith
    · have hne : done ≠ [] := by
        rintro rfl
        exact h0 hcount
      obtain ⟨_, hmB, hem, hev⟩ := p5 hne
      have hcp : 0 < Spec.total done := by omega
      have hbd : ∀ y ∈ done, |y.mean| ≤ B := fun y hy => (hb y (by rw [← hall]; simp [hy])).1
      have hvd : ∀ y ∈ done, 0 ≤ y.var ∧ y.var ≤ V := fun y hy =>
        ⟨(hx y (by rw [← hall]; simp [hy])).2.2, (hb y (by rw [← hall]; simp [hy])).2⟩
      have hMB := mean_bound hcp hbd
      have hM'B : |Spec.mean (done ++ [x])| ≤ B := mean_bound (by rw [total_append]; omega) fun y hy => by
        rcases List.mem_append.1 hy with h | h
        · exact hbd y h
        · rw [List.mem_singleton.1 h]; exact hxB
      have hVB := variance_bound hcp hbd hvd
      have hvC : st.var ≤ C := by
        have := (abs_le.1 hev).2
        have h2 : 0 ≤ 4 * B * δ + ρ := by positivity
        nlinarith
      obtain ⟨r0, r1, _⟩ := id hR
      rw [hcount] at hrq
      have hmr := mean_snoc (x := x) hcp
      have hvr := variance_snoc (x := x) hcp
      have q0 : (0 : ℚ) ≤ x.size / (Spec.total done + x.size : ℕ) := by positivity
      have q1 : (x.size : ℚ) / (Spec.total done + x.size : ℕ) ≤ 1 := by
        rw [div_le_one (by positivity)]
        push_cast
        have : (0 : ℚ) ≤ Spec.total done := by positivity
        linarith
      set q : ℚ := (x.size : ℚ) / (Spec.total done + x.size : ℕ)
      have hm' : |rnd (st.mean + rnd (rate * rnd (x.mean - st.mean)))| ≤ B := by
        obtain ⟨b1, b2⟩ := mean_between hr p1 hvx.1 hR
        rw [abs_le] at hmB hxB ⊢
        rcases le_total st.mean x.mean with h | h
        · obtain ⟨c1, c2⟩ := b1 h
          constructor <;> linarith [hmB.1, hmB.2, hxB.1, hxB.2]
        · obtain ⟨c1, c2⟩ := b2 h
          constructor <;> linarith [hmB.1, hmB.2, hxB.1, hxB.2]
      have E1 := mean_err hr hp p1 hvx.1 hB hmB hxB r0 r1 q0 q1 hrq
      have hmf := hr.float (st.mean + rnd (rate * rnd (x.mean - st.mean)))
      set m' := rnd (st.mean + rnd (rate * rnd (x.mean - st.mean)))
      have E2 := var_err hr hp p1 hvx.1 hmf p2 hvx.2.1 hB hC hmB hxB hm' p3 hvC hvx.2.2 hxC hBC r0 r1 q0 q1 hrq
      set v' := rnd (st.var + rnd (rate * rnd (rnd (x.var - st.var) + rnd (rnd (x.mean - st.mean) * rnd (x.mean - m')))))
      have k0 : (0 : ℚ) ≤ done.length := by positivity
      have D1 : |m' - Spec.mean (done ++ [x])| ≤ ((done.length : ℚ) + 1) * δ := by
        have e : m' - Spec.mean (done ++ [x]) = (m' - (st.mean + q * (x.mean - st.mean))) + (1 - q) * (st.mean - Spec.mean done) := by
          rw [hmr]; ring
        rw [e]
        refine (abs_add_le _ _).trans ?_
        have : |(1 - q) * (st.mean - Spec.mean done)| ≤ 1 * (done.length * δ) := abs_mul_le (by rw [abs_of_nonneg (by linarith)]; linarith) hem
        linarith
      refine ⟨hm', by push_cast; linarith [D1], ?_⟩
      have G1 : |(Spec.mean done - st.mean) * (x.mean - m')| ≤ done.length * δ * (2 * B) := by
        refine abs_mul_le (by rwa [abs_sub_comm]) ?_
        have := abs_sub x.mean m'
        linarith
      have G2 : |(x.mean - Spec.mean done) * (Spec.mean (done ++ [x]) - m')| ≤ 2 * B * (((done.length : ℚ) + 1) * δ) := by
        refine abs_mul_le ?_ (by rwa [abs_sub_comm])
        have := abs_sub x.mean (Spec.mean done)
        linarith
      have e : v' - Spec.variance (done ++ [x]) = (v' - (st.var + q * (x.var - st.var + (x.mean - st.mean) * (x.mean - m')))) +
          (1 - q) * (st.var - Spec.variance done) +
          q * ((Spec.mean done - st.mean) * (x.mean - m') + (x.mean - Spec.mean done) * (Spec.mean (done ++ [x]) - m')) := by
        rw [hvr]; ring
      rw [e]
      refine (abs_add_le _ _).trans ?_
      have g := abs_add_le (v' - (st.var + q * (x.var - st.var + (x.mean - st.mean) * (x.mean - m')))) ((1 - q) * (st.var - Spec.variance done))
      have G3 : |(1 - q) * (st.var - Spec.variance done)| ≤ (1 - q) * (done.length * (4 * B * δ + ρ)) := by
        rw [abs_mul, abs_of_nonneg (by linarith)]
        exact mul_le_mul_of_nonneg_left hev (by linarith)
      have G4 : |q * ((Spec.mean done - st.mean) * (x.mean - m') + (x.mean - Spec.mean done) * (Spec.mean (done ++ [x]) - m'))| ≤
          q * (done.length * δ * (2 * B) + 2 * B * (((done.length : ℚ) + 1) * δ)) := by
        rw [abs_mul, abs_of_nonneg q0]
        exact mul_le_mul_of_nonneg_left ((abs_add_le _ _).trans (add_le_add G1 G2)) q0
      have h1 : 0 ≤ q * (done.length * ρ) := by positivity
      have h2 : q * (2 * B * δ) ≤ 1 * (2 * B * δ) := mul_le_mul_of_nonneg_right q1 (by positivity)
      have h3 : 0 ≤ B * δ := by positivity
      push_cast
      linarith

/-! ## Limits -/

/-- Single precision: after one value 1 and a batch of 33554432 values with mean `2 ^ -30`, the mean is 0, less than every value, and the variance
is negative, so that `std` is not a number. -/
theorem normalizer_negative :
    fexperiences f32 none Norm.init [⟨1, 1, 0⟩, ⟨33554432, 1 / 2 ^ 30, 0⟩] = some ⟨0, -(1 / 2 ^ 30), 33554433⟩ := by decide +kernel

/-- Single precision: a first batch with the standard deviation `2 ^ -15` leaves the variance 0. -/
theorem normalizer_lost : fexperiences f32 none Norm.init [⟨1000, 0, 1 / 2 ^ 30⟩] = some ⟨0, 0, 1000⟩ := by decide +kernel

/-- Single precision: after 33554432 values with mean 1, values of 2 do not move the mean at all, however many come. -/
theorem normalizer_stuck (n : ℕ) (hn : n ≤ 2 ^ 100) :
    (∃ st, fexperiences f32 none Norm.init (⟨16777216, 1, 0⟩ :: ⟨16777216, 1, 0⟩ :: List.replicate n ⟨1, 2, 0⟩) = some st ∧ st.mean = 1) ∧
    Spec.mean (⟨16777216, 1, 0⟩ :: ⟨16777216, 1, 0⟩ :: List.replicate n ⟨1, 2, 0⟩) = (33554432 + 2 * n) / (33554432 + n) := by
  have hr : Spec.Rounding 24 (-149) f32 := rne_rounding (by norm_num)
  constructor
  · have h1 : fexperience f32 none Norm.init ⟨16777216, 1, 0⟩ = some ⟨1, 0, 16777216⟩ := by decide +kernel
    have h2 : fexperience f32 none ⟨1, 0, 16777216⟩ ⟨16777216, 1, 0⟩ = some ⟨1, 0, 33554432⟩ := by decide +kernel
    rw [fexperiences, h1, Option.bind_some, fexperiences, h2, Option.bind_some]
    have main : ∀ (n c : ℕ) (v : ℚ), 33554432 ≤ c → c + n ≤ 2 ^ 101 →
        ∃ st, fexperiences f32 none ⟨1, v, c⟩ (List.replicate n ⟨1, 2, 0⟩) = some st ∧ st.mean = 1 := by
      intro n
      induction n with
      | zero => intro c v _ _; exact ⟨_, rfl, rfl⟩
      | succ n ih =>
        intro c v hc hcn
        have hc' : (33554432 : ℚ) ≤ c := by exact_mod_cast hc
        obtain ⟨rate, hrv, hR, hres⟩ := fexperience_step (rnd := f32) (until_ := none) (st := ⟨1, v, c⟩) (x := ⟨1, 2, 0⟩) hr (by norm_num) (by norm_num)
          (by simp) (by norm_num)
          (by
            have h : c + 1 ≤ 2 ^ 101 := by omega
            calc ((c + 1 : ℕ) : ℚ) ≤ ((2 ^ 101 : ℕ) : ℚ) := by exact_mod_cast h
              _ ≤ _ := by norm_num)
          (Or.inl (by
            have : ((1 : ℕ) : ℚ) * (8 * Tree.Spec.eps 24) ≤ 1 := by unfold Tree.Spec.eps; norm_num
            exact this.trans (by simp only; linarith)))
        rw [List.replicate_succ, fexperiences, hres, Option.bind_some]
        have hone : f32 1 = 1 := by decide +kernel
        have hd : f32 (2 - 1) = 1 := by decide +kernel
        have hrate : rate ≤ 1 / 33554432 := by
          rw [hrv]
          have hN : (33554432 : ℚ) ≤ f32 ((c + 1 : ℕ) : ℚ) := by
            have h3 := hr.mono (33554432 : ℚ) ((c + 1 : ℕ) : ℚ) (by push_cast; linarith)
            have h4 : f32 33554432 = 33554432 := by decide +kernel
            rwa [h4] at h3
          have h5 : f32 ((1 : ℕ) : ℚ) / f32 ((c + 1 : ℕ) : ℚ) ≤ 1 / 33554432 := by
            rw [Nat.cast_one, hone, div_le_div_iff₀ (by linarith) (by norm_num)]
            linarith
          have h6 := hr.mono _ _ h5
          have h7 : f32 (1 / 33554432) = 1 / 33554432 := by decide +kernel
          rwa [h7] at h6
        have hmean : f32 (1 + f32 (rate * f32 (2 - 1))) = 1 := by
          rw [hd, mul_one]
          have h8 : f32 rate ≤ 1 / 33554432 := by
            have h6 := hr.mono _ _ hrate
            have h7 : f32 (1 / 33554432) = 1 / 33554432 := by decide +kernel
            rwa [h7] at h6
          have h9 : 0 ≤ f32 rate := by have := hr.mono _ _ hR.1; rwa [hr.zero] at this
          have h10 := hr.mono (1 + f32 rate) (1 + 1 / 33554432) (by linarith)
          have h11 : f32 (1 + 1 / 33554432) = 1 := by decide +kernel
          rw [h11] at h10
          have h12 := hr.mono 1 (1 + f32 rate) (by linarith)
          rw [hone] at h12
          exact le_antisymm h10 h12
        simp only [hmean]
        exact ih (c + 1) _ (by omega) (by omega)
    exact main n _ _ le_rfl (by
      have : (33554432 : ℕ) ≤ 2 ^ 100 := by norm_num
      have : (2 : ℕ) ^ 101 = 2 ^ 100 + 2 ^ 100 := by norm_num
      omega)
  · simp [Spec.mean, Spec.total]
    ring_nf

/-! ## Non-vacuity -/

/-- Single precision, a thousand batches of 32 values with means in `[-1, 1]` and variances of at most 1: the mean is exact up to 0.002 and the
variance up to 0.02. -/
example (xs : List Batch) (hlen : xs.length ≤ 1000) (hs : ∀ x ∈ xs, x.size = 32) (hx : ∀ x ∈ xs, Spec.Valid 24 (-149) x)
    (hb : ∀ x ∈ xs, |x.mean| ≤ 1 ∧ x.var ≤ 1) (hne : xs ≠ []) :
    ∃ st, fexperiences f32 none Norm.init xs = some st ∧ 0 ≤ st.var ∧ |st.mean| ≤ 1 ∧ |st.mean - Spec.mean xs| ≤ 2 / 1000 ∧
      |st.var - Spec.variance xs| ≤ 2 / 100 := by
  have hr : Spec.Rounding 24 (-149) f32 := rne_rounding (by norm_num)
  have hl : ∀ (xs : List Batch) (c : ℕ), (∀ x ∈ xs, x.size = 32) → Spec.learnt none c xs = xs := by
    intro xs
    induction xs with
    | nil => intro c _; rfl
    | cons y ys ih =>
      intro c h
      have := h y (by simp)
      rw [Spec.learnt, if_neg (by simp; omega), ih _ fun x hx => h x (by simp [hx])]
  have hmod : ∀ (xs : List Batch) (c : ℕ), (c = 0 ∨ 32 ≤ c) → (∀ x ∈ xs, x.size = 32) → Spec.Moderate (1 / (8 * Tree.Spec.eps 24)) c xs := by
    intro xs
    induction xs with
    | nil => intro c _ _; trivial
    | cons y ys ih =>
      intro c hc h
      have hy := h y (by simp)
      refine ⟨hc.imp id fun hc => ?_, ih _ (by omega) fun x hx => h x (by simp [hx])⟩
      rw [hy]
      have h1 : (1 : ℚ) ≤ 1 / (8 * Tree.Spec.eps 24) := by unfold Tree.Spec.eps; norm_num
      have h2 : (32 : ℚ) ≤ c := by exact_mod_cast hc
      push_cast
      nlinarith
  have htot : ∀ (xs : List Batch), (∀ x ∈ xs, x.size = 32) → Spec.total xs = 32 * xs.length := by
    intro xs
    induction xs with
    | nil => intro _; rfl
    | cons y ys ih =>
      intro h
      have hy := h y (by simp)
      have := ih fun x hx => h x (by simp [hx])
      simp [Spec.total] at this ⊢
      omega
  have hl' := hl xs 0 hs
  have hcnt : (Spec.total (Spec.learnt none 0 xs) : ℚ) ≤ 2 ^ (-(-149) : ℤ) := by
    rw [hl', htot xs hs]
    have : (xs.length : ℚ) ≤ 1000 := by exact_mod_cast hlen
    push_cast
    refine (by linarith : (32 : ℚ) * xs.length ≤ 32000).trans (by norm_num)
  have f4 : Tree.Spec.Float 24 (-149) 4 := ⟨4, 0, by norm_num, by norm_num, by norm_num⟩
  have hlenq : (xs.length : ℚ) ≤ 1000 := by exact_mod_cast hlen
  have hδ : Spec.meanErr 24 (-149) 1 ≤ 19 / 10000000 := by unfold Spec.meanErr Tree.Spec.eps; norm_num
  have hρ : 4 * 1 * Spec.meanErr 24 (-149) 1 + Spec.varErr 24 (-149) 4 ≤ 2 / 100000 := by unfold Spec.varErr Spec.meanErr Tree.Spec.eps; norm_num
  have hδ0 : 0 ≤ Spec.meanErr 24 (-149) 1 := by unfold Spec.meanErr Tree.Spec.eps; norm_num
  have hρ0 : 0 ≤ 4 * 1 * Spec.meanErr 24 (-149) 1 + Spec.varErr 24 (-149) 4 := by unfold Spec.varErr Spec.meanErr Tree.Spec.eps; norm_num
  have e1 : (xs.length : ℚ) * Spec.meanErr 24 (-149) 1 ≤ 1000 * (19 / 10000000) := mul_le_mul hlenq hδ hδ0 (by norm_num)
  have e2 : (xs.length : ℚ) * (4 * 1 * Spec.meanErr 24 (-149) 1 + Spec.varErr 24 (-149) 4) ≤ 1000 * (2 / 100000) := mul_le_mul hlenq hρ hρ0 (by norm_num)
  obtain ⟨st, h1, h2⟩ := normalizer_accuracy_partial hr (by norm_num) (by norm_num) none xs (by rwa [hl']) (by rw [hl']; exact hmod xs 0 (Or.inl rfl) hs)
    hcnt (B := 1) (V := 1) (C := 4) (float_one (by norm_num)) f4 (by rwa [hl']) (by norm_num) (by norm_num) (by rw [hl']; linarith)
  obtain ⟨st', g1, _, g2, g3⟩ := normalizer_range_partial hr (by norm_num) (by norm_num) none xs (by rwa [hl'])
    (by rw [hl']; exact hmod xs 0 (Or.inl rfl) hs) hcnt
  rw [h1] at g1
  cases g1
  rw [hl'] at h2 g3
  refine ⟨st, h1, g2, abs_le.2 (g3 hne (-1) 1 fun x hx => abs_le.1 (hb x hx).1), (h2 hne).1.trans (by linarith), (h2 hne).2.trans (by linarith)⟩

/-- Two batches of different sizes. -/
example : fexperiences f32 none Norm.init [⟨2, 1, 0⟩, ⟨0, 7, 7⟩, ⟨2, 2, 1⟩] = some ⟨3 / 2, 3 / 4, 4⟩ := by decide +kernel

/-- `until` stops learning. -/
example : fexperiences f32 (some 2) Norm.init [⟨2, 1, 0⟩, ⟨2, 2, 1⟩] = some ⟨1, 0, 2⟩ := by decide +kernel

/-- With the identity as rounding the update is the one of C56. -/
example (st : EmpNorm.St Unit) (m v : ℚ) (hm : st.mean () = m) (hv : st.var () = v) (x : List (Unit → ℝ)) (mx vx : ℚ) (hx : x ≠ [])
    (hmx : EmpNorm.batchMean x () = mx) (hvx : EmpNorm.batchVar x () = vx) :
    ∃ m' v' : ℚ, fexperience id none ⟨m, v, st.count⟩ ⟨x.length, mx, vx⟩ = some ⟨m', v', st.count + x.length⟩ ∧
      (EmpNorm.experience.learn st x).mean () = m' ∧ (EmpNorm.experience.learn st x).var () = v' := by
  have hl : 0 < x.length := List.length_pos_iff.2 hx
  have hl' : (0 : ℚ) < x.length := by exact_mod_cast hl
  have h1 : (x.length : ℚ) / ((st.count + x.length : ℕ) : ℚ) > 0 := by positivity
  have h2 : (x.length : ℚ) / ((st.count + x.length : ℕ) : ℚ) ≤ 1 := by
    rw [div_le_one (by positivity)]
    push_cast
    have : (0 : ℚ) ≤ st.count := by positivity
    linarith
  have hl2 : x.length ≠ 0 := by omega
  refine ⟨m + x.length / (st.count + x.length : ℕ) * (mx - m), v + x.length / (st.count + x.length : ℕ) *
    (vx - v + (mx - m) * (mx - (m + x.length / (st.count + x.length : ℕ) * (mx - m)))), ?_, ?_, ?_⟩
  · unfold fexperience
    simp only [Option.any_none, Bool.false_eq_true, if_false, id_eq]
    rw [if_neg hl2, if_neg (not_not.2 h1), if_neg (not_not.2 h2)]
  · unfold EmpNorm.experience.learn
    simp only [if_neg hl2, hm, hmx]
    push_cast
    ring
  · unfold EmpNorm.experience.learn
    simp only [if_neg hl2, hm, hv, hmx, hvx]
    push_cast
    ring

end Pfrl.Floats
