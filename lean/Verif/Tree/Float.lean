import Mathlib.Data.Int.Log
import Mathlib.Algebra.Order.Archimedean.Basic
import Mathlib.Algebra.Order.Floor.Ring
import Mathlib.Tactic.Linarith
import Mathlib.Tactic.Positivity
import Mathlib.Tactic.FieldSimp
import Mathlib.Tactic.NormNum
import Verif.Tree.Props

/-!
# The priority tree with floating point numbers (C137)

The priorities of a replay buffer are floating point numbers, whose sums and differences are rounded.  Here the model of the tree is run with
such numbers: any number of bits, subnormal numbers, and any way of rounding.  Overflow is left out: the sums stay in range.
-/

namespace Pfrl.Tree

/-! ## Model -/

/-- A floating point number with the value `val`; `rnd` rounds the results of its arithmetic. -/
structure Fl (rnd : ℚ → ℚ) where
  val : ℚ
  deriving DecidableEq

variable {rnd : ℚ → ℚ}

instance : Zero (Fl rnd) := ⟨⟨0⟩⟩
/-- Floating point addition. -/
instance : Add (Fl rnd) := ⟨fun a b => ⟨rnd (a.val + b.val)⟩⟩
/-- Floating point subtraction. -/
instance : Sub (Fl rnd) := ⟨fun a b => ⟨rnd (a.val - b.val)⟩⟩
instance : LT (Fl rnd) := ⟨fun a b => a.val < b.val⟩
instance : DecidableLT (Fl rnd) := fun a b => inferInstanceAs (Decidable (a.val < b.val))

/-- Round to an integer, ties to even. -/
def roundEven (q : ℚ) : ℤ :=
  if q - ⌊q⌋ < 1 / 2 then ⌊q⌋ else if 1 / 2 < q - ⌊q⌋ then ⌊q⌋ + 1 else if Even ⌊q⌋ then ⌊q⌋ else ⌊q⌋ + 1

/-- IEEE 754 rounding to nearest, ties to even, with `p` bits and smallest exponent `emin`, without overflow: Python's and numpy's `float`
has `p = 53` and `emin = -1074`. -/
def rne (p : ℕ) (emin : ℤ) (x : ℚ) : ℚ :=
  if x = 0 then 0
  else
    let e := max emin (Int.log 2 |x| - (p - 1))
    if 0 < x then roundEven (x / 2 ^ e) * 2 ^ e else -(roundEven (-x / 2 ^ e) * 2 ^ e)

/-- `np.random.uniform(0.0, hi)`, called at `pfrl/collections/prioritized.py:302`: `0.0 + hi * r`, where the generator returns `r = k / 2^p`
with `k < 2^p` (`p = 53`). -/
def npUniform (p : ℕ) (emin : ℤ) (k : ℕ) (hi : Fl (rne p emin)) : Fl (rne p emin) := ⟨rne p emin (0 + rne p emin (hi.val * (k / 2 ^ p)))⟩

/-! ## Specification -/

/-- The numbers that can be represented. -/
def Spec.Float (p : ℕ) (emin : ℤ) (x : ℚ) : Prop := ∃ m e : ℤ, emin ≤ e ∧ |m| ≤ 2 ^ p ∧ x = m * 2 ^ e

/-- Any correct rounding, here of numbers that are not negative: the result can be represented, what can be represented is not changed, and
larger numbers are not rounded to smaller ones. -/
structure Spec.Rounding (p : ℕ) (emin : ℤ) (rnd : ℚ → ℚ) : Prop where
  float : ∀ x, 0 ≤ x → Spec.Float p emin (rnd x)
  fixed : ∀ x, Spec.Float p emin x → rnd x = x
  mono : ∀ x y, 0 ≤ x → x ≤ y → rnd x ≤ rnd y

/-! ## Lemmas on rounding -/

variable {p : ℕ} {emin : ℤ}

theorem pow_pos' (e : ℤ) : (0 : ℚ) < 2 ^ e := zpow_pos (by norm_num) e

theorem roundEven_bounds (q : ℚ) : ⌊q⌋ ≤ roundEven q ∧ roundEven q ≤ ⌊q⌋ + 1 := by
  unfold roundEven
  split_ifs <;> omega

theorem roundEven_int (n : ℤ) : roundEven n = n := by
  unfold roundEven
  rw [Int.floor_intCast, sub_self, if_pos (by norm_num)]

theorem roundEven_mono {x y : ℚ} (h : x ≤ y) : roundEven x ≤ roundEven y := by
  have hf : ⌊x⌋ ≤ ⌊y⌋ := Int.floor_le_floor h
  rcases hf.lt_or_eq with hlt | heq
  · have h1 := (roundEven_bounds x).2
    have h2 := (roundEven_bounds y).1
    omega
  · unfold roundEven
    rw [heq]
    split_ifs <;> first | omega | (exfalso; linarith)

theorem roundEven_le {q : ℚ} {n : ℤ} (h : q ≤ n) : roundEven q ≤ n := roundEven_int n ▸ roundEven_mono h

theorem le_roundEven {q : ℚ} {n : ℤ} (h : (n : ℚ) ≤ q) : n ≤ roundEven q := by
  have := roundEven_mono h
  rwa [roundEven_int] at this

theorem rne_pos {x : ℚ} (hx : 0 < x) : rne p emin x
    = roundEven (x / 2 ^ max emin (Int.log 2 x - (p - 1))) * 2 ^ max emin (Int.log 2 x - (p - 1)) := by
  unfold rne
  rw [if_neg hx.ne', abs_of_pos hx, if_pos hx]

theorem log_bounds {x : ℚ} (hx : 0 < x) : (2 : ℚ) ^ Int.log 2 x ≤ x ∧ x < 2 ^ (Int.log 2 x + 1) := by
  have h1 := Int.zpow_log_le_self (b := 2) (by norm_num) hx
  have h2 := Int.lt_zpow_succ_log_self (b := 2) (by norm_num) x
  exact ⟨by exact_mod_cast h1, by exact_mod_cast h2⟩

theorem two_pow_split (a : ℕ) (e : ℤ) : (2 : ℚ) ^ ((a : ℤ) + e) = (2 : ℤ) ^ a * 2 ^ e := by
  rw [zpow_add₀ (by norm_num), zpow_natCast]
  push_cast
  rfl

/-- A scaled number is below `2 ^ p`. -/
theorem scaled_lt {x : ℚ} (hx : 0 < x) : x / 2 ^ max emin (Int.log 2 x - (p - 1)) ≤ ((2 ^ p : ℤ) : ℚ) := by
  rw [div_le_iff₀ (pow_pos' _), Int.cast_pow, Int.cast_ofNat, ← zpow_natCast, ← zpow_add₀ (by norm_num)]
  refine (log_bounds hx).2.le.trans (zpow_le_zpow_right₀ (by norm_num) ?_)
  have := le_max_right emin (Int.log 2 x - (p - 1))
  omega

theorem rne_rounding (hp : 1 ≤ p) : Spec.Rounding p emin (rne p emin) where
  float x hx := by
    rcases hx.lt_or_eq with hx | rfl
    · refine ⟨roundEven (x / 2 ^ max emin (Int.log 2 x - (p - 1))), max emin (Int.log 2 x - (p - 1)), le_max_left _ _, ?_, rne_pos hx⟩
      rw [abs_of_nonneg (le_roundEven (by have := pow_pos' (max emin (Int.log 2 x - (p - 1))); push_cast; positivity))]
      exact roundEven_le (scaled_lt hx)
    · exact ⟨0, emin, le_rfl, by simp, by simp [rne]⟩
  fixed x hx := by
    have key : ∀ x : ℚ, 0 < x → Spec.Float p emin x →
        roundEven (x / 2 ^ max emin (Int.log 2 x - (p - 1))) * 2 ^ max emin (Int.log 2 x - (p - 1)) = x := by
      rintro x hx ⟨m, e, he, hm, rfl⟩
      set E := max emin (Int.log 2 ((m : ℚ) * 2 ^ e) - (p - 1)) with hE
      have hint : ∃ k : ℤ, (m : ℚ) * 2 ^ e = k * 2 ^ E := by
        by_cases h : E ≤ e
        · refine ⟨m * 2 ^ (e - E).toNat, ?_⟩
          push_cast
          rw [← zpow_natCast, Int.toNat_of_nonneg (by omega), mul_assoc, ← zpow_add₀ (by norm_num), sub_add_cancel]
        · have hEl : E = Int.log 2 ((m : ℚ) * 2 ^ e) - (p - 1) := by
            rcases max_choice emin (Int.log 2 ((m : ℚ) * 2 ^ e) - (p - 1)) with h' | h' <;> omega
          have hb := log_bounds hx
          have hle : (m : ℚ) * 2 ^ e ≤ 2 ^ ((p : ℤ) + e) := by
            rw [two_pow_split]
            refine mul_le_mul_of_nonneg_right ?_ (pow_pos' e).le
            exact_mod_cast (le_abs_self m).trans hm
          have h3 : Int.log 2 ((m : ℚ) * 2 ^ e) ≤ (p : ℤ) + e := by
            by_contra hc
            have := zpow_le_zpow_right₀ (show (1 : ℚ) ≤ 2 by norm_num) (show (p : ℤ) + e + 1 ≤ Int.log 2 ((m : ℚ) * 2 ^ e) by omega)
            have h4 : (2 : ℚ) ^ ((p : ℤ) + e) < 2 ^ ((p : ℤ) + e + 1) := zpow_lt_zpow_right₀ (by norm_num) (by omega)
            linarith [hb.1]
          have h5 : Int.log 2 ((m : ℚ) * 2 ^ e) = (p : ℤ) + e := by omega
          refine ⟨2 ^ (p - 1), ?_⟩
          rw [h5] at hb
          have h6 : (m : ℚ) * 2 ^ e = 2 ^ ((p : ℤ) + e) := le_antisymm hle hb.1
          rw [h6, Int.cast_pow, Int.cast_ofNat, ← zpow_natCast, ← zpow_add₀ (by norm_num)]
          congr 1
          omega
      obtain ⟨k, hk⟩ := hint
      rw [hk, mul_div_cancel_right₀ _ (pow_pos' E).ne', roundEven_int]
    rcases lt_trichotomy x 0 with h | h | h
    · obtain ⟨m, e, he, hm, rfl⟩ := hx
      have hf : Spec.Float p emin (-((m : ℚ) * 2 ^ e)) := ⟨-m, e, he, by rwa [abs_neg], by push_cast; ring⟩
      have := key _ (neg_pos.2 h) hf
      unfold rne
      rw [if_neg h.ne, abs_of_neg h, if_neg (not_lt.2 h.le)]
      rw [this, neg_neg]
    · rw [h]; simp [rne]
    · rw [rne_pos h]; exact key x h hx
  mono x y hx hxy := by
    rcases hx.lt_or_eq with hx | rfl
    · have hy := hx.trans_le hxy
      rw [rne_pos hx, rne_pos hy]
      have hlog : Int.log 2 x ≤ Int.log 2 y := Int.log_mono_right hx hxy
      set ex := max emin (Int.log 2 x - (p - 1)) with hex
      set ey := max emin (Int.log 2 y - (p - 1)) with hey
      have hle : ex ≤ ey := max_le_max le_rfl (by omega)
      rcases hle.lt_or_eq with hlt | heq
      · have hEl : ey = Int.log 2 y - (p - 1) := by
          have := le_max_left emin (Int.log 2 x - (p - 1))
          rcases max_choice emin (Int.log 2 y - (p - 1)) with h' | h' <;> omega
        have h1 : (roundEven (x / 2 ^ ex) : ℚ) * 2 ^ ex ≤ 2 ^ ((p : ℤ) + ex) := by
          rw [two_pow_split]
          refine mul_le_mul_of_nonneg_right ?_ (pow_pos' ex).le
          exact_mod_cast roundEven_le (scaled_lt hx)
        have h2 : (2 : ℚ) ^ (((p - 1 : ℕ) : ℤ) + ey) ≤ roundEven (y / 2 ^ ey) * 2 ^ ey := by
          rw [two_pow_split]
          refine mul_le_mul_of_nonneg_right ?_ (pow_pos' ey).le
          have h3 : ((2 ^ (p - 1) : ℤ) : ℚ) ≤ y / 2 ^ ey := by
            rw [le_div_iff₀ (pow_pos' _), Int.cast_pow, Int.cast_ofNat, ← zpow_natCast, ← zpow_add₀ (by norm_num)]
            refine le_trans (zpow_le_zpow_right₀ (by norm_num) ?_) (log_bounds hy).1
            omega
          exact_mod_cast le_roundEven h3
        refine h1.trans (le_trans (zpow_le_zpow_right₀ (by norm_num) ?_) h2)
        omega
      · rw [← heq]
        refine mul_le_mul_of_nonneg_right ?_ (pow_pos' ex).le
        exact_mod_cast roundEven_mono (div_le_div_of_nonneg_right hxy (pow_pos' ex).le)
    · have h0 : rne p emin 0 = 0 := by simp [rne]
      rw [h0]
      rcases hxy.lt_or_eq with hy | rfl
      · rw [rne_pos hy]
        refine mul_nonneg ?_ (pow_pos' _).le
        exact_mod_cast le_roundEven (n := 0) (by push_cast; exact (div_pos hy (pow_pos' _)).le)
      · rw [h0]


/-- The largest relative error of one sum or difference. -/
def Spec.eps (p : ℕ) : ℚ := 2 ^ (1 - (p : ℤ))

theorem eps_pos : 0 < Spec.eps p := pow_pos' _

theorem eps_lt (hp : 2 ≤ p) : Spec.eps p < 1 := zpow_lt_one_of_neg₀ (by norm_num) (by omega)

theorem float_mult {x : ℚ} (h : Spec.Float p emin x) : ∃ k : ℤ, x = k * 2 ^ emin := by
  obtain ⟨m, e, he, hm, rfl⟩ := h
  refine ⟨m * 2 ^ (e - emin).toNat, ?_⟩
  push_cast
  rw [← zpow_natCast, Int.toNat_of_nonneg (by omega), mul_assoc, ← zpow_add₀ (by norm_num), sub_add_cancel]

theorem float_zero : Spec.Float p emin 0 := ⟨0, emin, le_rfl, by simp, by simp⟩

theorem Spec.Rounding.zero (hr : Spec.Rounding p emin rnd) : rnd 0 = 0 := hr.fixed 0 float_zero

theorem Spec.Rounding.nonneg (hr : Spec.Rounding p emin rnd) {x : ℚ} (hx : 0 ≤ x) : 0 ≤ rnd x :=
  hr.zero ▸ hr.mono 0 x le_rfl hx

/-- One operation: the relative error is at most `eps`; results in the subnormal range are exact. -/
theorem Spec.Rounding.err (hr : Spec.Rounding p emin rnd) {x : ℚ} (hx : 0 ≤ x) (hm : ∃ k : ℤ, x = k * 2 ^ emin) :
    (1 - Spec.eps p) * x ≤ rnd x ∧ rnd x ≤ (1 + Spec.eps p) * x := by
  rcases hx.lt_or_eq with hx0 | rfl
  · obtain ⟨hb1, hb2⟩ := log_bounds hx0
    set n := Int.log 2 x with hn
    by_cases he : emin ≤ n - (p - 1)
    · set e := n - (p - 1) with hedef
      have hz : (⌊x / 2 ^ e⌋ : ℚ) * 2 ^ e ≤ x := (le_div_iff₀ (pow_pos' e)).1 (Int.floor_le _)
      have hz2 : x ≤ ((⌊x / 2 ^ e⌋ + 1 : ℤ) : ℚ) * 2 ^ e := by
        push_cast
        exact ((div_lt_iff₀ (pow_pos' e)).1 (Int.lt_floor_add_one _)).le
      have hf0 : 0 ≤ ⌊x / 2 ^ e⌋ := Int.floor_nonneg.2 (div_pos hx0 (pow_pos' _)).le
      have hlt : ⌊x / 2 ^ e⌋ < 2 ^ p := by
        rw [Int.floor_lt, div_lt_iff₀ (pow_pos' _), Int.cast_pow, Int.cast_ofNat, ← zpow_natCast, ← zpow_add₀ (by norm_num)]
        rw [show (p : ℤ) + e = n + 1 by omega]
        exact hb2
      have f1 : Spec.Float p emin ((⌊x / 2 ^ e⌋ : ℚ) * 2 ^ e) := ⟨_, e, he, by rw [abs_of_nonneg hf0]; exact hlt.le, rfl⟩
      have f2 : Spec.Float p emin (((⌊x / 2 ^ e⌋ + 1 : ℤ) : ℚ) * 2 ^ e) :=
        ⟨_, e, he, by rw [abs_of_nonneg (by omega)]; omega, rfl⟩
      have g1 := hr.mono _ _ (mul_nonneg (by exact_mod_cast hf0) (pow_pos' e).le) hz
      have g2 := hr.mono _ _ hx hz2
      rw [hr.fixed _ f1] at g1
      rw [hr.fixed _ f2] at g2
      have hE : (2 : ℚ) ^ e ≤ Spec.eps p * x := by
        calc (2 : ℚ) ^ e = Spec.eps p * 2 ^ n := by
              unfold Spec.eps
              rw [← zpow_add₀ (by norm_num)]
              congr 1
              omega
          _ ≤ _ := mul_le_mul_of_nonneg_left hb1 eps_pos.le
      push_cast at hz2 g2
      constructor <;> linarith
    · have hfx : Spec.Float p emin x := by
        obtain ⟨k, hk⟩ := hm
        have hk0 : 0 ≤ k := by
          by_contra hc
          have : (k : ℚ) < 0 := by exact_mod_cast not_le.1 hc
          have := mul_neg_of_neg_of_pos this (pow_pos' emin)
          linarith
        refine ⟨k, emin, le_rfl, ?_, hk⟩
        rw [abs_of_nonneg hk0]
        by_contra hc
        have h1 : ((2 ^ p : ℤ) : ℚ) * 2 ^ emin < k * 2 ^ emin := mul_lt_mul_of_pos_right (by exact_mod_cast not_le.1 hc) (pow_pos' emin)
        rw [Int.cast_pow, Int.cast_ofNat, ← zpow_natCast, ← zpow_add₀ (by norm_num), ← hk] at h1
        have h2 : (2 : ℚ) ^ (n + 1) ≤ 2 ^ ((p : ℤ) + emin) := zpow_le_zpow_right₀ (by norm_num) (by omega)
        linarith
      rw [hr.fixed x hfx]
      have := mul_pos (eps_pos (p := p)) hx0
      constructor <;> linarith
  · rw [hr.zero]; simp

/-! ## Lemmas on trees -/

/-- The value of a node, `0` if there is none. -/
def fval (n : Node (Fl rnd)) : ℚ := (n.val?.getD 0).val

/-- The exact sum of the values stored in `[l, l + n)`. -/
def exact (m : Int → Option (Fl rnd)) (l : Int) (n : Nat) : ℚ := ((vals m l n).map Fl.val).sum

/-- All stored values can be represented and are not negative. -/
def Valid (p : ℕ) (emin : ℤ) (m : Int → Option (Fl rnd)) : Prop := ∀ i v, m i = some v → Spec.Float p emin v.val ∧ 0 ≤ v.val

theorem exact_add (m : Int → Option (Fl rnd)) (l : Int) (a b : Nat) : exact m l (a + b) = exact m l a + exact m (l + a) b := by
  simp [exact, vals_add]

theorem exact_nonneg {m : Int → Option (Fl rnd)} (hm : Valid p emin m) (l : Int) (n : Nat) : 0 ≤ exact m l n := by
  apply List.sum_nonneg
  intro x hx
  obtain ⟨v, hv, rfl⟩ := List.mem_map.1 hx
  obtain ⟨j, _, hj⟩ := List.mem_filterMap.1 hv
  exact (hm _ _ hj).2

theorem fval_reduce (hr : Spec.Rounding p emin rnd) {a b : Node (Fl rnd)} (ha : Spec.Float p emin (fval a)) :
    fval (reduce sumAgg a b) = rnd (fval a + fval b) := by
  have h0 : ∀ v : Fl rnd, Spec.Float p emin v.val → rnd ((0 : Fl rnd).val + v.val) = v.val := fun v hv => by
    rw [show (0 : Fl rnd).val = 0 from rfl, zero_add, hr.fixed _ hv]
  have hz : (0 : Fl rnd).val = 0 := rfl
  unfold fval at ha ⊢
  rw [reduce_val]
  cases ha' : a.val? with
  | none =>
    cases hb' : b.val? with
    | none => simp only [Option.getD_none, hz, add_zero, hr.zero]
    | some w =>
      simp only [Option.getD_none, Option.getD_some]
      change rnd ((0 : Fl rnd).val + w.val) = _
      rfl
  | some v =>
    rw [ha'] at ha
    cases hb' : b.val? with
    | none =>
      simp only [Option.getD_none, Option.getD_some]
      change rnd ((0 : Fl rnd).val + v.val) = _
      rw [hz, zero_add, add_zero]
    | some w =>
      simp only [Option.getD_some] at ha ⊢
      change rnd (rnd ((0 : Fl rnd).val + v.val) + w.val) = _
      rw [h0 v ha]

theorem pow2_split (h : Nat) : (2 : Nat) ^ (h + 1) = 2 ^ h + 2 ^ h := by rw [pow_succ]; omega

theorem exact_succ (m : Int → Option (Fl rnd)) (l : Int) (h : Nat) :
    exact m l (2 ^ (h + 1)) = exact m l (2 ^ h) + exact m (l + 2 ^ h) (2 ^ h) := by
  rw [pow2_split, exact_add]
  push_cast
  rfl

theorem node_bound (hr : Spec.Rounding p emin rnd) (hp : 2 ≤ p) {m : Int → Option (Fl rnd)} (hm : Valid p emin m) (h : Nat) : ∀ l : Int,
    Spec.Float p emin (fval (build sumAgg h l m)) ∧ 0 ≤ fval (build sumAgg h l m) ∧
    (1 - Spec.eps p) ^ h * exact m l (2 ^ h) ≤ fval (build sumAgg h l m) ∧
    fval (build sumAgg h l m) ≤ (1 + Spec.eps p) ^ h * exact m l (2 ^ h) := by
  induction h with
  | zero =>
    intro l
    cases hv : m l with
    | none =>
      have : fval (build sumAgg 0 l m) = 0 := by simp only [build, hv, fval, Node.val?, Option.getD_none]; rfl
      rw [this]
      simp [exact, vals, hv, float_zero]
    | some v =>
      have : fval (build sumAgg 0 l m) = v.val := by simp only [build, hv, fval, Node.val?, Option.getD_some]
      rw [this]
      have := hm l v hv
      simp [exact, vals, hv, this]
  | succ h ih =>
    intro l
    obtain ⟨a1, a2, a3, a4⟩ := ih l
    obtain ⟨b1, b2, b3, b4⟩ := ih (l + 2 ^ h)
    have he1 := eps_pos (p := p)
    have he2 := eps_lt hp
    simp only [build]
    rw [fval_reduce hr a1, exact_succ]
    have hm' : ∃ k : ℤ, fval (build sumAgg h l m) + fval (build sumAgg h (l + 2 ^ h) m) = k * 2 ^ emin := by
      obtain ⟨k1, h1⟩ := float_mult a1
      obtain ⟨k2, h2⟩ := float_mult b1
      exact ⟨k1 + k2, by rw [h1, h2]; push_cast; ring⟩
    obtain ⟨c1, c2⟩ := hr.err (add_nonneg a2 b2) hm'
    refine ⟨hr.float _ (add_nonneg a2 b2), hr.nonneg (add_nonneg a2 b2), le_trans ?_ c1, c2.trans ?_⟩
    · calc (1 - Spec.eps p) ^ (h + 1) * (exact m l (2 ^ h) + exact m (l + 2 ^ h) (2 ^ h))
          = (1 - Spec.eps p) * ((1 - Spec.eps p) ^ h * exact m l (2 ^ h) + (1 - Spec.eps p) ^ h * exact m (l + 2 ^ h) (2 ^ h)) := by ring
        _ ≤ _ := mul_le_mul_of_nonneg_left (add_le_add a3 b3) (by linarith)
    · calc (1 + Spec.eps p) * (fval (build sumAgg h l m) + fval (build sumAgg h (l + 2 ^ h) m))
          ≤ (1 + Spec.eps p) * ((1 + Spec.eps p) ^ h * exact m l (2 ^ h) + (1 + Spec.eps p) ^ h * exact m (l + 2 ^ h) (2 ^ h)) :=
            mul_le_mul_of_nonneg_left (add_le_add a4 b4) (by linarith)
        _ = _ := by ring

/-- The upper bound in the form the search uses. -/
theorem node_bound' (hr : Spec.Rounding p emin rnd) (hp : 2 ≤ p) {m : Int → Option (Fl rnd)} (hm : Valid p emin m) (h : Nat) (l : Int) :
    (1 - Spec.eps p) ^ h * fval (build sumAgg h l m) ≤ exact m l (2 ^ h) := by
  have he1 := eps_pos (p := p)
  have he2 := eps_lt hp
  calc (1 - Spec.eps p) ^ h * fval (build sumAgg h l m)
      ≤ (1 - Spec.eps p) ^ h * ((1 + Spec.eps p) ^ h * exact m l (2 ^ h)) :=
        mul_le_mul_of_nonneg_left (node_bound hr hp hm h l).2.2.2 (pow_nonneg (by linarith) h)
    _ = (1 - Spec.eps p * Spec.eps p) ^ h * exact m l (2 ^ h) := by rw [← mul_assoc, ← mul_pow]; ring
    _ ≤ 1 * exact m l (2 ^ h) := mul_le_mul_of_nonneg_right (pow_le_one₀ (by nlinarith) (by nlinarith)) (exact_nonneg hm _ _)
    _ = _ := one_mul _

/-- A node is not smaller than what is stored below it. -/
theorem le_node (hr : Spec.Rounding p emin rnd) (hp : 2 ≤ p) {m : Int → Option (Fl rnd)} (hm : Valid p emin m) (h : Nat) :
    ∀ (l i : Int) (v : Fl rnd), l ≤ i → i < l + 2 ^ h → m i = some v → v.val ≤ fval (build sumAgg h l m) := by
  induction h with
  | zero =>
    intro l i v h1 h2 hv
    have : i = l := by simp at h2; omega
    subst this
    simp only [build, hv, fval, Node.val?, Option.getD_some, le_refl]
  | succ h ih =>
    intro l i v h1 h2 hv
    have ei : (2 : Int) ^ (h + 1) = 2 ^ h + 2 ^ h := by rw [pow_succ]; omega
    obtain ⟨a1, a2, _, _⟩ := node_bound hr hp hm h l
    obtain ⟨b1, b2, _, _⟩ := node_bound hr hp hm h (l + 2 ^ h)
    simp only [build]
    rw [fval_reduce hr a1]
    by_cases hi : i < l + 2 ^ h
    · have := hr.mono _ _ a2 (le_add_of_nonneg_right b2)
      rw [hr.fixed _ a1] at this
      exact (ih l i v h1 hi hv).trans this
    · have := hr.mono _ _ b2 (le_add_of_nonneg_left a2)
      rw [hr.fixed _ b1] at this
      exact (ih (l + 2 ^ h) i v (by omega) (by omega) hv).trans this

/-- `_find` with floating point numbers: the position found owns an interval that contains `pos` up to a relative error; where it fails, it has
left the stored positions. -/
theorem find_float (hr : Spec.Rounding p emin rnd) (hp : 2 ≤ p) {m : Int → Option (Fl rnd)} (hm : Valid p emin m) (h : Nat) :
    ∀ (fuel : Nat) (l : Int) (pos : Fl rnd), h ≤ fuel → 0 ≤ pos.val → Spec.Float p emin pos.val →
    ∃ j : Nat, j < 2 ^ h ∧
      (find fuel l (l + 2 ^ h) (build sumAgg h l m) pos = .ok (l + j) ∨
        (find fuel l (l + 2 ^ h) (build sumAgg h l m) pos = .error .valueError ∧ m (l + j) = none)) ∧
      (1 - Spec.eps p) ^ h * exact m l j ≤ pos.val ∧
      (j + 1 = 2 ^ h ∨ (1 - Spec.eps p) ^ h * pos.val < exact m l (j + 1)) := by
  have he1 := eps_pos (p := p)
  have he2 := eps_lt hp
  induction h with
  | zero =>
    intro fuel l pos _ h0 hf
    refine ⟨0, by simp, Or.inl ?_, by simpa [exact, vals] using h0, Or.inl rfl⟩
    unfold find
    rw [if_pos (by simp)]; simp
  | succ h ih =>
    intro fuel l pos hfu h0 hf
    obtain ⟨fuel, rfl⟩ : ∃ f, fuel = f + 1 := ⟨fuel - 1, by omega⟩
    have ei : (2 : Int) ^ (h + 1) = 2 ^ h + 2 ^ h := by rw [pow_succ]; omega
    have c : (l + ((2 ^ h : Nat) : Int)) = l + 2 ^ h := by push_cast; rfl
    have hpw : (0 : Int) < 2 ^ h := by positivity
    have hpn : 0 < 2 ^ h := by positivity
    have e := pow2_split h
    have hq0 : 0 ≤ (1 - Spec.eps p) ^ h := pow_nonneg (by linarith) h
    have hq1 : (1 - Spec.eps p) ^ (h + 1) ≤ (1 - Spec.eps p) ^ h := pow_le_pow_of_le_one (by linarith) (by linarith) (by omega)
    by_cases hn : build sumAgg (h + 1) l m = .nil
    · refine ⟨2 ^ (h + 1) - 1, by omega, Or.inr ⟨?_, ?_⟩, ?_, Or.inl (by omega)⟩
      · rw [hn]
        unfold find
        rw [if_neg (by omega)]
      · by_contra hc
        exact build_ne_nil (h + 1) (i := l + ((2 ^ (h + 1) - 1 : Nat) : Int)) (by omega) (by push_cast [Nat.cast_sub (show 1 ≤ 2 ^ (h + 1) by omega)]; omega) hc hn
      · have : exact m l (2 ^ (h + 1) - 1) = 0 := by
          unfold exact
          rw [vals_none]
          · rfl
          · intro j hj
            by_contra hc
            have hj' : ((j : Nat) : Int) < ((2 ^ (h + 1) : Nat) : Int) := by omega
            push_cast at hj'
            exact build_ne_nil (h + 1) (i := l + (j : Nat)) (by omega) (by omega) hc hn
        rw [this, mul_zero]
        exact h0
    · obtain ⟨v, hv⟩ := reduce_branch hn
      have hb : build sumAgg (h + 1) l m = .branch (build sumAgg h l m) (build sumAgg h (l + 2 ^ h) m) v := hv
      obtain ⟨a1, a2, a3, a4⟩ := node_bound hr hp hm h l
      have a5 := node_bound' hr hp hm h l
      have hfind : find (fuel + 1) l (l + 2 ^ (h + 1)) (build sumAgg (h + 1) l m) pos
          = if pos.val < fval (build sumAgg h l m) then find fuel l (l + 2 ^ h) (build sumAgg h l m) pos
            else find fuel (l + 2 ^ h) (l + 2 ^ h + 2 ^ h) (build sumAgg h (l + 2 ^ h) m) ⟨rnd (pos.val - fval (build sumAgg h l m))⟩ := by
        rw [hb]
        conv_lhs => unfold find
        rw [if_neg (by omega)]
        have hc : (l + (l + 2 ^ (h + 1))) / 2 = l + 2 ^ h := by omega
        simp only [hc]
        rw [show l + 2 ^ (h + 1) = l + 2 ^ h + 2 ^ h by omega]
        rfl
      rw [hfind]
      by_cases hlt : pos.val < fval (build sumAgg h l m)
      · rw [if_pos hlt]
        obtain ⟨j, g1, g2, g3, g4⟩ := ih fuel l pos (by omega) h0 hf
        refine ⟨j, by omega, g2, le_trans (mul_le_mul_of_nonneg_right hq1 (exact_nonneg hm _ _)) g3, Or.inr ?_⟩
        have h5 : (1 - Spec.eps p) ^ (h + 1) * pos.val ≤ (1 - Spec.eps p) ^ h * pos.val := mul_le_mul_of_nonneg_right hq1 h0
        rcases g4 with g4 | g4
        · rw [g4]
          refine lt_of_lt_of_le (lt_of_le_of_lt h5 (mul_lt_mul_of_pos_left hlt (pow_pos (by linarith) h))) a5
        · exact lt_of_le_of_lt h5 g4
      · rw [if_neg hlt]
        rw [not_lt] at hlt
        have hd := sub_nonneg.2 hlt
        have hm' : ∃ k : ℤ, pos.val - fval (build sumAgg h l m) = k * 2 ^ emin := by
          obtain ⟨k1, h1⟩ := float_mult hf
          obtain ⟨k2, h2⟩ := float_mult a1
          exact ⟨k1 - k2, by rw [h1, h2]; push_cast; ring⟩
        obtain ⟨c1, c2⟩ := hr.err hd hm'
        obtain ⟨j, g1, g2, g3, g4⟩ := ih fuel (l + 2 ^ h) ⟨rnd (pos.val - fval (build sumAgg h l m))⟩ (by omega) (hr.nonneg hd) (hr.float _ hd)
        simp only at g3 g4
        refine ⟨2 ^ h + j, by omega, ?_, ?_, ?_⟩
        · rw [show l + ((2 ^ h + j : Nat) : Int) = l + 2 ^ h + (j : Int) by push_cast; omega]
          exact g2
        · rw [exact_add, c]
          have hE := exact_nonneg hm (l + 2 ^ h) j
          have t1 : (1 - Spec.eps p) ^ (h + 1) * exact m l (2 ^ h) ≤ fval (build sumAgg h l m) :=
            le_trans (mul_le_mul_of_nonneg_right hq1 (exact_nonneg hm _ _)) a3
          have t2 : (1 - Spec.eps p) ^ (h + 1) * exact m (l + 2 ^ h) j ≤ pos.val - fval (build sumAgg h l m) := by
            calc (1 - Spec.eps p) ^ (h + 1) * exact m (l + 2 ^ h) j
                = (1 - Spec.eps p) * ((1 - Spec.eps p) ^ h * exact m (l + 2 ^ h) j) := by ring
              _ ≤ (1 - Spec.eps p) * ((1 + Spec.eps p) * (pos.val - fval (build sumAgg h l m))) :=
                  mul_le_mul_of_nonneg_left (g3.trans c2) (by linarith)
              _ = (1 - Spec.eps p * Spec.eps p) * (pos.val - fval (build sumAgg h l m)) := by ring
              _ ≤ 1 * (pos.val - fval (build sumAgg h l m)) := mul_le_mul_of_nonneg_right (by nlinarith) hd
              _ = _ := one_mul _
          rw [mul_add]
          linarith
        · rcases g4 with g4 | g4
          · exact Or.inl (by omega)
          · refine Or.inr ?_
            rw [add_assoc, exact_add, c]
            have t1 : (1 - Spec.eps p) ^ (h + 1) * fval (build sumAgg h l m) ≤ exact m l (2 ^ h) :=
              le_trans (mul_le_mul_of_nonneg_right hq1 a2) a5
            have t2 : (1 - Spec.eps p) ^ (h + 1) * (pos.val - fval (build sumAgg h l m)) < exact m (l + 2 ^ h) (j + 1) := by
              refine lt_of_le_of_lt ?_ g4
              rw [pow_succ, mul_assoc]
              exact mul_le_mul_of_nonneg_left c1 hq0
            have : (1 - Spec.eps p) ^ (h + 1) * pos.val
                = (1 - Spec.eps p) ^ (h + 1) * fval (build sumAgg h l m) + (1 - Spec.eps p) ^ (h + 1) * (pos.val - fval (build sumAgg h l m)) := by ring
            rw [this]
            linarith

/-! ## Lemmas on queues -/

/-- The window of the tree is at most `4 * L` positions wide. -/
def Narrow {V : Type _} (L : Nat) (q : TQ V) : Prop := ∀ root ixl ixr, q.tree = some (root, ixl, ixr) → ixr - ixl ≤ 4 * L

theorem write_tree {V : Type _} {op : Agg V} {q q' : TQ V} {i : Int} {v r : Option V} (h : q.write op i v = .ok (q', r)) :
    ∃ root root' ixl ixr, q.tree = some (root, ixl, ixr) ∧ q'.tree = some (root', ixl, ixr) ∧ q'.length = q.length := by
  unfold TQ.write at h
  cases hq : q.tree with
  | none => rw [hq] at h; simp at h
  | some t =>
    obtain ⟨root, ixl, ixr⟩ := t
    rw [hq] at h
    simp only at h
    cases hw : Tree.write op i v (depth ixl ixr) ixl ixr root with
    | error e => rw [hw] at h; simp at h
    | ok p =>
      obtain ⟨root', r'⟩ := p
      rw [hw] at h
      cases h
      exact ⟨root, root', ixl, ixr, rfl, rfl, rfl⟩

theorem Narrow.write {V : Type _} {op : Agg V} {L : Nat} {q q' : TQ V} {i : Int} {v r : Option V} (hn : Narrow L q)
    (h : q.write op i v = .ok (q', r)) : Narrow L q' := by
  obtain ⟨root, root', ixl, ixr, h1, h2, _⟩ := write_tree h
  intro a b c hq
  rw [h2] at hq
  cases hq
  exact hn _ _ _ h1

theorem Narrow.set {V : Type _} {op : Agg V} {L : Nat} {q q' : TQ V} {i : Int} {v : V} (hn : Narrow L q)
    (h : q.set op i v = .ok q') : Narrow L q' := by
  unfold TQ.set at h
  split at h
  · cases hw : q.write op i (some v) with
    | error e => rw [hw] at h; cases h
    | ok p => rw [hw] at h; cases h; exact hn.write hw
  · cases h

theorem Narrow.popleft {V : Type _} {op : Agg V} {L : Nat} {q q' : TQ V} {r : Option V} (hn : Narrow L q)
    (h : q.popleft op = .ok (r, q')) : Narrow L q' := by
  unfold TQ.popleft at h
  split at h
  · cases h
  · cases hw : q.write op 0 none with
    | error e => rw [hw] at h; cases h
    | ok p =>
      obtain ⟨q1, ret⟩ := p
      rw [hw] at h
      simp only at h
      have h1 := hn.write hw
      cases ht : q1.tree with
      | none => rw [ht] at h; cases h
      | some t =>
        obtain ⟨root, ixl, ixr⟩ := t
        rw [ht] at h
        have h2 := h1 _ _ _ ht
        simp only at h
        split at h
        · cases h; intro a b c hq; cases hq
        · split at h
          · rename_i hc
            cases root with
            | nil => cases h
            | leaf _ => cases h
            | branch nl nr v =>
              cases h
              intro a b c hq
              simp only [Option.some.injEq, Prod.mk.injEq] at hq
              omega
          · cases h
            intro a b c hq
            simp only [Option.some.injEq, Prod.mk.injEq] at hq
            omega

theorem Narrow.append {V : Type _} {op : Agg V} {L : Nat} {q q' : TQ V} {xs : List V} {v : V} (hs : Sim op q xs) (hn : Narrow L q)
    (hL : xs.length + 1 ≤ L) (h : q.append op v = .ok q') : Narrow L q' := by
  unfold TQ.append at h
  obtain ⟨hl, ht⟩ := hs
  split at h
  · cases h
    intro a b c hq
    simp only [Option.some.injEq, Prod.mk.injEq] at hq
    omega
  · cases hq : q.tree with
    | none => rw [hq] at h; cases h
    | some t =>
      obtain ⟨root, ixl, ixr⟩ := t
      rw [hq] at h ht
      obtain ⟨hne, hh, k, h1, h2, hk, hlen, _⟩ := ht
      have hk' : 2 * (k : Int) < 2 ^ hh := by exact_mod_cast hk
      have fin : ∀ q1 : TQ V, Narrow L q1 →
          (match q1.write op q1.length (some v) with
            | .error e => (.error e : Except PyErr (TQ V))
            | .ok (q2, ret) => if ret.isSome then .error .assertionError else .ok { q2 with length := q2.length + 1 }) = .ok q' → Narrow L q' := by
        intro q1 hn1 hq1
        cases hw : q1.write op q1.length (some v) with
        | error e => rw [hw] at hq1; cases hq1
        | ok p =>
          obtain ⟨q2, ret⟩ := p
          rw [hw] at hq1
          simp only at hq1
          split at hq1
          · cases hq1
          · cases hq1
            exact fun a b c hq' => hn1.write hw a b c hq'
      by_cases hg : ixr = q.length
      · simp only [hg, if_true] at h
        cases hv : root.val? with
        | none => rw [hv] at h; cases h
        | some w =>
          rw [hv] at h
          refine fin { q with tree := some (.branch root .nil w, ixl, q.length + (q.length - ixl)) } ?_ h
          intro a b c hq'
          simp only [Option.some.injEq, Prod.mk.injEq] at hq'
          omega
      · simp only [hg, if_false] at h
        exact fin q hn h

/-- The largest number of stored priorities during a history that begins with `n`. -/
def Spec.longest {V : Type _} (n : Nat) : List (Op V) → Nat
  | [] => n
  | .append _ :: ops => Spec.longest (n + 1) ops
  | .set _ _ :: ops => Spec.longest n ops
  | .popleft :: ops => max n (Spec.longest (n - 1) ops)

theorem le_longest {V : Type _} (ops : List (Op V)) : ∀ n, n ≤ Spec.longest n ops := by
  induction ops with
  | nil => intro n; exact le_rfl
  | cons o ops ih =>
    intro n
    cases o with
    | append v => exact (Nat.le_succ n).trans (ih _)
    | set i v => exact ih n
    | popleft => exact le_max_left _ _

/-- The priorities a call writes can be represented and are not negative. -/
def Spec.OpOk (p : ℕ) (emin : ℤ) : Op (Fl rnd) → Prop
  | .append v => Spec.Float p emin v.val ∧ 0 ≤ v.val
  | .set _ v => Spec.Float p emin v.val ∧ 0 ≤ v.val
  | .popleft => True

theorem run_narrow {V : Type _} {op : Agg V} (L : Nat) (ops : List (Op V)) : ∀ {q q' : TQ V} {xs : List V} {r}, Sim op q xs → Narrow L q →
    Spec.longest xs.length ops ≤ L → q.run op ops = .ok (q', r) → Narrow L q' := by
  induction ops with
  | nil => intro q q' xs r hs hn hl h; cases h; exact hn
  | cons o ops ih =>
    intro q q' xs r hs hn hl h
    cases o with
    | append v =>
      obtain ⟨q1, h1, h2⟩ := append_sim hs v
      simp only [TQ.run, h1] at h
      simp only [Spec.longest] at hl
      exact ih h2 (hn.append hs ((le_longest ops _).trans hl) h1) (by simpa using hl) h
    | set i v =>
      simp only [TQ.run] at h
      by_cases hi : 0 ≤ i ∧ i < xs.length
      · obtain ⟨q1, h1, h2⟩ := (set_sim hs i v).1 hi
        rw [h1] at h
        exact ih h2 (hn.set h1) (by simpa [Spec.longest] using hl) h
      · rw [(set_sim hs i v).2 hi] at h
        cases h
    | popleft =>
      cases xs with
      | nil => simp only [TQ.run, popleft_empty hs] at h; cases h
      | cons x xs =>
        obtain ⟨q1, h1, h2⟩ := popleft_sim hs
        simp only [TQ.run, h1] at h
        simp only [Spec.longest, List.length_cons, Nat.add_sub_cancel] at hl
        cases hr : q1.run op ops with
        | error e => rw [hr] at h; cases h
        | ok p =>
          rw [hr] at h
          cases h
          exact ih h2 (hn.popleft h1) ((le_max_right _ _).trans hl) hr

theorem run_ok (ops : List (Op (Fl rnd))) : ∀ {xs ys popped : List (Fl rnd)}, (∀ x ∈ xs, Spec.Float p emin x.val ∧ 0 ≤ x.val) →
    (∀ o ∈ ops, Spec.OpOk p emin o) → Spec.run xs ops = some (ys, popped) → ∀ y ∈ ys, Spec.Float p emin y.val ∧ 0 ≤ y.val := by
  induction ops with
  | nil => intro xs ys popped hx _ h; cases h; exact hx
  | cons o ops ih =>
    intro xs ys popped hx ho h
    have ho' := fun o h => ho o (List.mem_cons_of_mem _ h)
    have hoo := ho o (by simp)
    cases o with
    | append v =>
      refine ih (xs := xs ++ [v]) ?_ ho' h
      intro x hm
      rcases List.mem_append.1 hm with hm | hm
      · exact hx x hm
      · rw [List.mem_singleton.1 hm]; exact hoo
    | set i v =>
      simp only [Spec.run] at h
      split at h
      · refine ih ?_ ho' h
        intro x hm
        rcases List.mem_or_eq_of_mem_set hm with hm | rfl
        · exact hx x hm
        · exact hoo
      · cases h
    | popleft =>
      cases xs with
      | nil => cases h
      | cons x xs =>
        simp only [Spec.run] at h
        cases hr : Spec.run xs ops with
        | none => rw [hr] at h; cases h
        | some p' =>
          rw [hr] at h
          cases h
          exact ih (fun y hy => hx y (by simp [hy])) ho' hr

theorem valid_look {xs : List (Fl rnd)} (hx : ∀ x ∈ xs, Spec.Float p emin x.val ∧ 0 ≤ x.val) : Valid p emin (look xs) := by
  intro i v hv
  unfold look at hv
  split at hv
  · exact hx v (List.mem_of_getElem? hv)
  · cases hv

/-- The exact sum of a list of floating point numbers. -/
def Spec.total (xs : List (Fl rnd)) : ℚ := (xs.map Fl.val).sum

theorem height_le {h L : Nat} (hh : (2 : Int) ^ h ≤ 4 * L) : h ≤ Nat.log 2 L + 2 := by
  have h1 : 2 ^ h ≤ 4 * L := by exact_mod_cast hh
  by_cases h2 : h < 2
  · omega
  · obtain ⟨k, rfl⟩ : ∃ k, h = k + 2 := ⟨h - 2, by omega⟩
    have h3 : 2 ^ k ≤ L := by rw [pow_add] at h1; omega
    have h4 : L ≠ 0 := by
      have : 0 < 2 ^ k := by positivity
      omega
    have := Nat.le_log_of_pow_le (b := 2) (by norm_num) h3
    omega

/-- The relative precision of a tree that never held more than `L` priorities. -/
def Spec.prec (p L : Nat) : ℚ := (1 - Spec.eps p) ^ (Nat.log 2 L + 2)

theorem prec_pos (hp : 2 ≤ p) (L : Nat) : 0 < Spec.prec p L := pow_pos (by have := eps_lt hp; linarith) _

theorem prec_le (hp : 2 ≤ p) {h L : Nat} (hh : h ≤ Nat.log 2 L + 2) : Spec.prec p L ≤ (1 - Spec.eps p) ^ h :=
  pow_le_pow_of_le_one (by have := eps_lt hp; linarith) (by have := eps_pos (p := p); linarith) hh

theorem total_nonneg {xs : List (Fl rnd)} (hx : ∀ x ∈ xs, Spec.Float p emin x.val ∧ 0 ≤ x.val) : 0 ≤ Spec.total xs := by
  apply List.sum_nonneg
  intro x hm
  obtain ⟨v, hv, rfl⟩ := List.mem_map.1 hm
  exact (hx v hv).2

/-- The root of a queue, with the bounds of its value. -/
theorem root_float (hr : Spec.Rounding p emin rnd) (hp : 2 ≤ p) {L : Nat} {q : TQ (Fl rnd)} {xs : List (Fl rnd)} (hs : Sim sumAgg q xs)
    (hn : Narrow L q) (hx : ∀ x ∈ xs, Spec.Float p emin x.val ∧ 0 ≤ x.val) (hne : xs ≠ []) :
    ∃ (h k : Nat) (S : Fl rnd), q.tree = some (build sumAgg h (-(k : Int)) (look xs), -(k : Int), -(k : Int) + 2 ^ h) ∧
      k + xs.length ≤ 2 ^ h ∧ h ≤ Nat.log 2 L + 2 ∧
      (build sumAgg h (-(k : Int)) (look xs)).val? = some S ∧ S.val = fval (build sumAgg h (-(k : Int)) (look xs)) ∧
      Spec.Float p emin S.val ∧
      (1 - Spec.eps p) ^ h * Spec.total xs ≤ S.val ∧ S.val ≤ (1 + Spec.eps p) ^ h * Spec.total xs ∧
      (1 - Spec.eps p) ^ h * S.val ≤ Spec.total xs ∧ ∀ x ∈ xs, x.val ≤ S.val := by
  obtain ⟨hl, ht⟩ := hs
  cases hq : q.tree with
  | none => rw [hq] at ht; exact absurd ht hne
  | some t =>
    obtain ⟨root, ixl, ixr⟩ := t
    rw [hq] at ht
    obtain ⟨_, h, k, rfl, rfl, hk, hlen, rfl⟩ := ht
    have hk' : 2 * (k : Int) < 2 ^ h := by exact_mod_cast hk
    have hpos : 0 < xs.length := List.length_pos_of_ne_nil hne
    have hw : k + xs.length ≤ 2 ^ h := by zify; omega
    have hnn : build sumAgg h (-(k : Int)) (look xs) ≠ .nil := build_ne_nil h (i := 0) (by omega) (by omega) (by
      have := look_nat xs 0
      simp only [Nat.cast_zero] at this
      rw [this]; simp; omega)
    obtain ⟨S, hS⟩ := val_ne_none hnn
    have hS' : S.val = fval (build sumAgg h (-(k : Int)) (look xs)) := by unfold fval; rw [hS]; rfl
    have he : exact (look xs) (-(k : Int)) (2 ^ h) = Spec.total xs := by unfold exact; rw [vals_look_window xs hw]; rfl
    obtain ⟨a1, a2, a3, a4⟩ := node_bound hr hp (valid_look hx) h (-(k : Int))
    have a5 := node_bound' hr hp (valid_look hx) h (-(k : Int))
    rw [he, ← hS'] at a3 a4
    rw [he, ← hS'] at a5
    refine ⟨h, k, S, rfl, hw, height_le (by have := hn _ _ _ hq; omega), hS, hS', hS' ▸ a1, a3, a4, a5, ?_⟩
    intro x hxm
    obtain ⟨i, hi, rfl⟩ := List.getElem_of_mem hxm
    rw [hS']
    exact le_node hr hp (valid_look hx) h _ (i : Int) xs[i] (by omega) (by omega) (by rw [look_nat, List.getElem?_eq_getElem hi])

/-- The exact sum of the priorities before position `i`. -/
def Spec.before (xs : List (Fl rnd)) (i : Nat) : ℚ := Spec.total (xs.take i)

theorem before_nonneg {xs : List (Fl rnd)} (hx : ∀ x ∈ xs, Spec.Float p emin x.val ∧ 0 ≤ x.val) (i : Nat) : 0 ≤ Spec.before xs i :=
  total_nonneg fun x h => hx x (List.mem_of_mem_take h)

/-- One draw. -/
theorem find_sim_float (hr : Spec.Rounding p emin rnd) (hp : 2 ≤ p) {L : Nat} {q : TQ (Fl rnd)} {xs : List (Fl rnd)} (hs : Sim sumAgg q xs)
    (hn : Narrow L q) (hx : ∀ x ∈ xs, Spec.Float p emin x.val ∧ 0 ≤ x.val) (hne : xs ≠ []) :
    ∃ root ixl ixr S, q.tree = some (root, ixl, ixr) ∧ root.val? = some S ∧
      Spec.prec p L * Spec.total xs ≤ S.val ∧ Spec.prec p L * S.val ≤ Spec.total xs ∧ Spec.Float p emin S.val ∧ (∀ x ∈ xs, x.val ≤ S.val) ∧
      ∀ u : Fl rnd, 0 ≤ u.val → u.val < S.val → Spec.Float p emin u.val →
        (∃ i : Nat, i < xs.length ∧ find (depth ixl ixr) ixl ixr root u = .ok (i : Int) ∧
          Spec.prec p L * Spec.before xs i ≤ u.val ∧ Spec.prec p L * u.val < Spec.before xs (i + 1)) ∨
        (Spec.prec p L * Spec.total xs ≤ u.val ∧ (find (depth ixl ixr) ixl ixr root u = .error .valueError ∨
          ∃ i : Nat, find (depth ixl ixr) ixl ixr root u = .ok (i : Int) ∧ ∃ q', q.write sumAgg i (some 0) = .ok (q', none))) := by
  obtain ⟨h, k, S, hq, hw, hH, hS, hS', hSf, b1, b2, b3, b4⟩ := root_float hr hp hs hn hx hne
  have hpr := prec_le (p := p) hp hH
  have hmul : ∀ {a : ℚ}, 0 ≤ a → Spec.prec p L * a ≤ (1 - Spec.eps p) ^ h * a := fun ha => mul_le_mul_of_nonneg_right hpr ha
  have hT := total_nonneg hx
  refine ⟨_, _, _, S, hq, hS, (hmul hT).trans b1, ?_, hSf, b4, ?_⟩
  · by_cases h0 : 0 ≤ S.val
    · exact (hmul h0).trans b3
    · have := mul_nonpos_of_nonneg_of_nonpos (prec_pos hp L).le (not_le.1 h0).le
      exact this.trans hT
  intro u hu0 hu1 huf
  obtain ⟨j, g1, g2, g3, g4⟩ := find_float hr hp (valid_look hx) h _ (-(k : Int)) u (le_depth h _) hu0 huf
  have hbef : ∀ j, exact (look xs) (-(k : Int)) j = Spec.before xs (j - k) := by
    intro j; unfold exact Spec.before Spec.total; rw [vals_look_prefix]
  have hfull : ∀ i, xs.length ≤ i → Spec.before xs i = Spec.total xs := by
    intro i hi; unfold Spec.before; rw [List.take_of_length_le hi]
  have g5 : Spec.prec p L * u.val < Spec.before xs (j + 1 - k) := by
    rcases g4 with g4 | g4
    · rw [hfull _ (by omega)]
      exact lt_of_le_of_lt (hmul hu0) (lt_of_lt_of_le (mul_lt_mul_of_pos_left hu1 (pow_pos (by have := eps_lt hp; linarith) h)) b3)
    · rw [← hbef]
      exact lt_of_le_of_lt (hmul hu0) g4
  have g6 : Spec.prec p L * Spec.before xs (j - k) ≤ u.val := by
    rw [hbef] at g3
    exact (hmul (before_nonneg hx _)).trans g3
  have hjk : k ≤ j := by
    by_contra hc
    rw [show j + 1 - k = 0 by omega] at g5
    have h1 : Spec.before xs 0 = 0 := by simp [Spec.before, Spec.total]
    rw [h1] at g5
    have := mul_nonneg (prec_pos hp L).le hu0
    linarith
  obtain ⟨i, rfl⟩ := Nat.exists_eq_add_of_le hjk
  rw [Nat.add_sub_cancel_left] at g6
  rw [add_assoc, Nat.add_sub_cancel_left] at g5
  have hpos : -(k : Int) + ((k + i : Nat) : Int) = i := by push_cast; omega
  rw [hpos] at g2
  by_cases hi : i < xs.length
  · rcases g2 with g2 | ⟨g2, g2'⟩
    · exact Or.inl ⟨i, hi, g2, g6, g5⟩
    · rw [look_nat, List.getElem?_eq_getElem hi] at g2'
      cases g2'
  · rw [hfull i (by omega)] at g6
    refine Or.inr ⟨g6, ?_⟩
    rcases g2 with g2 | ⟨g2, g2'⟩
    · refine Or.inr ⟨i, g2, ?_⟩
      unfold TQ.write
      rw [hq]
      simp only
      have hki : ((k + i : Nat) : Int) < ((2 ^ h : Nat) : Int) := by exact_mod_cast g1
      push_cast at hki
      rw [write_build sumAgg i (some 0) h _ _ _ (le_depth h _) (by omega) (by omega), look_nat, List.getElem?_eq_none (by omega)]
      exact ⟨_, rfl⟩
    · exact Or.inl g2

/-! ## C137 -/

/-- **C137 (sum).** After any history of `append`, `popleft` and overwrites with floating point priorities, `sum()` differs from the exact sum of
the stored priorities by a relative error that depends on the precision and on the logarithm of the number of stored priorities only: errors do
not add up over the updates. -/
theorem float_sum (hr : Spec.Rounding p emin rnd) (hp : 2 ≤ p) (ops : List (Op (Fl rnd))) (ho : ∀ o ∈ ops, Spec.OpOk p emin o) :
    match Spec.run [] ops with
    | none => TQ.new.run sumAgg ops = .error .assertionError
    | some (ys, popped) => ∃ q S, TQ.new.run sumAgg ops = .ok (q, popped.map some) ∧ q.length = ys.length ∧ q.sum = .ok S ∧
        (1 - Spec.eps p) ^ (Nat.log 2 (Spec.longest 0 ops) + 2) * Spec.total ys ≤ S.val ∧
        S.val ≤ (1 + Spec.eps p) ^ (Nat.log 2 (Spec.longest 0 ops) + 2) * Spec.total ys := by
  have := run_sim ops (new_sim (sumAgg : Agg (Fl rnd)))
  cases hrun : Spec.run [] ops with
  | none => rw [hrun] at this; exact this
  | some pr =>
    obtain ⟨ys, popped⟩ := pr
    rw [hrun] at this
    obtain ⟨q, h1, h2⟩ := this
    simp only
    have hy := run_ok ops (xs := []) (by simp) ho hrun
    have hn : Narrow (Spec.longest 0 ops) q :=
      run_narrow _ ops (new_sim (sumAgg : Agg (Fl rnd))) (by intro a b c h; cases h) le_rfl h1
    cases hys : ys with
    | nil =>
      subst hys
      refine ⟨q, 0, h1, h2.1, ?_, ?_, ?_⟩
      · unfold TQ.sum
        have h0 : q.length = 0 := h2.1
        rw [if_pos h0]
      · simp [Spec.total]; rfl
      · simp [Spec.total]; rfl
    | cons y ys' =>
      rw [← hys]
      have hne : ys ≠ [] := by rw [hys]; simp
      obtain ⟨h, k, S, hq, hw, hH, hS, hS', hSf, b1, b2, b3, b4⟩ := root_float hr hp h2 hn hy hne
      refine ⟨q, S, h1, h2.1, ?_, ?_, ?_⟩
      · unfold TQ.sum
        rw [if_neg (by rw [h2.1]; simpa using hne), hq]
        simp only [hS]
      · exact le_trans (mul_le_mul_of_nonneg_right (prec_le hp hH) (total_nonneg hy)) b1
      · exact b2.trans (mul_le_mul_of_nonneg_right (pow_le_pow_right₀ (by have := eps_pos (p := p); linarith) hH) (total_nonneg hy))

/-- A generator yields floating point numbers in `[0, hi)`, if `hi` is not below `lo`.  Numpy does with `lo = 2 ^ (emin + p)`, see
`numpy_uniform`; below that, `hi` times a number less than `1` can be rounded to `hi`. -/
def Spec.FloatRng (p : ℕ) (emin : ℤ) (lo : ℚ) (rng : Nat → Fl rnd → Fl rnd) : Prop :=
  ∀ t hi, lo ≤ hi.val → 0 < hi.val → Spec.Float p emin hi.val →
    0 ≤ (rng t hi).val ∧ (rng t hi).val < hi.val ∧ Spec.Float p emin (rng t hi).val

/-- The generator the code uses is one, in the normal range. -/
theorem numpy_uniform (hp : 1 ≤ p) {k : ℕ} (hk : k < 2 ^ p) {hi : Fl (rne p emin)} (hlo : (2 : ℚ) ^ (emin + p) ≤ hi.val)
    (hf : Spec.Float p emin hi.val) :
    0 ≤ (npUniform p emin k hi).val ∧ (npUniform p emin k hi).val < hi.val ∧ Spec.Float p emin (npUniform p emin k hi).val := by
  have hr : Spec.Rounding p emin (rne p emin) := rne_rounding hp
  have hpos : 0 < hi.val := lt_of_lt_of_le (pow_pos' _) hlo
  have hk2 : (0 : ℚ) < 2 ^ p := by positivity
  set x := hi.val * (k / 2 ^ p) with hx
  have hx0 : 0 ≤ x := by positivity
  have hu : (npUniform p emin k hi).val = rne p emin x := by
    unfold npUniform
    simp only
    rw [zero_add, hr.fixed _ (hr.float _ hx0)]
  rw [hu]
  refine ⟨hr.nonneg hx0, ?_, hr.float _ hx0⟩
  obtain ⟨hb1, hb2⟩ := log_bounds hpos
  set n := Int.log 2 hi.val with hn
  have hne : emin + p ≤ n := by
    by_contra hc
    have := zpow_le_zpow_right₀ (show (1 : ℚ) ≤ 2 by norm_num) (show n + 1 ≤ emin + p by omega)
    linarith
  have hmax : max emin (n - (p - 1)) = n - (p - 1) := max_eq_right (by omega)
  set e := n - (p - 1) with he
  have hM : (roundEven (hi.val / 2 ^ e) : ℚ) * 2 ^ e = hi.val := by
    have := hr.fixed _ hf
    rw [rne_pos hpos, ← hn, hmax] at this
    exact this
  set M := roundEven (hi.val / 2 ^ e) with hMdef
  have hhalf : (2 : ℚ) ^ e = 2 * 2 ^ (e - 1) := by
    rw [show e = 1 + (e - 1) by omega, zpow_add₀ (by norm_num)]
    norm_num
  have hgap : hi.val / 2 ^ p ≤ hi.val - x := by
    rw [hx]
    have h1 : (k : ℚ) + 1 ≤ 2 ^ p := by exact_mod_cast hk
    rw [show hi.val - hi.val * (k / 2 ^ p) = hi.val * (2 ^ p - k) / 2 ^ p by field_simp]
    refine div_le_div_of_nonneg_right ?_ hk2.le
    nlinarith
  have h2n : (2 : ℚ) ^ n / 2 ^ p = 2 ^ (e - 1) := by
    rw [← zpow_natCast, ← zpow_sub₀ (by norm_num)]
    congr 1
    omega
  have hE := pow_pos' (e - 1)
  rcases hb1.lt_or_eq with hlt | heq
  · have hstrict : x < hi.val - 2 ^ (e - 1) := by
      have : (2 : ℚ) ^ n / 2 ^ p < hi.val / 2 ^ p := div_lt_div_of_pos_right hlt hk2
      linarith
    by_cases hxn : x < 2 ^ n
    · have hfn : Spec.Float p emin ((2 : ℚ) ^ n) := ⟨1, n, by omega, by rw [abs_one]; exact one_le_pow₀ (by norm_num), by simp⟩
      have := hr.mono _ _ hx0 hxn.le
      rw [hr.fixed _ hfn] at this
      linarith
    · have hxpos : 0 < x := lt_of_lt_of_le (pow_pos' n) (not_lt.1 hxn)
      have hlogx : Int.log 2 x = n := by
        obtain ⟨c1, c2⟩ := log_bounds hxpos
        have d1 : n < Int.log 2 x + 1 := (zpow_lt_zpow_iff_right₀ (show (1 : ℚ) < 2 by norm_num)).1 (lt_of_le_of_lt (not_lt.1 hxn) c2)
        have d2 : Int.log 2 x < n + 1 := (zpow_lt_zpow_iff_right₀ (show (1 : ℚ) < 2 by norm_num)).1 (lt_of_le_of_lt c1 (by linarith))
        omega
      rw [rne_pos hxpos, hlogx, hmax, ← hM]
      refine mul_lt_mul_of_pos_right ?_ (pow_pos' e)
      have hq : x / 2 ^ e < M - 1 / 2 := by
        rw [div_lt_iff₀ (pow_pos' e), sub_mul, hM, hhalf]
        linarith
      have hle : roundEven (x / 2 ^ e) ≤ M - 1 := by
        have hfl : ⌊x / 2 ^ e⌋ < M := by
          rw [Int.floor_lt]
          linarith
        by_cases hc : ⌊x / 2 ^ e⌋ = M - 1
        · unfold roundEven
          rw [if_pos]
          · omega
          · rw [hc]
            push_cast
            linarith
        · have := (roundEven_bounds (x / 2 ^ e)).2
          omega
      have : ((roundEven (x / 2 ^ e) : ℤ) : ℚ) ≤ ((M - 1 : ℤ) : ℚ) := by exact_mod_cast hle
      push_cast at this
      linarith
  · have hfp : Spec.Float p emin ((2 : ℚ) ^ n - 2 ^ (e - 1)) := by
      refine ⟨2 ^ p - 1, e - 1, by omega, ?_, ?_⟩
      · have : (1 : ℤ) ≤ 2 ^ p := one_le_pow₀ (by norm_num)
        rw [abs_of_nonneg (by omega)]
        omega
      · push_cast
        rw [sub_mul, one_mul, ← zpow_natCast, ← zpow_add₀ (by norm_num)]
        congr 2
        omega
    have hxle : x ≤ 2 ^ n - 2 ^ (e - 1) := by
      rw [← heq, h2n] at hgap
      rw [← heq] at hx
      linarith
    have := hr.mono _ _ hx0 hxle
    rw [hr.fixed _ hfp] at this
    linarith

/-- Draws without replacement that are correct up to the relative precision `η`: the `t`-th draw uses the random number `u = rng t S`, where `S`
is the sum of the priorities not yet drawn, up to `η`; the item drawn owns an interval that contains `u`, up to `η`; its priority is then set
to zero. -/
inductive Spec.Near (η : ℚ) (rng : Nat → Fl rnd → Fl rnd) : Nat → List (Fl rnd) → List Nat → List (Fl rnd) → List (Fl rnd) → Prop
  | nil {t : Nat} {xs : List (Fl rnd)} : Near η rng t xs [] [] xs
  | cons {t : Nat} {xs : List (Fl rnd)} {i : Nat} {S v : Fl rnd} {is : List Nat} {vs ys : List (Fl rnd)} :
      η * Spec.total xs ≤ S.val → η * S.val ≤ Spec.total xs →
      η * Spec.before xs i ≤ (rng t S).val → η * (rng t S).val < Spec.before xs (i + 1) →
      xs[i]? = some v → Near η rng (t + 1) (xs.set i 0) is vs ys →
      Near η rng t xs (i :: is) (v :: vs) ys

/-- A draw can fail: after some correct draws, the random number is so close to the sum that it lies above every interval, up to `η`. -/
def Spec.Misses (η : ℚ) (rng : Nat → Fl rnd → Fl rnd) (n t : Nat) (xs : List (Fl rnd)) : Prop :=
  ∃ is vs ys S, Spec.Near η rng t xs is vs ys ∧ is.length < n ∧ η * Spec.total ys ≤ S.val ∧ η * S.val ≤ Spec.total ys ∧
    (rng (t + is.length) S).val < S.val ∧ η * Spec.total ys ≤ (rng (t + is.length) S).val

/-- The number of positive priorities. -/
def fPos (xs : List (Fl rnd)) : Nat := xs.countP (fun x => decide (0 < x.val))

theorem fPos_set (xs : List (Fl rnd)) (i : Nat) : fPos xs ≤ fPos (xs.set i 0) + 1 := by
  unfold fPos
  induction xs generalizing i with
  | nil => simp
  | cons x xs ih =>
    cases i with
    | zero =>
      simp only [List.set_cons_zero, List.countP_cons]
      split <;> omega
    | succ i =>
      simp only [List.set_cons_succ, List.countP_cons]
      have := ih i
      omega

theorem exists_pos {xs : List (Fl rnd)} (h : 0 < fPos xs) : ∃ x ∈ xs, 0 < x.val := by
  obtain ⟨x, hx, hp⟩ := List.countP_pos_iff.1 h
  exact ⟨x, hx, by simpa using hp⟩

theorem total_pos {xs : List (Fl rnd)} (hx : ∀ x ∈ xs, Spec.Float p emin x.val ∧ 0 ≤ x.val) (h : 0 < fPos xs) : 0 < Spec.total xs := by
  unfold fPos at h
  induction xs with
  | nil => simp at h
  | cons x xs ih =>
    have hx1 := (hx x (by simp)).2
    have hs := total_nonneg (p := p) (emin := emin) (xs := xs) fun y hy => hx y (by simp [hy])
    have he : Spec.total (x :: xs) = x.val + Spec.total xs := by simp [Spec.total]
    rw [he]
    by_cases hp : 0 < x.val
    · linarith
    · rw [List.countP_cons_of_neg (by simpa using hp)] at h
      have := ih (fun y hy => hx y (by simp [hy])) h
      linarith

theorem set_ok {xs : List (Fl rnd)} (hx : ∀ x ∈ xs, Spec.Float p emin x.val ∧ 0 ≤ x.val) (i : Nat) :
    ∀ x ∈ xs.set i 0, Spec.Float p emin x.val ∧ 0 ≤ x.val := by
  intro x hm
  rcases List.mem_or_eq_of_mem_set hm with h | rfl
  · exact hx x h
  · exact ⟨float_zero, le_rfl⟩

theorem set_low {lo : ℚ} {xs : List (Fl rnd)} (hx : ∀ x ∈ xs, 0 < x.val → lo ≤ x.val) (i : Nat) :
    ∀ x ∈ xs.set i 0, 0 < x.val → lo ≤ x.val := by
  intro x hm h0
  rcases List.mem_or_eq_of_mem_set hm with h | rfl
  · exact hx x h h0
  · exact absurd h0 (lt_irrefl _)

theorem drawLoop_float (hr : Spec.Rounding p emin rnd) (hp : 2 ≤ p) (L : Nat) {lo : ℚ} {rng : Nat → Fl rnd → Fl rnd}
    (hrng : Spec.FloatRng p emin lo rng) (n : Nat) : ∀ {t : Nat} {q : TQ (Fl rnd)} {xs : List (Fl rnd)}, Sim sumAgg q xs → Narrow L q →
    (∀ x ∈ xs, Spec.Float p emin x.val ∧ 0 ≤ x.val) → (∀ x ∈ xs, 0 < x.val → lo ≤ x.val) → n ≤ fPos xs →
    (∃ q' is vs ys, drawLoop rng n t q = .ok (q', is, vs) ∧ is.length = n ∧ Spec.Near (Spec.prec p L) rng t xs is vs ys ∧ Sim sumAgg q' ys) ∨
    ((drawLoop rng n t q = .error .assertionError ∨ drawLoop rng n t q = .error .valueError) ∧ Spec.Misses (Spec.prec p L) rng n t xs) := by
  induction n with
  | zero => intro t q xs hs _ _ _ _; exact Or.inl ⟨q, [], [], xs, rfl, rfl, .nil, hs⟩
  | succ n ih =>
    intro t q xs hs hnar hx hlo hn
    have hne : xs ≠ [] := by rintro rfl; simp [fPos] at hn
    have hT := total_pos hx (by omega)
    obtain ⟨root, ixl, ixr, S, hq, hS, s1, s2, s3, s4, hf⟩ := find_sim_float hr hp hs hnar hx hne
    have hSpos : 0 < S.val := lt_of_lt_of_le (mul_pos (prec_pos hp L) hT) s1
    obtain ⟨y, hy, hy0⟩ := exists_pos (show 0 < fPos xs by omega)
    obtain ⟨r0, r1, r2⟩ := hrng t S ((hlo y hy hy0).trans (s4 y hy)) hSpos s3
    rcases hf _ r0 r1 r2 with ⟨i, hi, hfi, f1, f2⟩ | ⟨hm, hbad⟩
    · obtain ⟨q1, hw, hs1⟩ := write_sim hs hi 0
      have hxi : xs[i]? = some xs[i] := List.getElem?_eq_getElem hi
      have hstep : ∀ r, drawLoop rng n (t + 1) q1 = r → drawLoop rng (n + 1) t q =
          (match r with
            | .error e => .error e
            | .ok (q'', ixs, vals) => .ok (q'', i :: ixs, xs[i] :: vals)) := by
        rintro r rfl
        conv_lhs => unfold drawLoop
        simp only [hq, hS, hfi, hw, hxi, Int.toNat_natCast]
        cases drawLoop rng n (t + 1) q1 <;> rfl
      rcases ih (t := t + 1) hs1 (hnar.write hw) (set_ok hx i) (set_low hlo i) (by have := fPos_set xs i; omega) with
        ⟨q', is, vs, ys, g1, g2, g3, g4⟩ | ⟨g1, is, vs, ys, S', g2, g3, g4, g5, g6, g7⟩
      · refine Or.inl ⟨q', i :: is, xs[i] :: vs, ys, hstep _ g1, by simp [g2], .cons s1 s2 f1 f2 hxi g3, g4⟩
      · refine Or.inr ⟨?_, i :: is, xs[i] :: vs, ys, S', .cons s1 s2 f1 f2 hxi g2, by simp only [List.length_cons]; omega, g4, g5, ?_, ?_⟩
        · rcases g1 with g1 | g1
          · exact Or.inl (hstep _ g1)
          · exact Or.inr (hstep _ g1)
        · rw [List.length_cons, show t + (is.length + 1) = t + 1 + is.length by omega]; exact g6
        · rw [List.length_cons, show t + (is.length + 1) = t + 1 + is.length by omega]; exact g7
    · refine Or.inr ⟨?_, [], [], xs, S, .nil, by simp, s1, s2, r1, hm⟩
      rcases hbad with hbad | ⟨i, hbad, q', hw⟩
      · refine Or.inr ?_
        conv_lhs => unfold drawLoop
        simp only [hq, hS, hbad]
      · refine Or.inl ?_
        conv_lhs => unfold drawLoop
        simp only [hq, hS, hbad, hw]

theorem near_sound {η : ℚ} {rng : Nat → Fl rnd → Fl rnd} {t : Nat} {xs ys : List (Fl rnd)} {is : List Nat} {vs : List (Fl rnd)}
    (h : Spec.Near η rng t xs is vs ys) : ys.length = xs.length ∧ is.length = vs.length ∧ ∀ i ∈ is, i < xs.length := by
  induction h with
  | nil => simp
  | @cons t xs i S v is vs ys _ _ _ _ hv _ ih =>
    obtain ⟨h1, h2, h3⟩ := ih
    have hi : i < xs.length := by
      by_contra hc
      rw [List.getElem?_eq_none (by omega)] at hv
      cases hv
    refine ⟨by simpa using h1, by simp [h2], ?_⟩
    intro j hj
    rcases List.mem_cons.1 hj with rfl | hj
    · exact hi
    · simpa using h3 j hj

theorem restore_float (l : List (Nat × Fl rnd)) : ∀ {q : TQ (Fl rnd)} {xs : List (Fl rnd)}, Sim sumAgg q xs →
    (∀ p ∈ l, p.1 < xs.length) → ∃ q', restore q l = .ok q' ∧ Sim sumAgg q' (l.foldl (fun ys p => ys.set p.1 p.2) xs) := by
  induction l with
  | nil => intro q xs hs _; exact ⟨q, rfl, hs⟩
  | cons p l ih =>
    intro q xs hs hl
    obtain ⟨q1, hw, hs1⟩ := write_sim hs (hl p (by simp)) p.2
    obtain ⟨q', h1, h2⟩ := ih hs1 (by intro p' hp'; simpa using hl p' (by simp [hp']))
    refine ⟨q', ?_, h2⟩
    unfold restore
    rw [hw]
    exact h1

/-- What the later calls of a queue see: it holds the priorities `ys`. -/
def Spec.Holds (q : TQ (Fl rnd)) (ys : List (Fl rnd)) : Prop :=
  ∀ ops zs popped, Spec.run ys ops = some (zs, popped) → ∃ q', q.run sumAgg ops = .ok (q', popped.map some) ∧ q'.length = zs.length

theorem sim_holds {q : TQ (Fl rnd)} {ys : List (Fl rnd)} (h : Sim sumAgg q ys) : Spec.Holds q ys := by
  intro ops zs popped hrun
  have := run_sim ops h
  rw [hrun] at this
  obtain ⟨q', h1, h2⟩ := this
  exact ⟨q', h1, h2.1⟩

/-- **C137 (draws; partial).** `prioritized_sample(n)` after any history with floating point priorities of which at least `n` are positive: the
draws are those of C07 up to the relative precision `prec`, or the call raises an `AssertionError` or a `ValueError`, and then a random number lay
within `prec` of the sum.  Missing: that the call always succeeds with distinct items of positive priority.  This is false, see
`float_draw_fails` and `float_draw_twice`. -/
theorem float_draws_partial (hr : Spec.Rounding p emin rnd) (hp : 2 ≤ p) (ops : List (Op (Fl rnd))) (ho : ∀ o ∈ ops, Spec.OpOk p emin o)
    {xs popped : List (Fl rnd)} (hrun : Spec.run [] ops = some (xs, popped)) {lo : ℚ} (hlo : ∀ x ∈ xs, 0 < x.val → lo ≤ x.val)
    {rng : Nat → Fl rnd → Fl rnd} (hrng : Spec.FloatRng p emin lo rng) {n : Nat} (hn : n ≤ xs.countP (fun x => decide (0 < x.val))) (t : Nat) (remove : Bool) :
    ∃ q, TQ.new.run sumAgg ops = .ok (q, popped.map some) ∧
      ((∃ q' is vs ys, q.prioritizedSample rng t n remove = .ok (q', is, vs) ∧ is.length = n ∧
          Spec.Near (Spec.prec p (Spec.longest 0 ops)) rng t xs is vs ys ∧
          Spec.Holds q' (if remove then ys else (is.zip vs).foldl (fun zs iv => zs.set iv.1 iv.2) ys)) ∨
        ((q.prioritizedSample rng t n remove = .error .assertionError ∨ q.prioritizedSample rng t n remove = .error .valueError) ∧
          Spec.Misses (Spec.prec p (Spec.longest 0 ops)) rng n t xs)) := by
  have := run_sim ops (new_sim (sumAgg : Agg (Fl rnd)))
  rw [hrun] at this
  obtain ⟨q, h1, h2⟩ := this
  have hy := run_ok ops (xs := []) (by simp) ho hrun
  have hnar : Narrow (Spec.longest 0 ops) q :=
    run_narrow _ ops (new_sim (sumAgg : Agg (Fl rnd))) (by intro a b c h; cases h) le_rfl h1
  refine ⟨q, h1, ?_⟩
  rcases drawLoop_float hr hp _ hrng n (t := t) h2 hnar hy hlo hn with ⟨q', is, vs, ys, g1, g2, g3, g4⟩ | ⟨g1, g2⟩
  · left
    obtain ⟨e1, e2, e3⟩ := near_sound g3
    cases remove with
    | true =>
      refine ⟨q', is, vs, ys, ?_, g2, g3, sim_holds g4⟩
      unfold TQ.prioritizedSample
      rw [if_neg (by omega)]
      simp only [Int.toNat_natCast, g1, if_true]
    | false =>
      obtain ⟨q2, f1, f2⟩ := restore_float (is.zip vs) g4 (by
        rintro ⟨i, v⟩ hm
        rw [e1]
        exact e3 i (List.of_mem_zip hm).1)
      refine ⟨q2, is, vs, ys, ?_, g2, g3, sim_holds f2⟩
      unfold TQ.prioritizedSample
      rw [if_neg (by omega)]
      simp only [Int.toNat_natCast, g1, f1]
      rfl
  · right
    refine ⟨?_, g2⟩
    unfold TQ.prioritizedSample
    rw [if_neg (by omega)]
    rcases g1 with g1 | g1
    · left; simp only [Int.toNat_natCast, g1]
    · right; simp only [Int.toNat_natCast, g1]

/-- The priorities are multiples of a power of two, and so few that their sum can be represented. -/
structure Spec.Grid (p : ℕ) (g : ℤ) (xs : List (Fl rnd)) : Prop where
  mult : ∀ x ∈ xs, ∃ k : ℕ, x.val = k * 2 ^ g
  small : Spec.total xs ≤ 2 ^ p * 2 ^ g

/-- Rounding a difference does not move it across a number of the grid. -/
theorem round_lt (hr : Spec.Rounding p emin rnd) {g : ℤ} (hg : emin ≤ g) {a pos : ℚ} {i k : ℕ} (ha : a = i * 2 ^ g) (hk : k ≤ 2 ^ p)
    (hpos : Spec.Float p emin pos) (hap : a ≤ pos) : rnd (pos - a) < k * 2 ^ g ↔ pos - a < k * 2 ^ g := by
  have hc : Spec.Float p emin ((k : ℚ) * 2 ^ g) := ⟨k, g, hg, by rw [abs_of_nonneg (by positivity)]; exact_mod_cast hk, by push_cast; rfl⟩
  have hg0 := pow_pos' g
  constructor
  · intro h
    by_contra hcon
    have := hr.mono _ _ (by positivity) (not_lt.1 hcon)
    rw [hr.fixed _ hc] at this
    linarith
  · intro h
    have ha0 : 0 ≤ a := by rw [ha]; positivity
    suffices hd : ∃ d, Spec.Float p emin d ∧ pos - a ≤ d ∧ d < k * 2 ^ g by
      obtain ⟨d, h1, h2, h3⟩ := hd
      have := hr.mono _ _ (sub_nonneg.2 hap) h2
      rw [hr.fixed _ h1] at this
      linarith
    have hk1 : 1 ≤ k := by
      by_contra hk0
      have : k = 0 := by omega
      subst this
      push_cast at h
      linarith
    obtain ⟨m, e, he, hm, hpe⟩ := id hpos
    have he0 := pow_pos' e
    by_cases hge : g ≤ e
    · refine ⟨((k - 1 : ℕ) : ℚ) * 2 ^ g, ⟨(k - 1 : ℕ), g, hg, ?_, by push_cast; rfl⟩, ?_, ?_⟩
      · rw [abs_of_nonneg (by positivity)]
        have : ((k - 1 : ℕ) : ℤ) ≤ ((2 ^ p : ℕ) : ℤ) := by omega
        push_cast at this ⊢
        exact this
      · have h1 : pos = ((m * 2 ^ (e - g).toNat : ℤ) : ℚ) * 2 ^ g := by
          rw [hpe]
          push_cast
          rw [← zpow_natCast, Int.toNat_of_nonneg (by omega), mul_assoc, ← zpow_add₀ (by norm_num), sub_add_cancel]
        rw [h1, ha, ← sub_mul] at h ⊢
        have h2 : ((m * 2 ^ (e - g).toNat : ℤ) : ℚ) - i < k := lt_of_mul_lt_mul_right h hg0.le
        refine mul_le_mul_of_nonneg_right ?_ hg0.le
        have h3 : m * 2 ^ (e - g).toNat - i < k := by exact_mod_cast h2
        have h4 : m * 2 ^ (e - g).toNat - i ≤ ((k - 1 : ℕ) : ℤ) := by omega
        exact_mod_cast h4
      · exact mul_lt_mul_of_pos_right (by exact_mod_cast (by omega : k - 1 < k)) hg0
    · by_cases hbig : (2 : ℚ) ^ p * 2 ^ e < k * 2 ^ g
      · refine ⟨pos, hpos, by linarith, lt_of_le_of_lt ?_ hbig⟩
        rw [hpe]
        refine mul_le_mul_of_nonneg_right ?_ he0.le
        exact_mod_cast (le_abs_self m).trans hm
      · have hgk : (2 : ℚ) ^ g = ((2 ^ (g - e).toNat : ℤ) : ℚ) * 2 ^ e := by
          push_cast
          rw [← zpow_natCast, Int.toNat_of_nonneg (by omega), ← zpow_add₀ (by norm_num), sub_add_cancel]
        rw [ha, hpe, hgk, ← mul_assoc, ← mul_assoc, ← sub_mul] at h ⊢
        rw [hgk, ← mul_assoc] at hbig
        set w : ℤ := 2 ^ (g - e).toNat with hw
        have hw1 : 1 ≤ w := one_le_pow₀ (by norm_num)
        have h2 : (m : ℚ) - i * w < k * w := lt_of_mul_lt_mul_right h he0.le
        have h3 : m - i * w < k * w := by exact_mod_cast h2
        have h4 : (k : ℚ) * w ≤ 2 ^ p := le_of_mul_le_mul_right (not_lt.1 hbig) he0
        have h5 : (k : ℤ) * w ≤ 2 ^ p := by exact_mod_cast h4
        have h6 : 1 ≤ (k : ℤ) * w := by nlinarith
        refine ⟨((k * w - 1 : ℤ) : ℚ) * 2 ^ e, ⟨k * w - 1, e, he, by rw [abs_of_nonneg (by omega)]; omega, rfl⟩, ?_, ?_⟩
        · refine mul_le_mul_of_nonneg_right ?_ he0.le
          have : m - i * w ≤ k * w - 1 := by omega
          exact_mod_cast this
        · refine mul_lt_mul_of_pos_right ?_ he0
          push_cast
          linarith

/-- The values of a partial map are on the grid. -/
def OnGrid (g : ℤ) (m : Int → Option (Fl rnd)) : Prop := ∀ i v, m i = some v → ∃ k : ℕ, v.val = k * 2 ^ g

theorem exact_grid {g : ℤ} {m : Int → Option (Fl rnd)} (hm : OnGrid g m) (l : Int) (n : Nat) : ∃ k : ℕ, exact m l n = k * 2 ^ g := by
  induction n with
  | zero => exact ⟨0, by simp [exact, vals]⟩
  | succ n ih =>
    obtain ⟨k, hk⟩ := ih
    rw [exact_add, hk]
    cases hv : m (l + n) with
    | none => exact ⟨k, by simp [exact, vals, hv]⟩
    | some v =>
      obtain ⟨k', hk'⟩ := hm _ _ hv
      exact ⟨k + k', by simp [exact, vals, hv, hk']; ring⟩

theorem grid_float {g : ℤ} (hg : emin ≤ g) {k : ℕ} (h : (k : ℚ) * 2 ^ g ≤ 2 ^ p * 2 ^ g) : Spec.Float p emin ((k : ℚ) * 2 ^ g) := by
  refine ⟨k, g, hg, ?_, by push_cast; rfl⟩
  rw [abs_of_nonneg (by positivity)]
  have := le_of_mul_le_mul_right h (pow_pos' g)
  exact_mod_cast this

theorem node_exact (hr : Spec.Rounding p emin rnd) {g : ℤ} (hg : emin ≤ g) {m : Int → Option (Fl rnd)} (hm : OnGrid g m) (h : Nat) :
    ∀ l : Int, exact m l (2 ^ h) ≤ 2 ^ p * 2 ^ g → fval (build sumAgg h l m) = exact m l (2 ^ h) := by
  induction h with
  | zero =>
    intro l _
    cases hv : m l with
    | none => simp only [build, hv, fval, Node.val?, Option.getD_none]; simp [exact, vals, hv]; rfl
    | some v => simp only [build, hv, fval, Node.val?, Option.getD_some]; simp [exact, vals, hv]
  | succ h ih =>
    intro l hle
    rw [exact_succ] at hle ⊢
    obtain ⟨k1, h1⟩ := exact_grid hm l (2 ^ h)
    obtain ⟨k2, h2⟩ := exact_grid hm (l + 2 ^ h) (2 ^ h)
    have hg0 := pow_pos' g
    have p1 : (0 : ℚ) ≤ k1 * 2 ^ g := by positivity
    have p2 : (0 : ℚ) ≤ k2 * 2 ^ g := by positivity
    have e1 := ih l (by linarith)
    have e2 := ih (l + 2 ^ h) (by linarith)
    simp only [build]
    rw [fval_reduce hr (by rw [e1, h1]; exact grid_float hg (by linarith)), e1, e2]
    apply hr.fixed
    rw [h1, h2, ← add_mul, ← Nat.cast_add] at hle ⊢
    exact grid_float hg hle

/-- On the grid `_find` returns the exact position, although the differences are rounded. -/
theorem find_exact (hr : Spec.Rounding p emin rnd) {g : ℤ} (hg : emin ≤ g) {m : Int → Option (Fl rnd)} (hm : OnGrid g m) (h : Nat) :
    ∀ (fuel : Nat) (l : Int) (pos : Fl rnd) (t : ℚ), h ≤ fuel → Spec.Float p emin pos.val → exact m l (2 ^ h) ≤ 2 ^ p * 2 ^ g →
    (∀ k : ℕ, (k : ℚ) * 2 ^ g ≤ exact m l (2 ^ h) → (pos.val < k * 2 ^ g ↔ t < k * 2 ^ g)) → 0 ≤ t → t < exact m l (2 ^ h) →
    ∃ j : Nat, j < 2 ^ h ∧ find fuel l (l + 2 ^ h) (build sumAgg h l m) pos = .ok (l + j) ∧ exact m l j ≤ t ∧ t < exact m l (j + 1) := by
  induction h with
  | zero =>
    intro fuel l pos t _ _ _ _ h0 h1
    refine ⟨0, by simp, ?_, by simpa [exact, vals] using h0, by simpa using h1⟩
    unfold find
    rw [if_pos (by simp)]; simp
  | succ h ih =>
    intro fuel l pos t hfu hf hle hinv h0 h1
    obtain ⟨fuel, rfl⟩ : ∃ f, fuel = f + 1 := ⟨fuel - 1, by omega⟩
    have ei : (2 : Int) ^ (h + 1) = 2 ^ h + 2 ^ h := by rw [pow_succ]; omega
    have c : (l + ((2 ^ h : Nat) : Int)) = l + 2 ^ h := by push_cast; rfl
    have hpw : (0 : Int) < 2 ^ h := by positivity
    have e := pow2_split h
    obtain ⟨k1, hk1⟩ := exact_grid hm l (2 ^ h)
    obtain ⟨k2, hk2⟩ := exact_grid hm (l + 2 ^ h) (2 ^ h)
    have hg0 := pow_pos' g
    have p1 : (0 : ℚ) ≤ k1 * 2 ^ g := by positivity
    have p2 : (0 : ℚ) ≤ k2 * 2 ^ g := by positivity
    have hnn : build sumAgg (h + 1) l m ≠ .nil := by
      intro hc
      have := node_exact hr hg hm (h + 1) l hle
      rw [hc] at this
      have h3 : fval (Node.nil : Node (Fl rnd)) = 0 := rfl
      rw [h3] at this
      linarith
    obtain ⟨v, hv⟩ := reduce_branch hnn
    have hb : build sumAgg (h + 1) l m = .branch (build sumAgg h l m) (build sumAgg h (l + 2 ^ h) m) v := hv
    have hle' := hle
    have hinv' := hinv
    rw [exact_succ] at hle' hinv' h1
    have ea := node_exact hr hg hm h l (by linarith)
    have hfind : find (fuel + 1) l (l + 2 ^ (h + 1)) (build sumAgg (h + 1) l m) pos
        = if pos.val < fval (build sumAgg h l m) then find fuel l (l + 2 ^ h) (build sumAgg h l m) pos
          else find fuel (l + 2 ^ h) (l + 2 ^ h + 2 ^ h) (build sumAgg h (l + 2 ^ h) m) ⟨rnd (pos.val - fval (build sumAgg h l m))⟩ := by
      rw [hb]
      conv_lhs => unfold find
      rw [if_neg (by omega)]
      have hc : (l + (l + 2 ^ (h + 1))) / 2 = l + 2 ^ h := by omega
      simp only [hc]
      rw [show l + 2 ^ (h + 1) = l + 2 ^ h + 2 ^ h by omega]
      rfl
    rw [hfind, ea]
    have hcmp := hinv' k1 (by linarith)
    rw [← hk1] at hcmp
    by_cases hlt : pos.val < exact m l (2 ^ h)
    · rw [if_pos hlt]
      obtain ⟨j, g1, g2, g3, g4⟩ := ih fuel l pos t (by omega) hf (by linarith) (fun k hk => hinv' k (by linarith)) h0 (hcmp.1 hlt)
      exact ⟨j, by omega, g2, g3, g4⟩
    · rw [if_neg hlt]
      have hta : exact m l (2 ^ h) ≤ t := not_lt.1 fun hc => hlt (hcmp.2 hc)
      rw [not_lt] at hlt
      obtain ⟨j, g1, g2, g3, g4⟩ := ih fuel (l + 2 ^ h) ⟨rnd (pos.val - exact m l (2 ^ h))⟩ (t - exact m l (2 ^ h)) (by omega)
        (hr.float _ (sub_nonneg.2 hlt)) (by linarith) (by
          intro k hk
          have hkp : k ≤ 2 ^ p := by
            have : (k : ℚ) * 2 ^ g ≤ 2 ^ p * 2 ^ g := by linarith
            exact_mod_cast le_of_mul_le_mul_right this hg0
          have h2 := hinv' (k1 + k) (by push_cast; rw [add_mul]; linarith)
          push_cast at h2
          rw [add_mul, ← hk1] at h2
          rw [round_lt hr hg hk1 hkp hf hlt]
          constructor
          · intro h3
            have := h2.1 (by linarith)
            linarith
          · intro h3
            have := h2.2 (by linarith)
            linarith) (by linarith) (by linarith)
      refine ⟨2 ^ h + j, by omega, ?_, ?_, ?_⟩
      · rw [g2]; congr 1; push_cast; omega
      · rw [exact_add, c]; linarith
      · rw [add_assoc, exact_add, c]; linarith

theorem grid_look {g : ℤ} {xs : List (Fl rnd)} (hx : ∀ x ∈ xs, ∃ k : ℕ, x.val = k * 2 ^ g) : OnGrid g (look xs) := by
  intro i v hv
  unfold look at hv
  split at hv
  · exact hx v (List.mem_of_getElem? hv)
  · cases hv

theorem total_set_le {xs : List (Fl rnd)} (hx : ∀ x ∈ xs, 0 ≤ x.val) (i : Nat) : Spec.total (xs.set i 0) ≤ Spec.total xs := by
  unfold Spec.total
  induction xs generalizing i with
  | nil => simp
  | cons x xs ih =>
    cases i with
    | zero =>
      have h1 := hx x (by simp)
      have h2 : (0 : Fl rnd).val = 0 := rfl
      simp only [List.set_cons_zero, List.map_cons, List.sum_cons, h2]
      linarith
    | succ i =>
      simp only [List.set_cons_succ, List.map_cons, List.sum_cons]
      have := ih (fun y hy => hx y (by simp [hy])) i
      linarith

theorem Spec.Grid.set {g : ℤ} {xs : List (Fl rnd)} (h : Spec.Grid p g xs) (i : Nat) : Spec.Grid p g (xs.set i 0) where
  mult := by
    intro x hm
    rcases List.mem_or_eq_of_mem_set hm with h1 | rfl
    · exact h.mult x h1
    · exact ⟨0, by simp; rfl⟩
  small := (total_set_le (fun x hx => by
    obtain ⟨k, hk⟩ := h.mult x hx
    have := pow_pos' g
    rw [hk]; positivity) i).trans h.small

theorem map_set_zero (xs : List (Fl rnd)) (i : Nat) : (xs.set i 0).map Fl.val = (xs.map Fl.val).set i 0 := by
  rw [List.map_set]; rfl

theorem root_exact (hr : Spec.Rounding p emin rnd) {g : ℤ} (hg : emin ≤ g) {q : TQ (Fl rnd)} {xs : List (Fl rnd)} (hs : Sim sumAgg q xs)
    (hx : Spec.Grid p g xs) (hne : xs ≠ []) :
    ∃ root ixl ixr, q.tree = some (root, ixl, ixr) ∧ root.val? = some ⟨Spec.total xs⟩ ∧
      ∀ u : Fl rnd, 0 ≤ u.val → u.val < Spec.total xs → Spec.Float p emin u.val →
        ∃ i : Nat, i < xs.length ∧ find (depth ixl ixr) ixl ixr root u = .ok (i : Int) ∧ Spec.Owns (xs.map Fl.val) i u.val := by
  obtain ⟨hl, ht⟩ := hs
  cases hq : q.tree with
  | none => rw [hq] at ht; exact absurd ht hne
  | some tr =>
    obtain ⟨root, ixl, ixr⟩ := tr
    rw [hq] at ht
    obtain ⟨_, h, k, rfl, rfl, hk, hlen, rfl⟩ := ht
    have hk' : 2 * (k : Int) < 2 ^ h := by exact_mod_cast hk
    have hpos : 0 < xs.length := List.length_pos_of_ne_nil hne
    have hw : k + xs.length ≤ 2 ^ h := by zify; omega
    have hnn : build sumAgg h (-(k : Int)) (look xs) ≠ .nil := build_ne_nil h (i := 0) (by omega) (by omega) (by
      have := look_nat xs 0
      simp only [Nat.cast_zero] at this
      rw [this]; simp; omega)
    obtain ⟨S, hS⟩ := val_ne_none hnn
    have he : exact (look xs) (-(k : Int)) (2 ^ h) = Spec.total xs := by unfold exact; rw [vals_look_window xs hw]; rfl
    have hm := grid_look (g := g) hx.mult
    have hv := node_exact hr hg hm h (-(k : Int)) (by rw [he]; exact hx.small)
    have hS' : S = ⟨Spec.total xs⟩ := by
      unfold fval at hv
      rw [hS, he] at hv
      cases S
      simp only [Option.getD_some] at hv
      rw [hv]
    refine ⟨_, _, _, rfl, by rw [hS, hS'], ?_⟩
    intro u hu0 hu1 huf
    obtain ⟨j, g1, g2, g3, g4⟩ := find_exact hr hg hm h _ (-(k : Int)) u u.val (le_depth h _) huf (by rw [he]; exact hx.small)
      (fun _ _ => Iff.rfl) hu0 (by rw [he]; exact hu1)
    have hbef : ∀ j, exact (look xs) (-(k : Int)) j = ((xs.map Fl.val).take (j - k)).sum := by
      intro j; unfold exact; rw [vals_look_prefix, List.map_take]
    rw [hbef] at g3 g4
    have hjk : k ≤ j := by
      by_contra hc
      rw [show j + 1 - k = 0 by omega] at g4
      simp at g4
      linarith
    obtain ⟨i, rfl⟩ := Nat.exists_eq_add_of_le hjk
    rw [Nat.add_sub_cancel_left] at g3
    rw [add_assoc, Nat.add_sub_cancel_left] at g4
    refine ⟨i, ?_, ?_, g3, g4⟩
    · by_contra hc
      rw [List.take_of_length_le (by simp; omega)] at g3
      have : (xs.map Fl.val).sum = Spec.total xs := rfl
      linarith
    · rw [g2]; congr 1; push_cast; omega

theorem drawLoop_exact (hr : Spec.Rounding p emin rnd) {g : ℤ} (hg : emin ≤ g) {lo : ℚ} {rng : Nat → Fl rnd → Fl rnd}
    (hrng : Spec.FloatRng p emin lo rng) (n : Nat) : ∀ {t : Nat} {q : TQ (Fl rnd)} {xs : List (Fl rnd)}, Sim sumAgg q xs → Spec.Grid p g xs →
    (∀ x ∈ xs, 0 < x.val → lo ≤ x.val) → n ≤ fPos xs →
    ∃ q' is vs ys, drawLoop rng n t q = .ok (q', is, vs) ∧ is.length = n ∧ Sim sumAgg q' ys ∧ is.map (fun i => xs[i]?) = vs.map some ∧
      ys = Spec.zeroAt xs is ∧ Spec.Drawn (fun s x => (rng s ⟨x⟩).val) t (xs.map Fl.val) is (vs.map Fl.val) (ys.map Fl.val) := by
  induction n with
  | zero => intro t q xs hs _ _ _; exact ⟨q, [], [], xs, rfl, rfl, hs, rfl, by rw [zeroAt_nil], .nil⟩
  | succ n ih =>
    intro t q xs hs hx hlo hn
    have hne : xs ≠ [] := by rintro rfl; simp [fPos] at hn
    have hnn : ∀ x ∈ xs, 0 ≤ x.val := fun x hm => by
      obtain ⟨k, hk⟩ := hx.mult x hm
      have := pow_pos' g
      rw [hk]; positivity
    have hT : 0 < Spec.total xs := by
      have hq : 0 < nPos (xs.map Fl.val) := by
        unfold nPos
        rw [List.countP_map]
        exact lt_of_lt_of_le (Nat.succ_pos n) hn
      exact sum_pos_of_nPos (by
        intro y hy
        obtain ⟨x, hx, rfl⟩ := List.mem_map.1 hy
        exact hnn x hx) hq
    obtain ⟨root, ixl, ixr, hq, hS, hf⟩ := root_exact hr hg hs hx hne
    obtain ⟨y, hy, hy0⟩ := exists_pos (show 0 < fPos xs by omega)
    have hyT : y.val ≤ Spec.total xs := List.single_le_sum (by
      intro z hz
      obtain ⟨x, hx, rfl⟩ := List.mem_map.1 hz
      exact hnn x hx) _ (List.mem_map.2 ⟨y, hy, rfl⟩)
    have hTf : Spec.Float p emin (Spec.total xs) := by
      obtain ⟨k, hk⟩ := exact_grid (grid_look (g := g) hx.mult) 0 xs.length
      have he : exact (look xs) 0 xs.length = Spec.total xs := by unfold exact; rw [vals_look]; rfl
      have hs := hx.small
      rw [← he, hk] at hs ⊢
      exact grid_float hg hs
    obtain ⟨r0, r1, r2⟩ := hrng t ⟨Spec.total xs⟩ ((hlo y hy hy0).trans hyT) hT hTf
    obtain ⟨i, hi, hfi, ho⟩ := hf _ r0 r1 r2
    obtain ⟨q1, hw, hs1⟩ := write_sim hs hi 0
    have hxi : xs[i]? = some xs[i] := List.getElem?_eq_getElem hi
    obtain ⟨q', is, vs, ys, g1, g2, g3, g4, g5, g6⟩ := ih (t := t + 1) hs1 (hx.set i) (set_low hlo i) (by have := fPos_set xs i; omega)
    rw [map_set_zero] at g6
    have hcons : Spec.Drawn (fun s x => (rng s ⟨x⟩).val) t (xs.map Fl.val) (i :: is) ((xs[i] :: vs).map Fl.val) (ys.map Fl.val) :=
      .cons ho (by simp [hi]) g6
    have hnd := (drawn_sound hcons).1
    rw [List.nodup_cons] at hnd
    refine ⟨q', i :: is, xs[i] :: vs, ys, ?_, by simp [g2], g3, ?_, by rw [g5, zeroAt_cons], hcons⟩
    · conv_lhs => unfold drawLoop
      simp only [hq, hS, hfi, hw, hxi, g1, Int.toNat_natCast]
    · simp only [List.map_cons, hxi, List.cons.injEq, true_and]
      rw [← g4]
      apply List.map_congr_left
      intro j hj
      rw [List.getElem?_set]
      have : i ≠ j := fun e => hnd.1 (e ▸ hj)
      simp [this]

/-- **C137 (exact draws).** If the stored priorities are multiples of a power of two and their sum can be represented with the same exponent, then
floating point numbers change nothing: `sum()` is exact, and `prioritized_sample(n)` succeeds and draws, for every generator, the very items that
exact arithmetic draws (C07), although the differences on the way down the tree are rounded. -/
theorem float_draws_exact (hr : Spec.Rounding p emin rnd) {g : ℤ} (hg : emin ≤ g) (ops : List (Op (Fl rnd))) {xs popped : List (Fl rnd)}
    (hrun : Spec.run [] ops = some (xs, popped)) (hx : Spec.Grid p g xs) {lo : ℚ} (hlo : ∀ x ∈ xs, 0 < x.val → lo ≤ x.val)
    {rng : Nat → Fl rnd → Fl rnd} (hrng : Spec.FloatRng p emin lo rng) {n : Nat} (hn : n ≤ xs.countP (fun x => decide (0 < x.val))) (t : Nat) (remove : Bool) :
    ∃ q q' is vs ys, TQ.new.run sumAgg ops = .ok (q, popped.map some) ∧ q.sum = .ok ⟨(xs.map Fl.val).sum⟩ ∧
      q.prioritizedSample rng t n remove = .ok (q', is, vs) ∧ is.Nodup ∧ is.length = n ∧ is.map (fun i => xs[i]?) = vs.map some ∧
      Spec.Drawn (fun s x => (rng s ⟨x⟩).val) t (xs.map Fl.val) is (vs.map Fl.val) ys ∧
      Spec.Holds q' (if remove then Spec.zeroAt xs is else xs) := by
  have := run_sim ops (new_sim (sumAgg : Agg (Fl rnd)))
  rw [hrun] at this
  obtain ⟨q, h1, h2⟩ := this
  obtain ⟨q', is, vs, ys, g1, g2, g3, g4, g5, g6⟩ := drawLoop_exact hr hg hrng n (t := t) h2 hx hlo hn
  subst g5
  have hnd := (drawn_sound g6).1
  have hsum : q.sum = .ok ⟨(xs.map Fl.val).sum⟩ := by
    unfold TQ.sum
    by_cases hne : xs = []
    · subst hne
      have h0 : q.length = 0 := h2.1
      rw [if_pos h0]; rfl
    · obtain ⟨root, ixl, ixr, hq, hS, _⟩ := root_exact hr hg h2 hx hne
      rw [if_neg (by rw [h2.1]; simpa using hne), hq]
      simp only [hS]
      rfl
  cases remove with
  | true =>
    refine ⟨q, q', is, vs, _, h1, hsum, ?_, hnd, g2, g4, g6, sim_holds g3⟩
    unfold TQ.prioritizedSample
    rw [if_neg (by omega)]
    simp only [Int.toNat_natCast, g1, if_true]
  | false =>
    obtain ⟨q2, f1, f2⟩ := restore_float (is.zip vs) g3 (by
      rintro ⟨i, v⟩ hm
      have := lt_of_map_some g4 i (List.of_mem_zip hm).1
      simpa [Spec.zeroAt] using this)
    rw [foldl_set_zeroAt hnd g4 (by simp [Spec.zeroAt]) (fun j hj => zeroAt_getElem? xs is j hj)] at f2
    refine ⟨q, q2, is, vs, _, h1, hsum, ?_, hnd, g2, g4, g6, sim_holds f2⟩
    unfold TQ.prioritizedSample
    rw [if_neg (by omega)]
    simp only [Int.toNat_natCast, g1, f1]
    rfl

/-! ## Limits -/

/-- Python's `float`: double precision, rounding to nearest. -/
abbrev Double := Fl (rne 53 (-1074))

/-- The distance from `1` to the next number. -/
abbrev ulp : ℚ := 1 / 2 ^ 52

/-- The full property is false: three positive priorities, and the draw that `np.random.uniform(0.0, sum)` makes when the underlying generator
returns its largest number `1 - 2⁻⁵³`.  `_find` walks past the last item and the call raises an `AssertionError`.  It has then stored a priority
behind the last item, and every later `append` raises an `AssertionError` as well. -/
theorem float_draw_fails : ∃ (q q' : TQ Double) (S u : Double) (popped : List (Option Double)),
    TQ.new.run sumAgg [.append ⟨ulp⟩, .append ⟨ulp / 2⟩, .append ⟨1 + 2 * ulp⟩] = .ok (q, popped) ∧
    q.sum = .ok S ∧ u = npUniform 53 (-1074) (2 ^ 53 - 1) S ∧ 0 ≤ u.val ∧ u.val < S.val ∧
    q.prioritizedSample (fun _ _ => u) 0 1 true = .error .assertionError ∧
    q.write sumAgg 3 (some 0) = .ok (q', none) ∧ ∀ v, q'.append sumAgg v = .error .assertionError :=
  ⟨_, _, _, _, _, rfl, rfl, rfl, by decide +kernel, by decide +kernel, by decide +kernel, rfl, fun v => rfl⟩

/-- Four positive priorities: the second draw returns the item of the first draw again, whose priority is zero by then, and writing the
priorities back loses the priority of that item. -/
theorem float_draw_twice : ∃ (q : TQ Double) (popped : List (Option Double)) (rng : Nat → Double → Double),
    TQ.new.run sumAgg [.append ⟨ulp⟩, .append ⟨ulp / 2⟩, .append ⟨1 + 2 * ulp⟩, .append ⟨7⟩] = .ok (q, popped) ∧
    (q.sum = .ok ⟨8⟩ ∧ rng 0 ⟨8⟩ = ⟨5⟩) ∧
    ((q.write sumAgg 3 (some 0)).bind (fun r => r.1.sum) = .ok ⟨1 + 4 * ulp⟩ ∧ rng 1 ⟨1 + 4 * ulp⟩ = ⟨1 + 3 * ulp⟩) ∧
    (q.prioritizedSample rng 0 2 false).map (·.2) = .ok ([3, 3], [⟨7⟩, 0]) ∧
    (q.prioritizedSample rng 0 2 false).bind (fun r => (r.1.run sumAgg [.popleft, .popleft, .popleft, .popleft]).map (·.2))
      = .ok [some ⟨ulp⟩, some ⟨ulp / 2⟩, some ⟨1 + 2 * ulp⟩, some 0] :=
  ⟨_, _, fun t _ => if t = 0 then ⟨5⟩ else ⟨1 + 3 * ulp⟩, rfl, ⟨by decide +kernel, rfl⟩, ⟨by decide +kernel, rfl⟩, by decide +kernel,
    by decide +kernel⟩

/-- The error bound is not an artefact: the sum of ten priorities `0.1` is not the exact sum. -/
example : (TQ.new.run sumAgg (List.replicate 10 (.append (⟨3602879701896397 / 2 ^ 55⟩ : Double)))).bind (fun r => r.1.sum)
    ≠ .ok ⟨10 * (3602879701896397 / 2 ^ 55)⟩ := by decide +kernel

/-! ## Non-vacuity -/

/-- Double precision is a rounding. -/
example : Spec.Rounding 53 (-1074) (rne 53 (-1074)) := rne_rounding (by norm_num)

theorem float_nat {k : ℕ} (hk : k ≤ 2 ^ 53) : Spec.Float 53 (-1074) k :=
  ⟨k, 0, by norm_num, by rw [abs_of_nonneg (by positivity)]; exact_mod_cast hk, by simp⟩

/-- The numbers of the counterexamples can be represented. -/
example : Spec.Float 53 (-1074) ulp ∧ Spec.Float 53 (-1074) (ulp / 2) ∧ Spec.Float 53 (-1074) (1 + 2 * ulp) ∧
    Spec.Float 53 (-1074) (1 + 3 * ulp) :=
  ⟨⟨1, -52, by norm_num, by norm_num, by norm_num⟩, ⟨1, -53, by norm_num, by norm_num, by norm_num⟩,
    ⟨2 ^ 52 + 2, -52, by norm_num, by norm_num, by norm_num⟩, ⟨2 ^ 52 + 3, -52, by norm_num, by norm_num, by norm_num⟩⟩

/-- Numpy's generator, whatever the underlying numbers: a generator for sums in the normal range. -/
example (k : ℕ → ℕ) (hk : ∀ t, k t < 2 ^ 53) :
    Spec.FloatRng 53 (-1074) (2 ^ (-1021 : ℤ)) (fun t (hi : Double) => npUniform 53 (-1074) (k t) hi) :=
  fun t _ hlo _ hf => numpy_uniform (by norm_num) (hk t) (by convert hlo using 1; norm_num) hf

/-- Below the normal range numpy's generator can return the upper end. -/
example : (npUniform 53 (-1074) (3 * 2 ^ 51) ⟨2 ^ (-1074 : ℤ)⟩).val = 2 ^ (-1074 : ℤ) := by decide +kernel

/-- A history of calls: the sum is within the bound, and two draws succeed. -/
example : Spec.run [] [.append (⟨3⟩ : Double), .append ⟨1⟩, .append ⟨ulp⟩, .popleft, .set 0 ⟨5⟩, .append ⟨2⟩] = some ([⟨5⟩, ⟨ulp⟩, ⟨2⟩], [⟨3⟩]) ∧
    (∀ o ∈ [.append (⟨3⟩ : Double), .append ⟨1⟩, .append ⟨ulp⟩, .popleft, .set 0 ⟨5⟩, .append ⟨2⟩], Spec.OpOk 53 (-1074) o) ∧
    Spec.longest 0 [.append (⟨3⟩ : Double), .append ⟨1⟩, .append ⟨ulp⟩, .popleft, .set 0 ⟨5⟩, .append ⟨2⟩] = 3 := by
  refine ⟨by decide +kernel, ?_, rfl⟩
  have h3 := float_nat (k := 3) (by norm_num)
  have h1 := float_nat (k := 1) (by norm_num)
  have h5 := float_nat (k := 5) (by norm_num)
  have h2 := float_nat (k := 2) (by norm_num)
  have hu : Spec.Float 53 (-1074) ulp := ⟨1, -52, by norm_num, by norm_num, by norm_num⟩
  push_cast at h3 h1 h5 h2
  simp only [List.mem_cons, List.not_mem_nil, or_false, forall_eq_or_imp, forall_eq, Spec.OpOk]
  refine ⟨⟨h3, by norm_num⟩, ⟨h1, by norm_num⟩, ⟨hu, by norm_num⟩, trivial, ⟨h5, by norm_num⟩, ⟨h2, by norm_num⟩⟩

/-- Priorities on a grid: `3`, `1`, `4` in halves. -/
example : Spec.Grid 53 (-1) [(⟨3⟩ : Double), ⟨1 / 2⟩, ⟨4⟩] where
  mult := by
    intro x hx
    simp only [List.mem_cons, List.not_mem_nil, or_false] at hx
    rcases hx with rfl | rfl | rfl
    · exact ⟨6, by norm_num⟩
    · exact ⟨1, by norm_num⟩
    · exact ⟨8, by norm_num⟩
  small := by simp [Spec.total]; norm_num

end Pfrl.Tree
