import Verif.Categorical.Float
import Verif.Numeric.Actions

/-!
# Rounding in exploration rates and target updates (C140)

The schedules of `pfrl/explorers/epsilon_greedy.py` and the update of `pfrl/utils/copy_param.py` with floating point numbers.
-/

namespace Pfrl.Floats

open Pfrl.Tree (rne pow_pos' eps_pos eps_lt float_mult float_zero)

/-! ## Model -/

/-- `LinearDecayEpsilonGreedy.compute_epsilon`, `pfrl/explorers/epsilon_greedy.py:71-76`: `rnd` rounds the results of the subtraction, the
division of two `int`, the product and the sum.  `none`: division by `decay_steps = 0`. -/
def flinearEpsilon (rnd : ℚ → ℚ) (start stop : ℚ) (decaySteps t : ℕ) : Option ℚ :=
  if t > decaySteps then some stop
  else if decaySteps = 0 then none
  else
    let diff := rnd (stop - start)
    some (rnd (start + rnd (diff * rnd ((t : ℚ) / decaySteps))))

/-- `ExponentialDecayEpsilonGreedy.compute_epsilon`, `epsilon_greedy.py:120-122`; `power decay t` is the floating point number Python computes
for `decay**t`. -/
def fexponentialEpsilon (rnd : ℚ → ℚ) (power : ℚ → ℕ → ℚ) (start stop decay : ℚ) (t : ℕ) : ℚ := max (rnd (start * power decay t)) stop

/-- The update of one number in `soft_copy_param`, `pfrl/utils/copy_param.py:17-18`: `keep` and `take` are the numbers `1 - tau` and `tau` in the
precision of the tensors. -/
def fsoft (rnd : ℚ → ℚ) (keep take target source : ℚ) : ℚ :=
  let target := rnd (target * keep)
  rnd (target + rnd (take * source))

/-- Calls of `soft_copy_param` after each update of the source, for one number: `sources` are the values of the source at the calls. -/
def fsoftRun (rnd : ℚ → ℚ) (keep take : ℚ) : ℚ → List ℚ → ℚ
  | target, [] => target
  | target, s :: sources => fsoftRun rnd keep take (fsoft rnd keep take target s) sources

/-! ## Specification -/

/-- Any correct rounding of numbers of either sign. -/
structure Spec.Rounding (p : ℕ) (emin : ℤ) (rnd : ℚ → ℚ) : Prop where
  float : ∀ x, Tree.Spec.Float p emin (rnd x)
  fixed : ∀ x, Tree.Spec.Float p emin x → rnd x = x
  mono : ∀ x y, x ≤ y → rnd x ≤ rnd y

/-- The exact linear schedule. -/
def Spec.linear (start stop : ℚ) (decaySteps t : ℕ) : ℚ := if t ≤ decaySteps then start + (stop - start) * (t / decaySteps) else stop

/-- The exact exponential average of a history of numbers. -/
def Spec.average (τ : ℚ) : ℚ → List ℚ → ℚ
  | T, [] => T
  | T, s :: ss => Spec.average τ ((1 - τ) * T + τ * s) ss

/-! ## Lemmas -/

variable {p : ℕ} {emin : ℤ} {rnd : ℚ → ℚ}

theorem float_neg {x : ℚ} (h : Tree.Spec.Float p emin x) : Tree.Spec.Float p emin (-x) := by
  obtain ⟨m, e, he, hm, rfl⟩ := h
  exact ⟨-m, e, he, by rwa [abs_neg], by push_cast; ring⟩

theorem rne_neg (x : ℚ) : rne p emin (-x) = -rne p emin x := by
  unfold rne
  rcases lt_trichotomy x 0 with h | rfl | h
  · rw [if_neg (by linarith : ¬ (-x = 0)), if_neg h.ne, abs_neg]
    rw [if_pos (by linarith), if_neg (not_lt.2 h.le), neg_neg]
  · simp
  · rw [if_neg (by linarith : ¬ (-x = 0)), if_neg h.ne', abs_neg]
    rw [if_neg (by linarith), if_pos h, neg_neg]

/-- IEEE rounding to nearest even is one. -/
theorem rne_rounding (hp : 1 ≤ p) : Spec.Rounding p emin (rne p emin) := by
  have hr := Tree.rne_rounding (emin := emin) hp
  refine ⟨?_, hr.fixed, ?_⟩
  · intro x
    rcases le_total 0 x with h | h
    · exact hr.float x h
    · have := float_neg (hr.float (-x) (by linarith))
      rwa [rne_neg, neg_neg] at this
  · intro x y hxy
    rcases le_total 0 x with h | h
    · exact hr.mono x y h hxy
    · rcases le_total 0 y with h' | h'
      · have h1 := hr.nonneg h'
        have h2 := hr.nonneg (x := -x) (by linarith)
        rw [rne_neg] at h2
        linarith
      · have := hr.mono (-y) (-x) (by linarith) (by linarith)
        rw [rne_neg, rne_neg] at this
        linarith

theorem Spec.Rounding.pos (hr : Spec.Rounding p emin rnd) : Tree.Spec.Rounding p emin rnd :=
  ⟨fun x _ => hr.float x, hr.fixed, fun x y _ h => hr.mono x y h⟩

theorem Spec.Rounding.neg (hr : Spec.Rounding p emin rnd) : Tree.Spec.Rounding p emin (fun x => -rnd (-x)) where
  float x _ := float_neg (hr.float _)
  fixed x hx := by rw [hr.fixed _ (float_neg hx), neg_neg]
  mono x y _ h := neg_le_neg (hr.mono _ _ (neg_le_neg h))

theorem Spec.Rounding.zero (hr : Spec.Rounding p emin rnd) : rnd 0 = 0 := hr.fixed 0 float_zero

/-- The error of any operation. -/
theorem Spec.Rounding.err (hr : Spec.Rounding p emin rnd) (hp : 2 ≤ p) (x : ℚ) : |rnd x - x| ≤ Tree.Spec.eps p * |x| + 2 * 2 ^ emin := by
  have he := eps_lt hp
  have h0 := eps_pos (p := p)
  have ht := pow_pos' emin
  have hm : Tree.Spec.eps p * 2 ^ emin ≤ 2 ^ emin := by nlinarith
  have hm0 := mul_pos h0 ht
  rcases le_total 0 x with h | h
  · obtain ⟨h1, h2⟩ := Categorical.err_any hr.pos hp h
    rw [abs_of_nonneg h, abs_le]
    constructor <;> linarith
  · obtain ⟨h1, h2⟩ := Categorical.err_any hr.neg hp (x := -x) (by linarith)
    simp only [neg_neg] at h1 h2
    rw [abs_of_nonpos h, abs_le]
    constructor <;> linarith

/-- The error of a sum or a difference. -/
theorem Spec.Rounding.err_add (hr : Spec.Rounding p emin rnd) {a b : ℚ} (ha : Tree.Spec.Float p emin a) (hb : Tree.Spec.Float p emin b) :
    |rnd (a + b) - (a + b)| ≤ Tree.Spec.eps p * |a + b| := by
  obtain ⟨k1, e1⟩ := float_mult ha
  obtain ⟨k2, e2⟩ := float_mult hb
  have hk : a + b = (k1 + k2 : ℤ) * 2 ^ emin := by rw [e1, e2]; push_cast; ring
  rcases le_total 0 (a + b) with h | h
  · obtain ⟨h1, h2⟩ := hr.pos.err h ⟨_, hk⟩
    rw [abs_of_nonneg h, abs_le]
    constructor <;> linarith
  · obtain ⟨h1, h2⟩ := hr.neg.err (x := -(a + b)) (by linarith) ⟨-(k1 + k2), by rw [hk]; push_cast; ring⟩
    simp only [neg_neg] at h1 h2
    rw [abs_of_nonpos h, abs_le]
    constructor <;> linarith

theorem float_one (he : emin ≤ 0) : Tree.Spec.Float p emin 1 :=
  ⟨1, 0, he, by simpa using (one_le_pow₀ (by norm_num : (1 : ℤ) ≤ 2) : (1 : ℤ) ≤ 2 ^ p), by simp⟩

theorem abs_tri {a b c x y : ℚ} (h1 : |a - b| ≤ x) (h2 : |b - c| ≤ y) : |a - c| ≤ x + y := by
  rw [abs_le] at *
  constructor <;> linarith [h1.1, h1.2, h2.1, h2.2]

/-! ## C140 -/

/-- **C140 (linear schedule, partial).** With any correct rounding, and `end_epsilon ≤ start_epsilon` both in `[0, 1]`, the linear schedule
starts exactly at `start_epsilon`, is a probability not larger than `start_epsilon` at every step, never increases before it reaches
`decay_steps`, differs from the exact schedule by at most four units of rounding, and is exactly `end_epsilon` afterwards.

What is missing: `end_epsilon` is the "min value of epsilon" (`linear_epsilon_below_end`). -/
theorem linear_epsilon_partial (hr : Spec.Rounding p emin rnd) (hp : 2 ≤ p) (he : emin ≤ 0) {start stop : ℚ} (hs : Tree.Spec.Float p emin start)
    (hs1 : start ≤ 1) (ht : Tree.Spec.Float p emin stop) (ht0 : 0 ≤ stop) (hle : stop ≤ start) {D : ℕ} (hD : 0 < D) :
    flinearEpsilon rnd start stop D 0 = some start ∧ (∀ t, D < t → flinearEpsilon rnd start stop D t = some stop) ∧
    (∀ t, ∃ ε, flinearEpsilon rnd start stop D t = some ε ∧ Tree.Spec.Float p emin ε ∧ 0 ≤ ε ∧ ε ≤ start ∧
      |ε - Spec.linear start stop D t| ≤ 4 * (Tree.Spec.eps p + 2 ^ emin)) ∧
    ∀ t t' ε ε', t ≤ t' → t' ≤ D → flinearEpsilon rnd start stop D t = some ε → flinearEpsilon rnd start stop D t' = some ε' → ε' ≤ ε := by
  have hE0 := eps_pos (p := p)
  have hE1 := eps_lt hp
  have hθ := pow_pos' emin
  have hD' : (0 : ℚ) < D := by exact_mod_cast hD
  have hstart0 : 0 ≤ start := ht0.trans hle
  set a := rnd (stop - start) with ha
  have ha0 : a ≤ 0 := by have := hr.mono _ _ (by linarith : stop - start ≤ 0); rwa [hr.zero] at this
  have ha1 : -start ≤ a := by have := hr.mono _ _ (by linarith : -start ≤ stop - start); rwa [hr.fixed _ (float_neg hs)] at this
  have haf : Tree.Spec.Float p emin a := hr.float _
  have haerr : |a - (stop - start)| ≤ Tree.Spec.eps p * |stop - start| := by
    have := hr.err_add ht (float_neg hs)
    rwa [← sub_eq_add_neg] at this
  have val : ∀ t, t ≤ D → flinearEpsilon rnd start stop D t = some (rnd (start + rnd (a * rnd ((t : ℚ) / D)))) := by
    intro t h
    unfold flinearEpsilon
    rw [if_neg (by omega), if_neg (by omega)]
  have after : ∀ t, D < t → flinearEpsilon rnd start stop D t = some stop := fun t h => by unfold flinearEpsilon; rw [if_pos h]
  have ratio : ∀ t : ℕ, t ≤ D → 0 ≤ (t : ℚ) / D ∧ (t : ℚ) / D ≤ 1 ∧ 0 ≤ rnd ((t : ℚ) / D) ∧ rnd ((t : ℚ) / D) ≤ 1 := by
    intro t h
    have h0 : 0 ≤ (t : ℚ) / D := by positivity
    have h1 : (t : ℚ) / D ≤ 1 := by rw [div_le_one hD']; exact_mod_cast h
    refine ⟨h0, h1, ?_, ?_⟩
    · have := hr.mono _ _ h0; rwa [hr.zero] at this
    · have := hr.mono _ _ h1; rwa [hr.fixed _ (float_one he)] at this
  have prod : ∀ t : ℕ, t ≤ D → -start ≤ rnd (a * rnd ((t : ℚ) / D)) ∧ rnd (a * rnd ((t : ℚ) / D)) ≤ 0 := by
    intro t h
    obtain ⟨_, _, h0, h1⟩ := ratio t h
    constructor
    · have := hr.mono a (a * rnd ((t : ℚ) / D)) (by nlinarith)
      rw [hr.fixed _ haf] at this
      linarith
    · have := hr.mono (a * rnd ((t : ℚ) / D)) 0 (by nlinarith)
      rwa [hr.zero] at this
  refine ⟨?_, after, ?_, ?_⟩
  · rw [val 0 (by omega)]
    simp [hr.zero, hr.fixed _ hs]
  · intro t
    by_cases htD : t ≤ D
    · obtain ⟨q0, q1, r0, r1⟩ := ratio t htD
      obtain ⟨b0, b1⟩ := prod t htD
      refine ⟨_, val t htD, hr.float _, ?_, ?_, ?_⟩
      · have := hr.mono 0 _ (by linarith : 0 ≤ start + rnd (a * rnd ((t : ℚ) / D))); rwa [hr.zero] at this
      · have := hr.mono _ start (by linarith : start + rnd (a * rnd ((t : ℚ) / D)) ≤ start); rwa [hr.fixed _ hs] at this
      · set q := (t : ℚ) / D with hq
        set r := rnd q with hrr
        set b := rnd (a * r) with hb
        have e1 : |r - q| ≤ Tree.Spec.eps p + 2 * 2 ^ emin := by
          have := hr.err hp q
          rw [abs_of_nonneg q0] at this
          nlinarith
        have e2 : |b - a * r| ≤ Tree.Spec.eps p * |a * r| + 2 * 2 ^ emin := hr.err hp _
        have e3 : |rnd (start + b) - (start + b)| ≤ Tree.Spec.eps p * |start + b| := hr.err_add hs (hr.float _)
        have hab : |a| ≤ 1 := by rw [abs_le]; constructor <;> linarith
        have har : |a * r| ≤ 1 := by rw [abs_mul, abs_of_nonneg r0]; nlinarith [abs_nonneg a]
        have hsb : |start + b| ≤ 1 := by rw [abs_le]; constructor <;> linarith
        have hd : |stop - start| ≤ 1 := by rw [abs_le]; constructor <;> linarith
        have e2' : |b - a * r| ≤ Tree.Spec.eps p + 2 * 2 ^ emin := e2.trans (by nlinarith)
        have e3' : |rnd (start + b) - (start + b)| ≤ Tree.Spec.eps p := e3.trans (by nlinarith)
        have haerr' : |a - (stop - start)| ≤ Tree.Spec.eps p := haerr.trans (by nlinarith)
        have e4 : |a * r - (stop - start) * q| ≤ 2 * Tree.Spec.eps p + 2 * 2 ^ emin := by
          have f1 : |a * r - a * q| ≤ Tree.Spec.eps p + 2 * 2 ^ emin := by
            rw [← mul_sub, abs_mul]
            nlinarith [abs_nonneg (r - q), abs_nonneg a]
          have f2 : |a * q - (stop - start) * q| ≤ Tree.Spec.eps p := by
            rw [← sub_mul, abs_mul, abs_of_nonneg q0]
            nlinarith [abs_nonneg (a - (stop - start))]
          have := abs_tri f1 f2
          linarith
        have e5 := abs_tri e2' e4
        have e6 : |start + b - (start + (stop - start) * q)| ≤ Tree.Spec.eps p + 2 * 2 ^ emin + (2 * Tree.Spec.eps p + 2 * 2 ^ emin) := by
          rwa [add_sub_add_left_eq_sub]
        have e7 := abs_tri e3' e6
        unfold Spec.linear
        rw [if_pos htD]
        linarith
    · refine ⟨stop, after t (by omega), ht, ht0, hle, ?_⟩
      unfold Spec.linear
      rw [if_neg htD, sub_self, abs_zero]
      positivity
  · intro t t' ε ε' h1 h2 h3 h4
    rw [val t (by omega)] at h3
    rw [val t' h2] at h4
    cases h3
    cases h4
    refine hr.mono _ _ ?_
    have hq : (t : ℚ) / D ≤ (t' : ℚ) / D := div_le_div_of_nonneg_right (by exact_mod_cast h1) hD'.le
    have := hr.mono _ _ (mul_le_mul_of_nonpos_left (hr.mono _ _ hq) ha0)
    linarith

/-- **C140 (exponential schedule).** With any correct rounding, and any power function that returns numbers of `[0, 1]`: the exponential schedule
lies between `end_epsilon` and the larger of both ends at every step. -/
theorem exponential_epsilon (hr : Spec.Rounding p emin rnd) {power : ℚ → ℕ → ℚ} {start stop decay : ℚ} (hs : Tree.Spec.Float p emin start)
    (hs0 : 0 ≤ start) (hpow : ∀ t, 0 ≤ power decay t ∧ power decay t ≤ 1) (t : ℕ) :
    stop ≤ fexponentialEpsilon rnd power start stop decay t ∧ fexponentialEpsilon rnd power start stop decay t ≤ max start stop := by
  refine ⟨le_max_right _ _, max_le_max ?_ le_rfl⟩
  have := hr.mono (start * power decay t) start (by nlinarith [hpow t])
  rwa [hr.fixed _ hs] at this

/-- One update against the exact one. -/
theorem fsoft_err (hr : Spec.Rounding p emin rnd) (hp : 2 ≤ p) {keep take τ η S T t s : ℚ} (hk0 : 0 ≤ keep) (htk : 0 ≤ take)
    (hk : |keep - (1 - τ)| ≤ η) (ht : |take - τ| ≤ η) (hT : |T| ≤ S) (hs : |s| ≤ S) :
    |fsoft rnd keep take t s - ((1 - τ) * T + τ * s)| ≤
      keep * (1 + Tree.Spec.eps p) ^ 2 * |t - T| + (((1 + Tree.Spec.eps p) ^ 2 - 1) * (keep + take) * S + 2 * η * S + 8 * 2 ^ emin) := by
  have hE0 := eps_pos (p := p)
  have hE1 := eps_lt hp
  have hθ := pow_pos' emin
  set ε := Tree.Spec.eps p with hε
  set θ : ℚ := 2 ^ emin with hθd
  have h1 : |rnd (t * keep) - t * keep| ≤ ε * |t * keep| + 2 * θ := hr.err hp _
  have h2 : |rnd (take * s) - take * s| ≤ ε * |take * s| + 2 * θ := hr.err hp _
  have h3 : |rnd (rnd (t * keep) + rnd (take * s)) - (rnd (t * keep) + rnd (take * s))| ≤ ε * |rnd (t * keep) + rnd (take * s)| :=
    hr.err_add (hr.float _) (hr.float _)
  set A := rnd (t * keep)
  set B := rnd (take * s)
  have htT : |t| ≤ |t - T| + S := by
    have := abs_add_le (t - T) T
    rw [sub_add_cancel] at this
    linarith
  have hm1 : |t * keep| ≤ keep * |t - T| + keep * S := by
    rw [abs_mul, abs_of_nonneg hk0]
    nlinarith
  have hm2 : |take * s| ≤ take * S := by
    rw [abs_mul, abs_of_nonneg htk]
    exact mul_le_mul_of_nonneg_left hs htk
  set M := keep * |t - T| + keep * S + take * S with hM
  have hS : 0 ≤ S := (abs_nonneg _).trans hs
  have hM0 : 0 ≤ M := by positivity
  have hsum : |A + B - (t * keep + take * s)| ≤ ε * M + 4 * θ := by
    have : A + B - (t * keep + take * s) = (A - t * keep) + (B - take * s) := by ring
    rw [this]
    refine (abs_add_le _ _).trans ?_
    have g1 := mul_le_mul_of_nonneg_left hm1 hE0.le
    have g2 := mul_le_mul_of_nonneg_left hm2 hE0.le
    rw [hM]
    linarith
  have hAB : |A + B| ≤ (1 + ε) * M + 4 * θ := by
    have h := abs_add_le (A + B - (t * keep + take * s)) (t * keep + take * s)
    rw [sub_add_cancel] at h
    have h' := abs_add_le (t * keep) (take * s)
    linarith
  have h3' : |rnd (A + B) - (A + B)| ≤ ε * ((1 + ε) * M + 4 * θ) := h3.trans (mul_le_mul_of_nonneg_left hAB hE0.le)
  have hex : |t * keep + take * s - ((1 - τ) * T + τ * s)| ≤ keep * |t - T| + 2 * η * S := by
    have : t * keep + take * s - ((1 - τ) * T + τ * s) = keep * (t - T) + ((keep - (1 - τ)) * T + (take - τ) * s) := by ring
    rw [this]
    refine (abs_add_le _ _).trans ?_
    rw [abs_mul, abs_of_nonneg hk0]
    have g := abs_add_le ((keep - (1 - τ)) * T) ((take - τ) * s)
    rw [abs_mul, abs_mul] at g
    have g1 : |keep - (1 - τ)| * |T| ≤ η * S := mul_le_mul hk hT (abs_nonneg _) ((abs_nonneg _).trans hk)
    have g2 : |take - τ| * |s| ≤ η * S := mul_le_mul ht hs (abs_nonneg _) ((abs_nonneg _).trans ht)
    linarith
  have hall := abs_tri (abs_tri h3' hsum) hex
  refine hall.trans ?_
  have hεθ : ε * θ ≤ θ := by nlinarith
  have e : ε * ((1 + ε) * M + 4 * θ) + (ε * M + 4 * θ) + (keep * |t - T| + 2 * η * S) =
      keep * (1 + ε) ^ 2 * |t - T| + (((1 + ε) ^ 2 - 1) * (keep + take) * S + 2 * η * S + (4 * (ε * θ) + 4 * θ)) := by rw [hM]; ring
  rw [e]
  linarith

theorem average_le {τ S : ℚ} (h0 : 0 ≤ τ) (h1 : τ ≤ 1) {T s : ℚ} (hT : |T| ≤ S) (hs : |s| ≤ S) : |(1 - τ) * T + τ * s| ≤ S := by
  rw [abs_le] at *
  constructor <;> nlinarith

/-- **C140 (target updates, partial).** With any correct rounding, and any history of a number of the source model bounded by `S`: after any
number of soft updates the number of the target differs from the exact exponential average by at most a constant that does not depend on the
number of updates.  `η` bounds the rounding of `tau` and `1 - tau` themselves.

What is missing: the target does not in general reach the source, and does not stay equal to it (`soft_update_stuck`, `soft_update_drifts`). -/
theorem soft_update_partial (hr : Spec.Rounding p emin rnd) (hp : 2 ≤ p) {keep take τ η S : ℚ} (hτ0 : 0 ≤ τ) (hτ1 : τ ≤ 1) (hk0 : 0 ≤ keep)
    (htk : 0 ≤ take) (hk : |keep - (1 - τ)| ≤ η) (ht : |take - τ| ≤ η) (hρ : keep * (1 + Tree.Spec.eps p) ^ 2 < 1) {T : ℚ} (hT : |T| ≤ S)
    (ss : List ℚ) (hss : ∀ s ∈ ss, |s| ≤ S) :
    |fsoftRun rnd keep take T ss - Spec.average τ T ss| ≤
      (((1 + Tree.Spec.eps p) ^ 2 - 1) * (keep + take) * S + 2 * η * S + 8 * 2 ^ emin) / (1 - keep * (1 + Tree.Spec.eps p) ^ 2) := by
  set R := ((1 + Tree.Spec.eps p) ^ 2 - 1) * (keep + take) * S + 2 * η * S + 8 * 2 ^ emin with hR
  set ρ := keep * (1 + Tree.Spec.eps p) ^ 2 with hρd
  have hd : 0 < 1 - ρ := by linarith
  have hρ0 : 0 ≤ ρ := by positivity
  have main : ∀ (ss : List ℚ) (t T : ℚ), |T| ≤ S → (∀ s ∈ ss, |s| ≤ S) → |t - T| ≤ R / (1 - ρ) →
      |fsoftRun rnd keep take t ss - Spec.average τ T ss| ≤ R / (1 - ρ) := by
    intro ss
    induction ss with
    | nil => intro t T _ _ h; exact h
    | cons s ss ih =>
      intro t T hT hss h
      have hs := hss s (by simp)
      refine ih _ _ (average_le hτ0 hτ1 hT hs) (fun x hx => hss x (by simp [hx])) ?_
      refine (fsoft_err hr hp hk0 htk hk ht hT hs).trans ?_
      rw [← hR, ← hρd]
      have h1 := mul_le_mul_of_nonneg_left h hρ0
      have h2 : ρ * (R / (1 - ρ)) + R = R / (1 - ρ) := by field_simp; ring
      linarith
  refine main ss T T hT hss ?_
  rw [sub_self, abs_zero]
  have hS : 0 ≤ S := (abs_nonneg _).trans hT
  have hη : 0 ≤ η := (abs_nonneg _).trans hk
  have hE0 := eps_pos (p := p)
  have hθ := pow_pos' emin
  have : 0 ≤ (1 + Tree.Spec.eps p) ^ 2 - 1 := by nlinarith
  exact div_nonneg (by positivity) hd.le

/-- The exact average approaches a constant source geometrically. -/
theorem average_constant (τ T s : ℚ) (n : ℕ) : Spec.average τ T (List.replicate n s) - s = (1 - τ) ^ n * (T - s) := by
  induction n generalizing T with
  | zero => simp [Spec.average]
  | succ n ih => rw [List.replicate_succ, Spec.average, ih]; ring

/-- **C140 (target updates with a fixed source).** The target approaches a fixed source geometrically, up to the constant of
`soft_update_partial`. -/
theorem soft_update_constant (hr : Spec.Rounding p emin rnd) (hp : 2 ≤ p) {keep take τ η S : ℚ} (hτ0 : 0 ≤ τ) (hτ1 : τ ≤ 1) (hk0 : 0 ≤ keep)
    (htk : 0 ≤ take) (hk : |keep - (1 - τ)| ≤ η) (ht : |take - τ| ≤ η) (hρ : keep * (1 + Tree.Spec.eps p) ^ 2 < 1) {T s : ℚ} (hT : |T| ≤ S)
    (hs : |s| ≤ S) (n : ℕ) :
    |fsoftRun rnd keep take T (List.replicate n s) - s| ≤ (1 - τ) ^ n * |T - s| +
      (((1 + Tree.Spec.eps p) ^ 2 - 1) * (keep + take) * S + 2 * η * S + 8 * 2 ^ emin) / (1 - keep * (1 + Tree.Spec.eps p) ^ 2) := by
  have h1 := soft_update_partial hr hp hτ0 hτ1 hk0 htk hk ht hρ hT (List.replicate n s) (fun x hx => by rw [List.eq_of_mem_replicate hx]; exact hs)
  have h2 : |Spec.average τ T (List.replicate n s) - s| ≤ (1 - τ) ^ n * |T - s| := by
    rw [average_constant, abs_mul, abs_of_nonneg (pow_nonneg (by linarith) n)]
  have := abs_tri h1 h2
  linarith

/-! ## Limits -/

/-- Numbers of type `float64` (Python's `float`) and `float32` (the parameters of models), without overflow. -/
abbrev f64 : ℚ → ℚ := rne 53 (-1074)
abbrev f32 : ℚ → ℚ := rne 24 (-149)

/-- `1.0 + (0.1 - 1.0) * 1.0` is less than `0.1`: with these ends and any number of steps, the schedule goes below `end_epsilon` at the step
`decay_steps` and back up at the next. -/
theorem linear_epsilon_below_end {D : ℕ} (hD : 0 < D) :
    ∃ ε, flinearEpsilon f64 1 (f64 (1 / 10)) D D = some ε ∧ ε < f64 (1 / 10) ∧ flinearEpsilon f64 1 (f64 (1 / 10)) D (D + 1) = some (f64 (1 / 10)) := by
  refine ⟨f64 (1 + f64 (f64 (f64 (1 / 10) - 1) * f64 1)), ?_, by decide +kernel, ?_⟩
  · unfold flinearEpsilon
    rw [if_neg (by omega), if_neg (by omega), div_self (by exact_mod_cast hD.ne')]
  · unfold flinearEpsilon
    rw [if_pos (by omega)]

/-- `tau = 0.005` and `1 - tau` as factors of `float32` tensors. -/
def take32 : ℚ := f32 (f64 (5 / 1000))
def keep32 : ℚ := f32 (f64 (1 - f64 (5 / 1000)))

/-- With `tau = 0.005` in single precision a target at `1 - 25 / 4194304` stays there for ever although the source is `1`. -/
theorem soft_update_stuck (n : ℕ) : fsoftRun f32 keep32 take32 (4194279 / 4194304) (List.replicate n 1) = 4194279 / 4194304 := by
  have h : fsoft f32 keep32 take32 (4194279 / 4194304) 1 = 4194279 / 4194304 := by decide +kernel
  induction n with
  | zero => rfl
  | succ n ih => rw [List.replicate_succ, fsoftRun, h, ih]

/-- With `tau = 0.005` in single precision a target that equals the source `3` is moved away from it. -/
theorem soft_update_drifts : fsoft f32 keep32 take32 3 3 = 3 + 1 / 4194304 := by decide +kernel

/-! ## Non-vacuity -/

/-- In double precision, the schedule from 1 to 0.1 over a million steps. -/
example (t : ℕ) : ∃ ε, flinearEpsilon f64 1 (f64 (1 / 10)) 1000000 t = some ε ∧ 0 ≤ ε ∧ ε ≤ 1 := by
  have hr : Spec.Rounding 53 (-1074) f64 := rne_rounding (by norm_num)
  obtain ⟨ε, h1, _, h2, h3, _⟩ := (linear_epsilon_partial hr (by norm_num) (by norm_num) (float_one (by norm_num)) le_rfl (hr.float (1 / 10))
    (by decide +kernel) (by decide +kernel) (D := 1000000) (by norm_num)).2.2.1 t
  exact ⟨ε, h1, h2, h3⟩

/-- With the identity as rounding the schedule is the one of C51. -/
example (start stop : ℚ) (D t : ℕ) : (flinearEpsilon id start stop D t).map (fun x => (x : ℝ)) = Numeric.linearEpsilon start stop D t := by
  unfold flinearEpsilon Numeric.linearEpsilon
  split
  · rfl
  · split
    · rfl
    · simp

/-- `tau = 0.005` in single precision: any history of a parameter bounded by 1 keeps the target within 0.0001 of the exact average. -/
example (ss : List ℚ) (hss : ∀ s ∈ ss, |s| ≤ 1) : |fsoftRun f32 keep32 take32 0 ss - Spec.average (5 / 1000) 0 ss| ≤ 1 / 10000 := by
  refine (soft_update_partial (rne_rounding (by norm_num)) (by norm_num) (τ := 5 / 1000) (η := 1 / 2 ^ 25) (S := 1) (by norm_num) (by norm_num)
    (by decide +kernel) (by decide +kernel) (by decide +kernel) (by decide +kernel) ?_ (by norm_num) ss hss).trans ?_
  · unfold Tree.Spec.eps; decide +kernel
  · unfold Tree.Spec.eps; decide +kernel

end Pfrl.Floats
