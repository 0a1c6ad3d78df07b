import Verif.Value.Training

/-!
# Training DQN with a table and the epsilon-greedy explorers of pfrl (C147)

`training_optimal` asks for an epsilon that stays away from 0.  The explorers of pfrl have one if their final epsilon is positive.
-/

namespace Pfrl.Value.Training

open Filter MeasureTheory
open Pfrl.Value.Table (Agent Cfg)

variable {S E R : Type} {m : ℕ}

/-! ## Model -/

/-- The epsilon of `ConstantEpsilonGreedy` (`pfrl/explorers/epsilon_greedy.py:15-36`), `LinearDecayEpsilonGreedy` (`:42-85`, with a positive
number of steps) and `ExponentialDecayEpsilonGreedy` (`:91-131`) at each step, with the smallest epsilon they are constructed with (for the last
one, the final epsilon). -/
inductive Explorer : (ℕ → ℝ) → ℝ → Prop
  | constant (ε : ℝ) : Explorer (fun _ => ε) ε
  | linear {start stop : ℝ} {steps : ℕ} {eps : ℕ → ℝ} (hs : 0 < steps)
      (h : ∀ t, Numeric.linearEpsilon start stop steps t = some (eps t)) : Explorer eps (min start stop)
  | exponential (start stop decay : ℝ) : Explorer (Numeric.exponentialEpsilon start stop decay) stop

/-! ## Lemmas -/

theorem Explorer.le {eps : ℕ → ℝ} {ε : ℝ} (h : Explorer eps ε) (t : ℕ) : ε ≤ eps t := by
  cases h with
  | constant => exact le_refl _
  | @linear start stop steps _ hs h =>
    obtain ⟨eps', h1, _, _, h2, _⟩ := Numeric.linear_decay start stop hs
    have : eps' t = eps t := Option.some.inj ((h1 t).symm.trans (h t))
    rw [← this]
    exact (h2 t).1
  | exponential => exact le_max_right _ _

/-! ## C147 -/

/-- **C147 (explorers).** With each of the three explorers, if its epsilons are positive, training finds the optimal values and an optimal
policy almost surely. -/
theorem explorers_optimal {Ω : Type} [MeasurableSpace Ω] [MeasurableSpace R] [MeasurableSingletonClass R] {μ : Measure Ω} {p : ENNReal} {A : Args}
    {u : ℕ → Ω → ℝ} {random : ℕ → Ω → Fin m} {reset : ℕ → Ω → R} {gen : ℕ → Ω → List ℕ × (ℕ → ℕ)} (hd : Spec.Draws μ p A u random reset gen) (hp : p ≠ 0)
    [DecidableEq S] [NeZero m] [Fintype S] [Finite E] {W : World S E R m} (hW : Spec.Explorable W) {ε : ℝ} (hε : 0 < ε) (hexp : Explorer A.eps ε)
    (hB : 0 < A.batch) (hstart : A.batch ≤ A.start) (hint : 0 < A.interval) (hsync : 0 < A.sync)
    (hcap : ∀ c, A.capacity = some c → A.start ≤ c ∧ A.interval ≤ c) {cfg : Cfg} (h0 : 0 ≤ cfg.gamma) (h1 : cfg.gamma < 1) (hlr : 0 < cfg.lr)
    (hN : cfg.lr * (if cfg.mean then 1 else (A.batch : ℝ)) ≤ 1) (ht0 : 0 < cfg.tau) (ht1 : cfg.tau ≤ 1) {V : S → ℝ} {Q : S → Fin m → ℝ}
    (hQ : Iteration.Spec.Optimal W.toEnv cfg.gamma V Q) (ag : Agent S m) (e : E) :
    ∀ᵐ ω ∂μ, ∃ (fuel : ℕ → ℕ) (tr : ℕ → Loop S E m),
      (∀ n, train W cfg A (fun t => ⟨u t ω, random t ω, reset t ω, (gen t ω).1, (gen t ω).2, fuel t⟩) ag e n = some (tr n)) ∧
      (∀ s a, Tendsto (fun n => (tr n).agent.q s a) atTop (nhds (Q s a))) ∧
      ∃ K, ∀ n ≥ K, ∀ w, Returns.PG.Spec.Proper W.toEnv w → Iteration.Spec.Greedy w (tr n).agent.q →
        ∀ V' Q', Returns.PG.Spec.Values W.toEnv w cfg.gamma V' Q' → V' = V ∧ Q' = Q :=
  training_optimal hd hp hW hε hexp.le hB hstart hint hsync hcap h0 h1 hlr hN ht0 ht1 hQ ag e

/-! ## Non-vacuity -/

/-- The schedule of the Atari examples. -/
example : ∃ eps, Explorer eps (min 1 (1 / 10)) ∧ eps 0 = 1 := by
  obtain ⟨eps, h1, h2, _⟩ := Numeric.linear_decay 1 (1 / 10) (decaySteps := 1000000) (by norm_num)
  exact ⟨eps, .linear (by norm_num) h1, h2⟩

/-- The world of two rooms with exponentially decaying exploration. -/
example : ∃ (Ω : Type) (_ : MeasurableSpace Ω) (μ : Measure Ω) (inp : (ℕ → ℕ) → Ω → ℕ → Input (Fin 2) 2), IsProbabilityMeasure μ ∧
    ∀ᵐ ω ∂μ, ∃ (fuel : ℕ → ℕ) (tr : ℕ → Loop (Fin 2) (Fin 2 × Fin 3) 2),
      (∀ n, train rooms ⟨1 / 2, 1 / 4, 1, true, true⟩ ⟨2, 4, 2, 5, Numeric.exponentialEpsilon 1 (1 / 10) (99 / 100), some 8⟩ (inp fuel ω)
        ⟨fun _ _ => 0, fun _ _ => 0⟩ (0, 0) n = some (tr n)) ∧
      Tendsto (fun n => (tr n).agent.q 0 1) atTop (nhds 2) := by
  obtain ⟨Ω, _, μ, p, u, random, reset, gen, hp, hd⟩ := draws_exist (m := 2) (R := Fin 2)
    (A := ⟨2, 4, 2, 5, Numeric.exponentialEpsilon 1 (1 / 10) (99 / 100), some 8⟩) (by norm_num) (by norm_num)
  refine ⟨Ω, _, μ, fun fuel ω t => ⟨u t ω, random t ω, reset t ω, (gen t ω).1, (gen t ω).2, fuel t⟩, hd.independent.isProbabilityMeasure, ?_⟩
  have h := explorers_optimal hd hp rooms_explorable (ε := 1 / 10) (by norm_num) (.exponential _ _ _) (by norm_num) (by norm_num) (by norm_num) (by norm_num)
    (by rintro c hc; cases hc; norm_num) (cfg := ⟨1 / 2, 1 / 4, 1, true, true⟩) (by norm_num) (by norm_num) (by norm_num) (by norm_num) (by norm_num) (by norm_num)
    rooms_optimal ⟨fun _ _ => 0, fun _ _ => 0⟩ (0, 0)
  filter_upwards [h] with ω ⟨fuel, tr, h1, h2, _⟩
  refine ⟨fuel, tr, h1, ?_⟩
  simpa using h2 0 1

end Pfrl.Value.Training
