import Mathlib.Topology.MetricSpace.Contracting
import Mathlib.Analysis.SpecificLimits.Basic
import Mathlib.Topology.Order.MonotoneConvergence
import Verif.Returns.Critic
import Verif.Value.Targets

/-!
# What the targets of the Q-learning family are targets of (C105)

A target network is fitted exactly: the new action value of a state and action is the average, over what the environment
does, of the target the agent computes for the stored experience.  Environments, trajectories and the values of a policy
are those of `Returns/PolicyGradient.lean` and `Returns/Critic.lean`.
-/

namespace Pfrl.Value.Iteration

open Finset Filter
open Pfrl.Batch (Trans Out batchExperiences)
open Pfrl.Returns.PG (Env Outcome Step a3cStop)

set_option linter.unusedSectionVars false

variable {S O : Type} [Fintype O] {m : ℕ}

/-! ## Model -/

/-- The output of a network with the action values `Q`. -/
def row (Q : S → Fin m → ℝ) (s : S) : List ℝ := List.ofFn (Q s)

/-- The transition an agent stores, `pfrl/agents/dqn.py:522-544`. -/
def trans (x : Step S (Fin m)) : Trans S Nat ℝ := ⟨x.s, x.a, x.out.reward, x.out.next, none, x.out.done⟩

/-- The target computed for one experience, `pfrl/agents/dqn.py:407-436`: batching, then the agent's formula. -/
noncomputable def targetOf (gamma : ℝ) (compute : Out S Nat ℝ → Option (List ℝ)) (exp : List (Trans S Nat ℝ)) : Option ℝ :=
  match batchExperiences id gamma [exp] with
  | .error _ => none
  | .ok out => (compute out).bind List.head?

/-- Exact fitting: the mean target of `s` and `a` over all experiences of at most `n` transitions that begin with them,
when the actions after the first one are drawn from `mu`.  Experiences end with their episode,
`pfrl/replay_buffers/replay_buffer.py:41-62`. -/
noncomputable def fit (M : Env S (Fin m) O) (mu : S → Fin m → ℝ) (n : ℕ) (target : List (Trans S Nat ℝ) → Option ℝ)
    (s : S) (a : Fin m) : ℝ :=
  ∑ o, M.prob s a o * if a3cStop (M.out s a o) then (target [trans ⟨s, a, M.out s a o⟩]).getD 0
    else M.expect a3cStop mu (n - 1) (M.out s a o).next fun tr _ =>
      (target ((⟨s, a, M.out s a o⟩ :: tr).map trans)).getD 0

/-- DQN, `pfrl/agents/dqn.py:388-405`. -/
noncomputable def dqnFit (M : Env S (Fin m) O) (mu : S → Fin m → ℝ) (gamma : ℝ) (n : ℕ) (Q : S → Fin m → ℝ) :
    S → Fin m → ℝ := fit M mu n (targetOf gamma (dqnTargets (row Q)))

/-- Double DQN, `pfrl/agents/double_dqn.py:12-40`; `q` is the online network. -/
noncomputable def doubleFit (M : Env S (Fin m) O) (mu : S → Fin m → ℝ) (gamma : ℝ) (n : ℕ) (q Q : S → Fin m → ℝ) :
    S → Fin m → ℝ := fit M mu n (targetOf gamma (doubleDqnTargets (row q) (row Q)))

/-- Advantage learning, `pfrl/agents/al.py:30-78`. -/
noncomputable def alFit (M : Env S (Fin m) O) (mu : S → Fin m → ℝ) (gamma alpha : ℝ) (n : ℕ) (Q : S → Fin m → ℝ) :
    S → Fin m → ℝ := fit M mu n (targetOf gamma (alTargets alpha (row Q)))

/-- Persistent advantage learning, `pfrl/agents/pal.py:23-77`. -/
noncomputable def palFit (M : Env S (Fin m) O) (mu : S → Fin m → ℝ) (gamma alpha : ℝ) (n : ℕ) (Q : S → Fin m → ℝ) :
    S → Fin m → ℝ := fit M mu n (targetOf gamma (palTargets alpha (row Q)))

/-- `AbstractDPP` with the operator `L`, `pfrl/agents/dpp.py:19-83`. -/
noncomputable def dppFit (L : (Fin m → ℝ) → ℝ) (M : Env S (Fin m) O) (mu : S → Fin m → ℝ) (gamma : ℝ) (n : ℕ)
    (Q : S → Fin m → ℝ) : S → Fin m → ℝ := fit M mu n (targetOf gamma (dppTargets (fun s => L (Q s)) (row Q)))

/-- `DPPGreedy`, `dpp.py:121-128`: the operator is the `max` of the action values. -/
noncomputable def dppGreedyFit (M : Env S (Fin m) O) (mu : S → Fin m → ℝ) (gamma : ℝ) (n : ℕ) (Q : S → Fin m → ℝ) :
    S → Fin m → ℝ := dppFit (fun q => (maxValue (List.ofFn q)).getD 0) M mu gamma n Q

/-- `DPPL`, `dpp.py:103-117`: the operator is the logarithm of the sum of exponentials. -/
noncomputable def dpplFit (eta : ℝ) (M : Env S (Fin m) O) (mu : S → Fin m → ℝ) (gamma : ℝ) (n : ℕ) (Q : S → Fin m → ℝ) :
    S → Fin m → ℝ := dppFit (logSumExpOp eta) M mu gamma n Q

/-! ## Specification -/

/-- `V s` is the largest of the action values of `s`. -/
def Spec.Max (Q : S → Fin m → ℝ) (V : S → ℝ) : Prop := ∀ s, IsGreatest (Set.range (Q s)) (V s)

/-- The optimal values: Bellman's optimality equations. -/
structure Spec.Optimal (M : Env S (Fin m) O) (gamma : ℝ) (V : S → ℝ) (Q : S → Fin m → ℝ) : Prop where
  q : ∀ s a, Q s a = ∑ o, M.prob s a o *
    ((M.out s a o).reward + gamma * if (M.out s a o).done then 0 else V (M.out s a o).next)
  max : Spec.Max Q V

/-- A policy that only takes actions with the largest value in `Q`. -/
def Spec.Greedy (w Q : S → Fin m → ℝ) : Prop := ∀ s a, w s a ≠ 0 → ∀ b, Q s b ≤ Q s a

/-! ## Lemmas -/

/-- One-step backup of `V`. -/
noncomputable def bell (M : Env S (Fin m) O) (gamma : ℝ) (V : S → ℝ) (s : S) (a : Fin m) : ℝ :=
  ∑ o, M.prob s a o * ((M.out s a o).reward + gamma * if (M.out s a o).done then 0 else V (M.out s a o).next)

section bell
variable {M : Env S (Fin m) O} {gamma : ℝ}

theorem bell_le (hp : ∀ s a o, 0 ≤ M.prob s a o) (h0 : 0 ≤ gamma) {V V' : S → ℝ} {d : ℝ} (hd : 0 ≤ d)
    (h : ∀ s, V s ≤ V' s + d) (s : S) (a : Fin m) : bell M gamma V s a ≤ bell M gamma V' s a + gamma * d := by
  have : gamma * d = ∑ o, M.prob s a o * (gamma * d) := by rw [← sum_mul, M.sum_prob, one_mul]
  rw [this, bell, bell, ← sum_add_distrib]
  refine sum_le_sum fun o _ => ?_
  rw [← mul_add]
  refine mul_le_mul_of_nonneg_left ?_ (hp s a o)
  rw [add_assoc, ← mul_add]
  refine add_le_add_right (mul_le_mul_of_nonneg_left ?_ h0) _
  by_cases hdn : (M.out s a o).done = true
  · simp only [if_pos hdn, zero_add]; exact hd
  · simp only [if_neg hdn]; exact h _

theorem bell_abs (hp : ∀ s a o, 0 ≤ M.prob s a o) (h0 : 0 ≤ gamma) {V V' : S → ℝ} {d : ℝ} (hd : 0 ≤ d)
    (h : ∀ s, |V s - V' s| ≤ d) (s : S) (a : Fin m) : |bell M gamma V s a - bell M gamma V' s a| ≤ gamma * d := by
  rw [abs_le]
  have h1 := bell_le hp h0 hd (V := V) (V' := V') (fun s => by have := (abs_le.1 (h s)).2; linarith) s a
  have h2 := bell_le hp h0 hd (V := V') (V' := V) (fun s => by have := (abs_le.1 (h s)).1; linarith) s a
  constructor <;> linarith

theorem bell_tendsto {V : ℕ → S → ℝ} {L : S → ℝ} (h : ∀ s, Tendsto (fun k => V k s) atTop (nhds (L s))) (s : S) (a : Fin m) :
    Tendsto (fun k => bell M gamma (V k) s a) atTop (nhds (bell M gamma L s a)) := by
  unfold bell
  refine tendsto_finsetSum _ fun o _ => Tendsto.const_mul _ (Tendsto.const_add _ (Tendsto.const_mul _ ?_))
  by_cases hdn : (M.out s a o).done = true
  · simp only [if_pos hdn]; exact tendsto_const_nhds
  · simp only [if_neg hdn]; exact h _

end bell

theorem max_exists [NeZero m] (Q : S → Fin m → ℝ) : ∃ V, Spec.Max Q V := by
  refine ⟨fun s => univ.sup' univ_nonempty (Q s), fun s => ⟨?_, ?_⟩⟩
  · obtain ⟨a, _, ha⟩ := exists_mem_eq_sup' univ_nonempty (Q s)
    exact ⟨a, ha.symm⟩
  · rintro _ ⟨a, rfl⟩
    exact le_sup' (Q s) (mem_univ a)

theorem max_le_of {Q Q' : S → Fin m → ℝ} {V V' : S → ℝ} (h : Spec.Max Q V) (h' : Spec.Max Q' V') {d : ℝ}
    (hd : ∀ s a, Q s a ≤ Q' s a + d) (s : S) : V s ≤ V' s + d := by
  obtain ⟨a, ha⟩ := (h s).1
  have := (h' s).2 ⟨a, rfl⟩
  have := hd s a
  linarith

theorem max_abs {Q Q' : S → Fin m → ℝ} {V V' : S → ℝ} (h : Spec.Max Q V) (h' : Spec.Max Q' V') {d : ℝ}
    (hd : ∀ s a, |Q s a - Q' s a| ≤ d) (s : S) : |V s - V' s| ≤ d := by
  rw [abs_le]
  have h1 := max_le_of h h' (d := d) (fun s a => by have := (abs_le.1 (hd s a)).2; linarith) s
  have h2 := max_le_of h' h (d := d) (fun s a => by have := (abs_le.1 (hd s a)).1; linarith) s
  constructor <;> linarith

theorem isMax_row {Q : S → Fin m → ℝ} {V : S → ℝ} (h : Spec.Max Q V) (s : S) : Value.Spec.IsMax (row Q s) (V s) := by
  refine ⟨?_, ?_⟩
  · obtain ⟨a, ha⟩ := (h s).1
    rw [← ha]
    exact (List.mem_ofFn' _ _).2 ⟨a, rfl⟩
  · intro y hy
    obtain ⟨a, rfl⟩ := (List.mem_ofFn' _ _).1 hy
    exact (h s).2 ⟨a, rfl⟩

theorem row_get (Q : S → Fin m → ℝ) (s : S) (a : Nat) (h : a < m) : (row Q s)[a]? = some (Q s ⟨a, h⟩) := by
  simp [row, h]

/-- Experiences of at least one transition, only the last of which may be terminal. -/
def Good (exp : List (Trans S Nat ℝ)) : Prop := exp ≠ [] ∧ Batch.Spec.TerminalOnlyLast exp ∧ ∀ t ∈ exp, t.action < m

theorem dqn_target {gamma : ℝ} {Q : S → Fin m → ℝ} {V : S → ℝ} (h : Spec.Max Q V) {exp : List (Trans S Nat ℝ)}
    (he : Good (m := m) exp) : targetOf gamma (dqnTargets (row Q)) exp = some (Batch.Spec.backup gamma V exp) := by
  obtain ⟨out, ts, h1, h2, h3, h4⟩ := dqn_targets id gamma (exps := [exp]) (by simp) (by simpa using he.1) (row Q) V
    (isMax_row h)
  have := h4 0 exp rfl he.2.1
  simp only [targetOf, h1, h2, Option.bind_some]
  rw [List.head?_eq_getElem?]
  exact this

theorem double_target {gamma : ℝ} {q Q : S → Fin m → ℝ} {V : S → ℝ} (g : S → Fin m)
    (hg : ∀ s, greedyAction (row q s) = some (g s : Nat)) (hV : ∀ s, V s = Q s (g s)) {exp : List (Trans S Nat ℝ)}
    (he : Good (m := m) exp) :
    targetOf gamma (doubleDqnTargets (row q) (row Q)) exp = some (Batch.Spec.backup gamma V exp) := by
  obtain ⟨out, ts, h1, h2, h3, h4⟩ := double_dqn_targets id gamma (exps := [exp]) (by simp) (by simpa using he.1) (row q)
    (row Q) V (fun s => (g s : Nat)) hg (fun s => by rw [id, row_get Q s _ (g s).2, hV])
  have := h4 0 exp rfl he.2.1
  simp only [targetOf, h1, h2, Option.bind_some]
  rw [List.head?_eq_getElem?]
  exact this

theorem al_target {gamma alpha : ℝ} (ha : 0 ≤ alpha) {Q : S → Fin m → ℝ} {V : S → ℝ} (h : Spec.Max Q V) (t : Trans S Nat ℝ)
    (ht : t.action < m) :
    targetOf gamma (alTargets alpha (row Q)) [t]
        = some (Batch.Spec.backup gamma V [t] - alpha * (V t.state - Q t.state ⟨t.action, ht⟩)) ∧
      targetOf gamma (palTargets alpha (row Q)) [t]
        = some (max (Batch.Spec.backup gamma V [t] - alpha * (V t.state - Q t.state ⟨t.action, ht⟩))
          (Batch.Spec.backup gamma V [t] - alpha * (V t.nextState - Q t.nextState ⟨t.action, ht⟩))) := by
  obtain ⟨out, al, pal, h1, h2, h3, h4, h5, h6⟩ := advantage_learning_partial id gamma (exps := [[t]]) (by simp) (by simp)
    alpha ha (row Q) V (isMax_row h) (fun s a => if h : a < m then Q s ⟨a, h⟩ else 0) m
    (fun s a h => by rw [id, row_get Q s a h, dif_pos h]) (by simpa using ht)
  obtain ⟨t0, tn, x, y, g1, g2, g3, g4, g5, g6, _, _⟩ := h6 0 [t] rfl (by simp [Batch.Spec.TerminalOnlyLast])
  simp only [List.head?_cons, Option.some.injEq] at g1
  simp only [List.getLast?_singleton, Option.some.injEq] at g2
  subst g1 g2
  rw [dif_pos ht] at g5 g6
  constructor
  · simp only [targetOf, h1, h2, Option.bind_some]
    rw [List.head?_eq_getElem?, g3, g5]
  · simp only [targetOf, h1, h3, Option.bind_some]
    rw [List.head?_eq_getElem?, g4, g6, g5]

theorem dpp_target {gamma : ℝ} {Q : S → Fin m → ℝ} (L : S → ℝ) (t : Trans S Nat ℝ) (ht : t.action < m) :
    targetOf gamma (dppTargets L (row Q)) [t]
      = some (Batch.Spec.backup gamma L [t] - (L t.state - Q t.state ⟨t.action, ht⟩)) := by
  obtain ⟨out, ts, h1, h2, h3, h4⟩ := dpp_targets id gamma (exps := [[t]]) (by simp) (by simp) L (row Q)
    (fun s a => if h : a < m then Q s ⟨a, h⟩ else 0) m (fun s a h => by rw [id, row_get Q s a h, dif_pos h]) (by simpa using ht)
  obtain ⟨t0, g1, g2⟩ := h4 0 [t] rfl (by simp [Batch.Spec.TerminalOnlyLast])
  simp only [List.head?_cons, Option.some.injEq] at g1
  subst g1
  rw [dif_pos ht] at g2
  simp only [targetOf, h1, h2, Option.bind_some]
  rw [List.head?_eq_getElem?, g2]
  simp only [Option.some.injEq, id]
  ring

/-- Fitting with one-step experiences. -/
theorem fit_one (M : Env S (Fin m) O) (mu : S → Fin m → ℝ) (target : List (Trans S Nat ℝ) → Option ℝ) (s : S) (a : Fin m) :
    fit M mu 1 target s a = ∑ o, M.prob s a o * (target [trans ⟨s, a, M.out s a o⟩]).getD 0 := by
  unfold fit
  refine sum_congr rfl fun o _ => ?_
  simp [Env.expect]

theorem good_one (x : Step S (Fin m)) : Good (m := m) [trans x] :=
  ⟨by simp, by simp [Batch.Spec.TerminalOnlyLast], by simp [trans]⟩

theorem dqnFit_one {M : Env S (Fin m) O} {mu : S → Fin m → ℝ} {gamma : ℝ} {Q : S → Fin m → ℝ} {V : S → ℝ} (h : Spec.Max Q V)
    (s : S) (a : Fin m) : dqnFit M mu gamma 1 Q s a = bell M gamma V s a := by
  rw [dqnFit, fit_one, bell]
  refine sum_congr rfl fun o _ => ?_
  rw [dqn_target h (good_one _)]
  rfl

theorem alFit_one {M : Env S (Fin m) O} {mu : S → Fin m → ℝ} {gamma alpha : ℝ} (ha : 0 ≤ alpha) {Q : S → Fin m → ℝ}
    {V : S → ℝ} (h : Spec.Max Q V) (s : S) (a : Fin m) :
    alFit M mu gamma alpha 1 Q s a = bell M gamma V s a - alpha * (V s - Q s a) := by
  rw [alFit, fit_one, bell]
  have : alpha * (V s - Q s a) = ∑ o, M.prob s a o * (alpha * (V s - Q s a)) := by rw [← sum_mul, M.sum_prob, one_mul]
  rw [this, ← sum_sub_distrib]
  refine sum_congr rfl fun o _ => ?_
  rw [(al_target ha h (trans ⟨s, a, M.out s a o⟩) a.2).1, ← mul_sub]
  rfl

theorem dppFit_one (L : (Fin m → ℝ) → ℝ) {M : Env S (Fin m) O} {mu : S → Fin m → ℝ} {gamma : ℝ} {Q : S → Fin m → ℝ}
    (s : S) (a : Fin m) :
    dppFit L M mu gamma 1 Q s a = bell M gamma (fun s => L (Q s)) s a - (L (Q s) - Q s a) := by
  rw [dppFit, fit_one, bell]
  have : L (Q s) - Q s a = ∑ o, M.prob s a o * (L (Q s) - Q s a) := by rw [← sum_mul, M.sum_prob, one_mul]
  rw [this, ← sum_sub_distrib]
  refine sum_congr rfl fun o _ => ?_
  rw [dpp_target (fun s => L (Q s)) (trans ⟨s, a, M.out s a o⟩) a.2, ← mul_sub]
  rfl

theorem palFit_one {M : Env S (Fin m) O} (hp : ∀ s a o, 0 ≤ M.prob s a o) {mu : S → Fin m → ℝ} {gamma alpha : ℝ}
    (ha : 0 ≤ alpha) {Q : S → Fin m → ℝ} {V : S → ℝ} (h : Spec.Max Q V) (s : S) (a : Fin m) :
    bell M gamma V s a - alpha * (V s - Q s a) ≤ palFit M mu gamma alpha 1 Q s a ∧
      palFit M mu gamma alpha 1 Q s a ≤ bell M gamma V s a := by
  rw [palFit, fit_one, bell]
  have hpos : ∀ s, 0 ≤ alpha * (V s - Q s a) := fun s =>
    mul_nonneg ha (sub_nonneg.2 ((h s).2 ⟨a, rfl⟩))
  have : alpha * (V s - Q s a) = ∑ o, M.prob s a o * (alpha * (V s - Q s a)) := by rw [← sum_mul, M.sum_prob, one_mul]
  constructor
  · rw [this, ← sum_sub_distrib]
    refine sum_le_sum fun o _ => ?_
    rw [(al_target ha h (trans ⟨s, a, M.out s a o⟩) a.2).2, ← mul_sub]
    exact mul_le_mul_of_nonneg_left (le_max_left _ _) (hp s a o)
  · refine sum_le_sum fun o _ => ?_
    rw [(al_target ha h (trans ⟨s, a, M.out s a o⟩) a.2).2]
    refine mul_le_mul_of_nonneg_left (max_le ?_ ?_) (hp s a o)
    · have := hpos s
      change _ - alpha * (V s - Q s a) ≤ _
      have e : Batch.Spec.backup gamma V [trans ⟨s, a, M.out s a o⟩]
        = (M.out s a o).reward + gamma * if (M.out s a o).done = true then 0 else V (M.out s a o).next := rfl
      rw [e]
      linarith
    · have := hpos (M.out s a o).next
      change _ - alpha * (V (M.out s a o).next - Q (M.out s a o).next a) ≤ _
      have e : Batch.Spec.backup gamma V [trans ⟨s, a, M.out s a o⟩]
        = (M.out s a o).reward + gamma * if (M.out s a o).done = true then 0 else V (M.out s a o).next := rfl
      rw [e]
      linarith

/-- A bound for functions on finitely many states. -/
theorem exists_bound [Fintype S] (f : S → ℝ) : ∃ d, 0 ≤ d ∧ ∀ s, |f s| ≤ d :=
  ⟨∑ s, |f s|, sum_nonneg fun _ _ => abs_nonneg _, fun s =>
    single_le_sum (f := fun s => |f s|) (fun _ _ => abs_nonneg _) (mem_univ s)⟩

/-- What shrinks by the factor `gamma < 1` is not positive. -/
theorem nonpos_of_shrinks [Fintype S] {gamma : ℝ} (h0 : 0 ≤ gamma) (h1 : gamma < 1) {f : S → ℝ}
    (h : ∀ d, 0 ≤ d → (∀ s, f s ≤ d) → ∀ s, f s ≤ gamma * d) (s : S) : f s ≤ 0 := by
  obtain ⟨d, hd, hf⟩ := exists_bound f
  have key : ∀ k : ℕ, ∀ s, f s ≤ gamma ^ k * d := by
    intro k
    induction k with
    | zero => intro s; rw [pow_zero, one_mul]; exact (le_abs_self _).trans (hf s)
    | succ k ih =>
      intro s
      have := h _ (mul_nonneg (pow_nonneg h0 k) hd) ih s
      rw [pow_succ']
      linarith
  have ht : Tendsto (fun k : ℕ => gamma ^ k * d) atTop (nhds (0 * d)) :=
    (tendsto_pow_atTop_nhds_zero_of_lt_one h0 h1).mul_const d
  rw [zero_mul] at ht
  exact ge_of_tendsto' ht fun k => key k s

theorem backup_abs {gamma : ℝ} (h0 : 0 ≤ gamma) (h1 : gamma ≤ 1) {V V' : S → ℝ} {d : ℝ} (hd : 0 ≤ d)
    (h : ∀ s, |V s - V' s| ≤ d) (exp : List (Trans S Nat ℝ)) :
    |Batch.Spec.backup gamma V exp - Batch.Spec.backup gamma V' exp| ≤ gamma * d := by
  have hgd := mul_nonneg h0 hd
  induction exp with
  | nil => simpa [Batch.Spec.backup] using hgd
  | cons t rest ih =>
    cases rest with
    | nil =>
      simp only [Batch.Spec.backup]
      by_cases ht : t.terminal = true
      · simpa [ht] using hgd
      · simp only [if_neg ht]
        rw [add_sub_add_left_eq_sub, ← mul_sub, abs_mul, abs_of_nonneg h0]
        exact mul_le_mul_of_nonneg_left (h _) h0
    | cons t' rest =>
      by_cases ht : t.terminal = true
      · simpa [Batch.Spec.backup, ht] using hgd
      simp only [Batch.Spec.backup, if_neg ht] at ih ⊢
      rw [add_sub_add_left_eq_sub, ← mul_sub, abs_mul, abs_of_nonneg h0]
      have := mul_le_mul_of_nonneg_left ih h0
      have := mul_le_mul_of_nonneg_right h1 hgd
      linarith

theorem backup_mono {gamma : ℝ} (h0 : 0 ≤ gamma) {V V' : S → ℝ} (h : ∀ s, V s ≤ V' s) (exp : List (Trans S Nat ℝ)) :
    Batch.Spec.backup gamma V exp ≤ Batch.Spec.backup gamma V' exp := by
  induction exp with
  | nil => exact le_refl _
  | cons t rest ih =>
    cases rest with
    | nil =>
      simp only [Batch.Spec.backup]
      by_cases ht : t.terminal = true
      · simp [ht]
      · simp only [if_neg ht]
        exact add_le_add_right (mul_le_mul_of_nonneg_left (h _) h0) _
    | cons t' rest =>
      by_cases ht : t.terminal = true
      · simp [Batch.Spec.backup, ht]
      simp only [Batch.Spec.backup, if_neg ht] at ih ⊢
      exact add_le_add_right (mul_le_mul_of_nonneg_left ih h0) _

section expect
variable {M : Env S (Fin m) O} {mu : S → Fin m → ℝ}

theorem expect_le (hp : Returns.PG.Spec.Proper M mu) {stop : Outcome S → Bool} (k : ℕ) :
    ∀ (s : S) {f g : List (Step S (Fin m)) → S → ℝ}, (∀ tr e, M.Gen stop k s tr e → f tr e ≤ g tr e) →
      M.expect stop mu k s f ≤ M.expect stop mu k s g := by
  induction k with
  | zero => intro s f g h; exact h [] s ⟨rfl, rfl⟩
  | succ k ih =>
    intro s f g h
    unfold Env.expect Env.choose
    refine sum_le_sum fun a _ => mul_le_mul_of_nonneg_left (sum_le_sum fun o _ => mul_le_mul_of_nonneg_left ?_ (hp.prob s a o))
      (hp.nonneg s a)
    by_cases hs : stop (M.out s a o) = true
    · simp only [if_pos hs]
      exact h _ _ ⟨a, o, .inl ⟨hs, rfl, rfl⟩⟩
    · simp only [if_neg hs]
      exact ih _ fun tr e ht => h _ _ ⟨a, o, .inr ⟨by simpa using hs, tr, rfl, ht⟩⟩

theorem good_gen (k : ℕ) : ∀ (s : S) (tr : List (Step S (Fin m))) (e : S), M.Gen a3cStop k s tr e →
    ∀ x : Step S (Fin m), a3cStop x.out = false → Good (m := m) ((x :: tr).map trans) := by
  intro s tr e h x hx
  have hact : ∀ tr : List (Step S (Fin m)), ∀ t ∈ tr.map trans, t.action < m := by
    intro tr t ht
    obtain ⟨y, _, rfl⟩ := List.mem_map.1 ht
    exact y.a.2
  refine ⟨by simp, ?_, hact _⟩
  cases k with
  | zero => rw [h.1]; simp [Batch.Spec.TerminalOnlyLast]
  | succ k =>
    obtain ⟨init, last, rfl, _, g3, _⟩ := Returns.PG.gen_rollout M _ s tr e h (by omega)
    intro t ht
    rw [← List.cons_append, List.map_append, List.map_singleton, List.dropLast_concat] at ht
    obtain ⟨y, hy, rfl⟩ := List.mem_map.1 ht
    have hstop : a3cStop y.out = false := by
      rcases List.mem_cons.1 hy with rfl | hy
      · exact hx
      · exact g3 y hy
    simp only [a3cStop, Bool.or_eq_false_iff] at hstop
    exact hstop.1

/-- Fitting preserves inequalities between targets that hold for every experience that can be stored. -/
theorem fit_le (hp : Returns.PG.Spec.Proper M mu) (n : ℕ) {f g : List (Trans S Nat ℝ) → Option ℝ} {c : ℝ}
    (h : ∀ exp, Good (m := m) exp → (f exp).getD 0 ≤ (g exp).getD 0 + c) (s : S) (a : Fin m) :
    fit M mu n f s a ≤ fit M mu n g s a + c := by
  have : c = ∑ o, M.prob s a o * c := by rw [← sum_mul, M.sum_prob, one_mul]
  rw [this, fit, fit, ← sum_add_distrib]
  refine sum_le_sum fun o _ => ?_
  rw [← mul_add]
  refine mul_le_mul_of_nonneg_left ?_ (hp.prob s a o)
  by_cases hs : a3cStop (M.out s a o) = true
  · simp only [if_pos hs]
    exact h _ (good_one _)
  · simp only [if_neg hs]
    have hs' : a3cStop (M.out s a o) = false := by simpa using hs
    have e1 := Returns.PG.expect_add M (stop := a3cStop) (w := mu) (n - 1) (M.out s a o).next
      (fun tr _ => (g ((⟨s, a, M.out s a o⟩ :: tr).map trans)).getD 0) fun _ _ => c
    rw [Returns.PG.expect_const M hp.sum] at e1
    rw [← e1]
    exact expect_le hp _ _ fun tr e ht => h _ (good_gen _ _ _ _ ht _ hs')

end expect

section sequences
variable [Fintype S] {M : Env S (Fin m) O} {gamma : ℝ} {V : S → ℝ} {Q : S → Fin m → ℝ}

/-- What the sequences of advantage learning, persistent advantage learning, `DPPGreedy` and `DPPL` have in common. -/
theorem converges (hprob : ∀ s a o, 0 ≤ M.prob s a o) (h0 : 0 ≤ gamma) (h1 : gamma < 1) (hQ : Spec.Optimal M gamma V Q)
    {q : ℕ → S → Fin m → ℝ} {L : ℕ → S → ℝ} (k1 : ∀ k s a, q k s a ≤ L k s)
    (k2 : ∀ k s, ∃ a, L (k + 1) s ≤ bell M gamma (L k) s a)
    (k3 : ∀ k s d, 0 ≤ d → (∀ a, bell M gamma (L k) s a ≤ bell M gamma (L (k + 1)) s a + d) → L (k + 1) s ≤ L (k + 2) s + d)
    (k4 : ∀ k s a, bell M gamma (L k) s a - (L k s - q k s a) ≤ q (k + 1) s a) (s : S) :
    Tendsto (fun k => L k s) atTop (nhds (V s)) := by
  have hpow : Tendsto (fun k : ℕ => gamma ^ k) atTop (nhds 0) := tendsto_pow_atTop_nhds_zero_of_lt_one h0 h1
  obtain ⟨ε, hε, hb⟩ := exists_bound fun s => L 0 s - V s
  obtain ⟨D, hD, hd⟩ := exists_bound fun s => L 1 s - L 0 s
  have hQb : ∀ s a, bell M gamma V s a = Q s a := fun s a => (hQ.q s a).symm
  -- from above
  have up : ∀ k : ℕ, ∀ s, L k s ≤ V s + gamma ^ k * ε := by
    intro k
    induction k with
    | zero => intro s; have := (abs_le.1 (hb s)).2; simp only [pow_zero, one_mul]; linarith
    | succ k ih =>
      intro s
      obtain ⟨a, ha⟩ := k2 k s
      have h2 := bell_le hprob h0 (mul_nonneg (pow_nonneg h0 k) hε) ih s a
      have h3 := (hQ.max s).2 ⟨a, rfl⟩
      rw [hQb] at h2
      rw [pow_succ']
      linarith
  -- nearly increasing
  have inc : ∀ k : ℕ, ∀ s, L k s ≤ L (k + 1) s + gamma ^ k * D := by
    intro k
    induction k with
    | zero => intro s; have := (abs_le.1 (hd s)).1; simp only [pow_zero, one_mul, zero_add]; linarith
    | succ k ih =>
      intro s
      have h2 := bell_le (M := M) hprob h0 (mul_nonneg (pow_nonneg h0 k) hD) ih s
      rw [pow_succ', mul_assoc]
      exact k3 k s _ (mul_nonneg h0 (mul_nonneg (pow_nonneg h0 k) hD)) h2
  have h1' : (0 : ℝ) < 1 - gamma := by linarith
  -- so they converge
  have lim : ∀ s, ∃ l, Tendsto (fun k => L k s) atTop (nhds l) := by
    intro s
    have hmono : Monotone fun k : ℕ => L k s - gamma ^ k * (D / (1 - gamma)) := by
      refine monotone_nat_of_le_succ fun k => ?_
      have := inc k s
      have e : gamma ^ k * D = gamma ^ k * (D / (1 - gamma)) - gamma ^ (k + 1) * (D / (1 - gamma)) := by
        rw [pow_succ]; field_simp
      linarith
    have hbdd : BddAbove (Set.range fun k : ℕ => L k s - gamma ^ k * (D / (1 - gamma))) := by
      refine ⟨V s + ε, ?_⟩
      rintro _ ⟨k, rfl⟩
      have h2 := up k s
      have h3 : gamma ^ k * ε ≤ ε := by
        have := mul_le_mul_of_nonneg_right (pow_le_one₀ h0 h1.le : gamma ^ k ≤ 1) hε
        linarith
      have h4 : 0 ≤ gamma ^ k * (D / (1 - gamma)) := mul_nonneg (pow_nonneg h0 k) (div_nonneg hD h1'.le)
      simp only
      linarith
    refine ⟨_, ((tendsto_atTop_ciSup hmono hbdd).add (hpow.mul_const (D / (1 - gamma)))).congr fun k => ?_⟩
    ring
  choose l hl using lim
  -- the limit is not improved by a backup
  have hsup : ∀ s a, bell M gamma l s a ≤ l s := by
    intro s a
    by_contra hc
    rw [not_le] at hc
    set c := bell M gamma l s a - l s with hcdef
    have hcpos : 0 < c := by rw [hcdef]; linarith
    have ht : Tendsto (fun k => bell M gamma (L k) s a - L (k + 1) s) atTop (nhds c) :=
      (bell_tendsto hl s a).sub ((tendsto_add_atTop_iff_nat 1).2 (hl s))
    obtain ⟨K, hK⟩ := (ht.eventually (lt_mem_nhds (half_lt_self hcpos))).exists_forall_of_atTop
    have hgap : ∀ j : ℕ, L (K + j) s - q (K + j) s a ≤ L K s - q K s a - j * (c / 2) := by
      intro j
      induction j with
      | zero => simp
      | succ j ih =>
        have h2 := k4 (K + j) s a
        have h3 := hK (K + j) (by omega)
        rw [← add_assoc]
        push_cast
        linarith
    obtain ⟨j, hj⟩ := exists_nat_gt ((L K s - q K s a) / (c / 2))
    rw [div_lt_iff₀ (half_pos hcpos)] at hj
    have := hgap j
    have := k1 (K + j) s a
    linarith
  have hle : ∀ s, V s ≤ l s := by
    intro s
    have := nonpos_of_shrinks h0 h1 (f := fun s => V s - l s) (fun d hd0 hf s => by
      obtain ⟨a, ha⟩ := (hQ.max s).1
      have h2 := bell_le (M := M) hprob h0 hd0 (V := V) (V' := l) (fun s => by have := hf s; linarith) s a
      have h3 := hsup s a
      rw [hQb, ha] at h2
      linarith) s
    linarith
  have hge : l s ≤ V s := by
    have ht := (hpow.mul_const ε).const_add (V s)
    rw [zero_mul, add_zero] at ht
    exact le_of_tendsto_of_tendsto' (hl s) ht fun k => up k s
  have : V s = l s := le_antisymm (hle s) hge
  rw [this]
  exact hl s

/-- Sequences between a backup and the backup corrected by the gap, as in advantage learning. -/
theorem gap_converges (hprob : ∀ s a o, 0 ≤ M.prob s a o) (h0 : 0 ≤ gamma) (h1 : gamma < 1) (hQ : Spec.Optimal M gamma V Q)
    {alpha : ℝ} (ha1 : alpha ≤ 1) {q : ℕ → S → Fin m → ℝ} {L : ℕ → S → ℝ} (hL : ∀ k, Spec.Max (q k) (L k))
    (hup : ∀ k s a, q (k + 1) s a ≤ bell M gamma (L k) s a)
    (hlo : ∀ k s a, bell M gamma (L k) s a - alpha * (L k s - q k s a) ≤ q (k + 1) s a) :
    (∀ s, Tendsto (fun k => L k s) atTop (nhds (V s))) ∧
      ∀ η > 0, ∀ᶠ k in atTop, ∀ s a, V s - Q s a - η < L k s - q k s a := by
  have hlim : ∀ s, Tendsto (fun k => L k s) atTop (nhds (V s)) := by
    refine converges hprob h0 h1 hQ (q := q) (fun k s a => (hL k s).2 ⟨a, rfl⟩) (fun k s => ?_) (fun k s d hd h => ?_)
      fun k s a => ?_
    · obtain ⟨a, ha⟩ := (hL (k + 1) s).1
      exact ⟨a, ha ▸ hup k s a⟩
    · obtain ⟨a, ha⟩ := (hL (k + 1) s).1
      have h2 := (hL (k + 2) s).2 ⟨a, rfl⟩
      have h3 := hlo (k + 1) s a
      rw [ha, sub_self, mul_zero, sub_zero] at h3
      have h4 := h a
      have h5 := hup k s a
      linarith
    · have h2 := hlo k s a
      have h3 : 0 ≤ L k s - q k s a := sub_nonneg.2 ((hL k s).2 ⟨a, rfl⟩)
      have h4 := mul_le_mul_of_nonneg_right ha1 h3
      linarith
  refine ⟨hlim, fun η hη => ?_⟩
  rw [eventually_all]
  intro s
  rw [eventually_all]
  intro a
  have ht : Tendsto (fun k => L (k + 1) s - bell M gamma (L k) s a) atTop (nhds (V s - bell M gamma V s a)) :=
    ((tendsto_add_atTop_iff_nat 1).2 (hlim s)).sub (bell_tendsto hlim s a)
  have e : bell M gamma V s a = Q s a := (hQ.q s a).symm
  rw [e] at ht
  have := ht.eventually (lt_mem_nhds (show V s - Q s a - η < V s - Q s a by linarith))
  obtain ⟨K, hK⟩ := this.exists_forall_of_atTop
  refine eventually_atTop.2 ⟨K + 1, fun k hk => ?_⟩
  obtain ⟨j, rfl⟩ : ∃ j, k = j + 1 := ⟨k - 1, by omega⟩
  have h2 := hK j (by omega)
  have h3 := hup j s a
  linarith

/-- A sequence driven by a convergent one. -/
theorem linear_tendsto {alpha b : ℝ} (ha0 : 0 ≤ alpha) (ha1 : alpha < 1) {x y : ℕ → ℝ} (hy : Tendsto y atTop (nhds b))
    (hx : ∀ k, x (k + 1) = y k + alpha * x k) : Tendsto x atTop (nhds (b / (1 - alpha))) := by
  have h1 : (0 : ℝ) < 1 - alpha := by linarith
  set l := b / (1 - alpha) with hl
  have hb : b = (1 - alpha) * l := by rw [hl]; field_simp
  rw [Metric.tendsto_atTop]
  intro η hη
  obtain ⟨K, hK⟩ := Metric.tendsto_atTop.1 hy (η / 2 * (1 - alpha)) (mul_pos (half_pos hη) h1)
  have key : ∀ j : ℕ, |x (K + j) - l| ≤ alpha ^ j * |x K - l| + η / 2 := by
    intro j
    induction j with
    | zero => simp only [add_zero, pow_zero, one_mul]; linarith
    | succ j ih =>
      have h2 := hK (K + j) (by omega)
      rw [Real.dist_eq] at h2
      have e : x (K + (j + 1)) - l = (y (K + j) - b) + alpha * (x (K + j) - l) := by
        rw [← add_assoc, hx, hb]; ring
      rw [e]
      refine (abs_add_le _ _).trans ?_
      rw [abs_mul, abs_of_nonneg ha0]
      have h3 := mul_le_mul_of_nonneg_left ih ha0
      rw [pow_succ']
      nlinarith
  have ht : Tendsto (fun j : ℕ => alpha ^ j * |x K - l|) atTop (nhds 0) := by
    have := (tendsto_pow_atTop_nhds_zero_of_lt_one ha0 ha1).mul_const |x K - l|
    rwa [zero_mul] at this
  obtain ⟨J, hJ⟩ := (ht.eventually (gt_mem_nhds (half_pos hη))).exists_forall_of_atTop
  refine ⟨K + J, fun k hk => ?_⟩
  obtain ⟨j, rfl⟩ : ∃ j, k = K + j := ⟨k - K, by omega⟩
  have h2 := key j
  have h3 := hJ j (by omega)
  rw [Real.dist_eq]
  linarith

end sequences

section logsumexp

theorem lse_pos [NeZero m] (eta : ℝ) (q : Fin m → ℝ) : 0 < ∑ i, Real.exp (eta * q i) :=
  sum_pos (fun _ _ => Real.exp_pos _) univ_nonempty

theorem exp_lse [NeZero m] {eta : ℝ} (heta : 0 < eta) (q : Fin m → ℝ) :
    Real.exp (eta * logSumExpOp eta q) = ∑ i, Real.exp (eta * q i) := by
  rw [logSumExpOp, mul_div_cancel₀ _ heta.ne', Real.exp_log (lse_pos eta q)]

theorem le_lse [NeZero m] {eta : ℝ} (heta : 0 < eta) (q : Fin m → ℝ) (a : Fin m) : q a ≤ logSumExpOp eta q := by
  have h := single_le_sum (f := fun i => Real.exp (eta * q i)) (fun _ _ => (Real.exp_pos _).le) (mem_univ a)
  rw [← exp_lse heta q, Real.exp_le_exp] at h
  exact le_of_mul_le_mul_left h heta

/-- The weights `exp (eta * (q - L))` sum to one. -/
theorem lse_weights [NeZero m] {eta : ℝ} (heta : 0 < eta) (q : Fin m → ℝ) :
    ∑ i, Real.exp (eta * (q i - logSumExpOp eta q)) = 1 := by
  simp only [mul_sub, Real.exp_sub]
  rw [← sum_div, exp_lse heta, div_self (lse_pos eta q).ne']

/-- One step of `DPPL` on the operator: an average with the weights. -/
theorem lse_step [NeZero m] {eta : ℝ} (heta : 0 < eta) (q b : Fin m → ℝ) :
    Real.exp (eta * logSumExpOp eta fun i => b i - (logSumExpOp eta q - q i))
      = ∑ i, Real.exp (eta * (q i - logSumExpOp eta q)) * Real.exp (eta * b i) := by
  rw [exp_lse heta]
  refine sum_congr rfl fun i _ => ?_
  rw [← Real.exp_add]
  congr 1
  ring

/-- It is at most the largest backup. -/
theorem lse_step_le [NeZero m] {eta : ℝ} (heta : 0 < eta) (q b : Fin m → ℝ) :
    ∃ a, (logSumExpOp eta fun i => b i - (logSumExpOp eta q - q i)) ≤ b a := by
  obtain ⟨a, _, ha⟩ := exists_mem_eq_sup' univ_nonempty b
  refine ⟨a, ?_⟩
  have hb : ∀ i, b i ≤ b a := fun i => ha ▸ le_sup' b (mem_univ i)
  have h : Real.exp (eta * logSumExpOp eta fun i => b i - (logSumExpOp eta q - q i)) ≤ Real.exp (eta * b a) := by
    rw [lse_step heta]
    calc _ ≤ ∑ i, Real.exp (eta * (q i - logSumExpOp eta q)) * Real.exp (eta * b a) :=
          sum_le_sum fun i _ => mul_le_mul_of_nonneg_left
            (Real.exp_le_exp.2 (mul_le_mul_of_nonneg_left (hb i) heta.le)) (Real.exp_pos _).le
      _ = _ := by rw [← sum_mul, lse_weights heta, one_mul]
  exact le_of_mul_le_mul_left (Real.exp_le_exp.1 h) heta

/-- Two steps increase the operator, up to the loss of the backups. -/
theorem lse_two_steps [NeZero m] {eta : ℝ} (heta : 0 < eta) (q q' q'' b b' : Fin m → ℝ) {d : ℝ}
    (h1 : ∀ i, q' i = b i - (logSumExpOp eta q - q i)) (h2 : ∀ i, q'' i = b' i - (logSumExpOp eta q' - q' i))
    (hb : ∀ i, b i ≤ b' i + d) : logSumExpOp eta q' ≤ logSumExpOp eta q'' + d := by
  have e1 : q' = fun i => b i - (logSumExpOp eta q - q i) := funext h1
  have e2 : q'' = fun i => b' i - (logSumExpOp eta q' - q' i) := funext h2
  set w : Fin m → ℝ := fun i => Real.exp (eta * (q i - logSumExpOp eta q)) with hw
  have hw0 : ∀ i, 0 ≤ w i := fun i => (Real.exp_pos _).le
  have hw1 : ∑ i, w i = 1 := lse_weights heta q
  set x : Fin m → ℝ := fun i => Real.exp (eta * b i) with hx
  have s1 : Real.exp (eta * logSumExpOp eta q') = ∑ i, w i * x i := by rw [e1, lse_step heta]
  have s2 : Real.exp (eta * logSumExpOp eta q'') * Real.exp (eta * d) * Real.exp (eta * logSumExpOp eta q')
      ≥ ∑ i, w i * x i ^ 2 := by
    have e3 : Real.exp (eta * logSumExpOp eta q'')
        = ∑ i, Real.exp (eta * (q' i - logSumExpOp eta q')) * Real.exp (eta * b' i) := by
      rw [e2]; exact lse_step heta q' b'
    rw [e3, mul_assoc, sum_mul]
    refine sum_le_sum fun i _ => ?_
    have h3 : x i ≤ Real.exp (eta * b' i) * Real.exp (eta * d) := by
      rw [hx, ← Real.exp_add, ← mul_add]
      exact Real.exp_le_exp.2 (mul_le_mul_of_nonneg_left (hb i) heta.le)
    have h4 : Real.exp (eta * (q' i - logSumExpOp eta q')) * Real.exp (eta * logSumExpOp eta q') = w i * x i := by
      rw [hw, hx, ← Real.exp_add, ← Real.exp_add, h1]
      congr 1
      ring
    calc w i * x i ^ 2 = w i * x i * x i := by ring
      _ ≤ w i * x i * (Real.exp (eta * b' i) * Real.exp (eta * d)) :=
        mul_le_mul_of_nonneg_left h3 (mul_nonneg (hw0 i) (Real.exp_pos _).le)
      _ = _ := by rw [← h4]; ring
  -- the square of an average
  have s3 : (∑ i, w i * x i) ^ 2 ≤ ∑ i, w i * x i ^ 2 := by
    have h5 : 0 ≤ ∑ i, w i * (x i - ∑ j, w j * x j) ^ 2 := sum_nonneg fun i _ => mul_nonneg (hw0 i) (sq_nonneg _)
    set c := ∑ j, w j * x j with hc
    have h6 : ∑ i, w i * (x i - c) ^ 2 = ∑ i, w i * x i ^ 2 - c ^ 2 := by
      have : ∀ i, w i * (x i - c) ^ 2 = w i * x i ^ 2 - 2 * c * (w i * x i) + c ^ 2 * w i := fun i => by ring
      simp only [this]
      rw [sum_add_distrib, sum_sub_distrib, ← mul_sum, ← mul_sum, hw1, ← hc]
      ring
    linarith
  have s4 : Real.exp (eta * logSumExpOp eta q') ≤ Real.exp (eta * logSumExpOp eta q'') * Real.exp (eta * d) := by
    rw [← s1] at s3
    have hpos := Real.exp_pos (eta * logSumExpOp eta q')
    refine le_of_mul_le_mul_right ?_ hpos
    rw [← sq]
    exact s3.trans s2
  rw [← Real.exp_add, ← mul_add, Real.exp_le_exp] at s4
  exact le_of_mul_le_mul_left s4 heta

end logsumexp

/-! ## C105 -/

section
variable [Fintype S] {M : Env S (Fin m) O} {gamma : ℝ} {V : S → ℝ} {Q : S → Fin m → ℝ}

/-- Bellman's optimality equations have exactly one solution. -/
theorem optimal_exists [NeZero m] (hprob : ∀ s a o, 0 ≤ M.prob s a o) (h0 : 0 ≤ gamma) (h1 : gamma < 1) :
    ∃ V Q, Spec.Optimal M gamma V Q ∧ ∀ V' Q', Spec.Optimal M gamma V' Q' → V' = V ∧ Q' = Q := by
  choose T hT using fun V : S → ℝ => max_exists (bell M gamma V)
  have hc : ContractingWith gamma.toNNReal T := by
    refine ⟨by rw [← NNReal.coe_lt_coe, Real.coe_toNNReal _ h0]; exact h1, LipschitzWith.of_dist_le_mul fun V V' => ?_⟩
    rw [Real.coe_toNNReal _ h0, dist_pi_le_iff (mul_nonneg h0 dist_nonneg)]
    intro s
    rw [Real.dist_eq]
    refine max_abs (hT V) (hT V') (fun s a => bell_abs hprob h0 dist_nonneg (fun s => ?_) s a) s
    rw [← Real.dist_eq]
    exact dist_le_pi_dist V V' s
  have hfix : ∀ V Q, Spec.Optimal M gamma V Q ↔ T V = V ∧ Q = bell M gamma V := by
    intro V Q
    constructor
    · intro h
      have e : Q = bell M gamma V := funext fun s => funext fun a => h.q s a
      refine ⟨funext fun s => ?_, e⟩
      have h2 := h.max s
      rw [e] at h2
      exact (hT V s).unique h2
    · rintro ⟨h2, rfl⟩
      refine ⟨fun s a => rfl, fun s => ?_⟩
      have := hT V s
      rwa [h2] at this
  refine ⟨hc.fixedPoint, bell M gamma hc.fixedPoint, (hfix _ _).2 ⟨hc.fixedPoint_isFixedPt, rfl⟩, fun V' Q' h => ?_⟩
  obtain ⟨h2, rfl⟩ := (hfix _ _).1 h
  have := hc.fixedPoint_unique (x := V') h2
  rw [← this]
  exact ⟨rfl, rfl⟩

/-- They are the best values a policy can have. -/
theorem optimal_best (h0 : 0 ≤ gamma) (h1 : gamma < 1) (hQ : Spec.Optimal M gamma V Q) {w : S → Fin m → ℝ}
    (hp : Returns.PG.Spec.Proper M w) {V' : S → ℝ} {Q' : S → Fin m → ℝ} (hV : Returns.PG.Spec.Values M w gamma V' Q') :
    (∀ s, V' s ≤ V s) ∧ ∀ s a, Q' s a ≤ Q s a := by
  have hv : ∀ s, V' s ≤ V s := by
    intro s
    have := nonpos_of_shrinks h0 h1 (f := fun s => V' s - V s) (fun d hd hf s => by
      have h2 : ∀ a, Q' s a ≤ V s + gamma * d := fun a => by
        have h3 := bell_le (M := M) hp.prob h0 hd (V := V') (V' := V) (fun s => by have := hf s; linarith) s a
        have e1 : bell M gamma V' s a = Q' s a := (hV.q s a).symm
        have e2 : bell M gamma V s a = Q s a := (hQ.q s a).symm
        have h4 := (hQ.max s).2 ⟨a, rfl⟩
        linarith
      have h5 : V' s ≤ V s + gamma * d := by
        rw [hV.v]
        calc ∑ a, w s a * Q' s a ≤ ∑ a, w s a * (V s + gamma * d) :=
              sum_le_sum fun a _ => mul_le_mul_of_nonneg_left (h2 a) (hp.nonneg s a)
          _ = _ := by rw [← sum_mul, hp.sum, one_mul]
      linarith) s
    linarith
  refine ⟨hv, fun s a => ?_⟩
  have h3 := bell_le (M := M) hp.prob h0 le_rfl (V := V') (V' := V) (fun s => by have := hv s; linarith) s a
  have e1 : bell M gamma V' s a = Q' s a := (hV.q s a).symm
  have e2 : bell M gamma V s a = Q s a := (hQ.q s a).symm
  linarith

/-- Acting greedily on action values that are off by at most `ε` loses at most `2 * ε / (1 - gamma)`. -/
theorem greedy_loss (h0 : 0 ≤ gamma) (h1 : gamma < 1) (hQ : Spec.Optimal M gamma V Q) {q : S → Fin m → ℝ} {ε : ℝ}
    (hε : ∀ s a, |q s a - Q s a| ≤ ε) {w : S → Fin m → ℝ} (hp : Returns.PG.Spec.Proper M w) (hw : Spec.Greedy w q)
    {V' : S → ℝ} {Q' : S → Fin m → ℝ} (hV : Returns.PG.Spec.Values M w gamma V' Q') (s : S) :
    V s - 2 * ε / (1 - gamma) ≤ V' s := by
  have h1' : (0 : ℝ) < 1 - gamma := by linarith
  have hs := nonpos_of_shrinks h0 h1 (f := fun s => V s - V' s - 2 * ε / (1 - gamma)) (fun d hd hf s => by
    have e0 : 0 ≤ ε := by
      obtain ⟨a, _⟩ := (hQ.max s).1
      exact (abs_nonneg _).trans (hε s a)
    set D := d + 2 * ε / (1 - gamma) with hD
    have hD0 : 0 ≤ D := add_nonneg hd (div_nonneg (by linarith) h1'.le)
    have h2 : ∀ a, w s a * (V s - 2 * ε - gamma * D) ≤ w s a * Q' s a := by
      intro a
      by_cases ha : w s a = 0
      · rw [ha, zero_mul, zero_mul]
      refine mul_le_mul_of_nonneg_left ?_ (hp.nonneg s a)
      have h3 := bell_le (M := M) hp.prob h0 hD0 (V := V) (V' := V') (fun s => by have := hf s; linarith) s a
      have e1 : bell M gamma V' s a = Q' s a := (hV.q s a).symm
      have e2 : bell M gamma V s a = Q s a := (hQ.q s a).symm
      obtain ⟨b, hb⟩ := (hQ.max s).1
      have h4 := hw s a ha b
      have h5 := (abs_le.1 (hε s a)).2
      have h6 := (abs_le.1 (hε s b)).1
      linarith
    have h7 : V s - 2 * ε - gamma * D ≤ V' s := by
      rw [hV.v]
      calc V s - 2 * ε - gamma * D = ∑ a, w s a * (V s - 2 * ε - gamma * D) := by rw [← sum_mul, hp.sum, one_mul]
        _ ≤ _ := sum_le_sum fun a _ => h2 a
    have e3 : 2 * ε + gamma * D = gamma * d + 2 * ε / (1 - gamma) := by rw [hD]; field_simp; ring
    linarith) s
  linarith

/-- Acting greedily on action values whose greedy actions are optimal is optimal. -/
theorem greedy_optimal (h0 : 0 ≤ gamma) (h1 : gamma < 1) (hQ : Spec.Optimal M gamma V Q) {w : S → Fin m → ℝ}
    (hp : Returns.PG.Spec.Proper M w) (hw : ∀ s a, w s a ≠ 0 → Q s a = V s)
    {V' : S → ℝ} {Q' : S → Fin m → ℝ} (hV : Returns.PG.Spec.Values M w gamma V' Q') : V' = V ∧ Q' = Q := by
  have hv : V' = V := by
    funext s
    refine le_antisymm ((optimal_best h0 h1 hQ hp hV).1 s) ?_
    have := greedy_loss h0 h1 hQ (q := Q) (ε := 0) (by simp) hp (fun s a ha b => by
      rw [hw s a ha]; exact (hQ.max s).2 ⟨b, rfl⟩) hV s
    simpa using this
  refine ⟨hv, funext fun s => funext fun a => ?_⟩
  rw [hV.q, hQ.q, hv]

/-- DQN with one-step targets.  If every new network is within `δ` of an exact fit of its targets, the networks approach
the optimal action values geometrically, up to `δ / (1 - gamma)`, and acting greedily on them is as good accordingly. -/
theorem dqn_iteration_partial [NeZero m] (hprob : ∀ s a o, 0 ≤ M.prob s a o) (h0 : 0 ≤ gamma) (h1 : gamma < 1)
    (hQ : Spec.Optimal M gamma V Q) (mu : S → Fin m → ℝ) {q : ℕ → S → Fin m → ℝ} {ε δ : ℝ}
    (hstart : ∀ s a, |q 0 s a - Q s a| ≤ ε)
    (hfit : ∀ k s a, |q (k + 1) s a - dqnFit M mu gamma 1 (q k) s a| ≤ δ) (k : ℕ) :
    (∀ s a, |q k s a - Q s a| ≤ gamma ^ k * ε + δ / (1 - gamma)) ∧
      ∀ w, Returns.PG.Spec.Proper M w → Spec.Greedy w (q k) → ∀ V' Q', Returns.PG.Spec.Values M w gamma V' Q' →
        ∀ s, V s - 2 * (gamma ^ k * ε + δ / (1 - gamma)) / (1 - gamma) ≤ V' s := by
  have h1' : (0 : ℝ) < 1 - gamma := by linarith
  have key : ∀ k : ℕ, ∀ s a, |q k s a - Q s a| ≤ gamma ^ k * ε + δ / (1 - gamma) := by
    intro k
    induction k with
    | zero =>
      intro s a
      have hδ : 0 ≤ δ := (abs_nonneg _).trans (hfit 0 s a)
      have := div_nonneg hδ h1'.le
      have := hstart s a
      simp only [pow_zero, one_mul]
      linarith
    | succ k ih =>
      intro s a
      obtain ⟨L, hL⟩ := max_exists (q k)
      have h2 := hfit k s a
      rw [dqnFit_one hL] at h2
      have h3 := bell_abs (M := M) hprob h0 ((abs_nonneg _).trans (ih s a)) (max_abs hL hQ.max ih) s a
      have e : bell M gamma V s a = Q s a := (hQ.q s a).symm
      rw [e] at h3
      have h4 := abs_sub_le (q (k + 1) s a) (bell M gamma L s a) (Q s a)
      have e2 : δ + gamma * (gamma ^ k * ε + δ / (1 - gamma)) = gamma ^ (k + 1) * ε + δ / (1 - gamma) := by
        rw [pow_succ']; field_simp; ring
      linarith
  exact ⟨key k, fun w hp hw V' Q' hV s => greedy_loss h0 h1 hQ (key k) hp hw hV s⟩

/-- The targets of Double DQN never exceed those of DQN, and they are within `2 * gamma * η` if the online network is
within `η` of the target network. -/
theorem double_dqn_close [NeZero m] (h0 : 0 ≤ gamma) (h1 : gamma ≤ 1) {mu : S → Fin m → ℝ}
    (hp : Returns.PG.Spec.Proper M mu) (n : ℕ) (q Q : S → Fin m → ℝ) :
    (∀ s a, doubleFit M mu gamma n q Q s a ≤ dqnFit M mu gamma n Q s a) ∧
      ∀ η, (∀ s a, |q s a - Q s a| ≤ η) →
        ∀ s a, dqnFit M mu gamma n Q s a - 2 * gamma * η ≤ doubleFit M mu gamma n q Q s a := by
  have hg : ∀ s, ∃ g : Fin m, greedyAction (row q s) = some (g : Nat) ∧ ∀ b, q s b ≤ q s g := by
    intro s
    have hne : row q s ≠ [] := by
      intro h
      have : (row q s).length = m := by simp [row]
      rw [h] at this
      exact NeZero.ne m this.symm
    obtain ⟨g, x, h2, h3, h4⟩ := greedyAction_spec hne
    have hlt : g < m := by
      have := (List.getElem?_eq_some_iff.1 h3).1
      simpa [row] using this
    rw [row_get q s g hlt] at h3
    refine ⟨⟨g, hlt⟩, h2, fun b => ?_⟩
    rw [Option.some.inj h3]
    exact h4 _ ((List.mem_ofFn' _ _).2 ⟨b, rfl⟩)
  choose g hg1 hg2 using hg
  obtain ⟨L, hL⟩ := max_exists Q
  have hle : ∀ s, Q s (g s) ≤ L s := fun s => (hL s).2 ⟨g s, rfl⟩
  constructor
  · intro s a
    have := fit_le hp n (f := targetOf gamma (doubleDqnTargets (row q) (row Q))) (g := targetOf gamma (dqnTargets (row Q)))
      (c := 0) (fun exp he => by
        rw [double_target g hg1 (fun s => rfl) he, dqn_target hL he, add_zero]
        exact backup_mono h0 hle exp) s a
    rw [add_zero] at this
    exact this
  · intro η hη s a
    have hclose : ∀ s, |L s - Q s (g s)| ≤ 2 * η := by
      intro s
      obtain ⟨b, hb⟩ := (hL s).1
      have h2 := hg2 s b
      have h3 := abs_le.1 (hη s b)
      have h4 := abs_le.1 (hη s (g s))
      have h5 := hle s
      rw [abs_of_nonneg (by linarith)]
      linarith
    have hη0 : 0 ≤ 2 * η := (abs_nonneg _).trans (hclose s)
    have := fit_le hp n (f := targetOf gamma (dqnTargets (row Q))) (g := targetOf gamma (doubleDqnTargets (row q) (row Q)))
      (c := gamma * (2 * η)) (fun exp he => by
        rw [double_target g hg1 (fun s => rfl) he, dqn_target hL he]
        have := (abs_le.1 (backup_abs h0 h1 hη0 hclose exp)).2
        simp only [Option.getD_some]
        linarith) s a
    have e : gamma * (2 * η) = 2 * gamma * η := by ring
    rw [e] at this
    change dqnFit M mu gamma n Q s a ≤ doubleFit M mu gamma n q Q s a + _ at this
    linarith

/-- What "acting greedily is optimal from some point on" means. -/
theorem eventually_optimal (h0 : 0 ≤ gamma) (h1 : gamma < 1) (hQ : Spec.Optimal M gamma V Q) {q : ℕ → S → Fin m → ℝ}
    (h : ∀ᶠ k in atTop, ∀ s a, Q s a < V s → ∃ b, q k s a < q k s b) :
    ∃ K, ∀ k ≥ K, ∀ w, Returns.PG.Spec.Proper M w → Spec.Greedy w (q k) →
      ∀ V' Q', Returns.PG.Spec.Values M w gamma V' Q' → V' = V ∧ Q' = Q := by
  obtain ⟨K, hK⟩ := h.exists_forall_of_atTop
  refine ⟨K, fun k hk w hp hw V' Q' hV => greedy_optimal h0 h1 hQ hp (fun s a ha => ?_) hV⟩
  refine le_antisymm ((hQ.max s).2 ⟨a, rfl⟩) (not_lt.1 fun hlt => ?_)
  obtain ⟨b, hb⟩ := hK k hk s a hlt
  exact absurd (hw s a ha b) (not_le.2 hb)

theorem gap_optimal (hprob : ∀ s a o, 0 ≤ M.prob s a o) (h0 : 0 ≤ gamma) (h1 : gamma < 1) (hQ : Spec.Optimal M gamma V Q)
    {alpha : ℝ} (ha1 : alpha ≤ 1) {q : ℕ → S → Fin m → ℝ} {L : ℕ → S → ℝ} (hL : ∀ k, Spec.Max (q k) (L k))
    (hup : ∀ k s a, q (k + 1) s a ≤ bell M gamma (L k) s a)
    (hlo : ∀ k s a, bell M gamma (L k) s a - alpha * (L k s - q k s a) ≤ q (k + 1) s a) :
    ∃ K, ∀ k ≥ K, ∀ w, Returns.PG.Spec.Proper M w → Spec.Greedy w (q k) →
      ∀ V' Q', Returns.PG.Spec.Values M w gamma V' Q' → V' = V ∧ Q' = Q := by
  refine eventually_optimal h0 h1 hQ ?_
  rw [eventually_all]
  intro s
  rw [eventually_all]
  intro a
  by_cases hlt : Q s a < V s
  · filter_upwards [(gap_converges hprob h0 h1 hQ ha1 hL hup hlo).2 (V s - Q s a) (by linarith)] with k hk _
    obtain ⟨b, hb⟩ := (hL k s).1
    have := hk s a
    exact ⟨b, by linarith⟩
  · exact Eventually.of_forall fun k h => absurd h hlt

/-- The maximum of the target network of every generation. -/
theorem maxima [NeZero m] (q : ℕ → S → Fin m → ℝ) : ∃ L : ℕ → S → ℝ, ∀ k, Spec.Max (q k) (L k) := by
  choose L hL using fun k => max_exists (q k)
  exact ⟨L, hL⟩

/-- Advantage learning with `0 ≤ alpha ≤ 1`: the largest action values converge to the optimal values, and from some point
on acting greedily is optimal.  For `alpha < 1` the gap of every action converges to `1 / (1 - alpha)` times its
optimal gap. -/
theorem advantage_learning_optimal [NeZero m] (hprob : ∀ s a o, 0 ≤ M.prob s a o) (h0 : 0 ≤ gamma) (h1 : gamma < 1)
    (hQ : Spec.Optimal M gamma V Q) (mu : S → Fin m → ℝ) {alpha : ℝ} (ha0 : 0 ≤ alpha) (ha1 : alpha ≤ 1)
    {q : ℕ → S → Fin m → ℝ} (hfit : ∀ k, q (k + 1) = alFit M mu gamma alpha 1 (q k)) :
    (∀ L : ℕ → S → ℝ, (∀ k, Spec.Max (q k) (L k)) → ∀ s, Tendsto (fun k => L k s) atTop (nhds (V s))) ∧
      (∃ K, ∀ k ≥ K, ∀ w, Returns.PG.Spec.Proper M w → Spec.Greedy w (q k) →
        ∀ V' Q', Returns.PG.Spec.Values M w gamma V' Q' → V' = V ∧ Q' = Q) ∧
      (alpha < 1 → ∀ s a, Tendsto (fun k => q k s a) atTop (nhds (V s - (V s - Q s a) / (1 - alpha)))) := by
  have step : ∀ L : ℕ → S → ℝ, (∀ k, Spec.Max (q k) (L k)) → ∀ k s a,
      q (k + 1) s a = bell M gamma (L k) s a - alpha * (L k s - q k s a) := by
    intro L hL k s a
    rw [hfit, alFit_one ha0 (hL k)]
  have hup : ∀ L : ℕ → S → ℝ, (∀ k, Spec.Max (q k) (L k)) → ∀ k s a, q (k + 1) s a ≤ bell M gamma (L k) s a := by
    intro L hL k s a
    rw [step L hL]
    have := mul_nonneg ha0 (sub_nonneg.2 ((hL k s).2 ⟨a, rfl⟩))
    linarith
  obtain ⟨L, hL⟩ := maxima q
  have hconv : ∀ L : ℕ → S → ℝ, (∀ k, Spec.Max (q k) (L k)) → ∀ s, Tendsto (fun k => L k s) atTop (nhds (V s)) :=
    fun L hL => (gap_converges hprob h0 h1 hQ ha1 hL (hup L hL) fun k s a => (step L hL k s a).ge).1
  refine ⟨hconv, gap_optimal hprob h0 h1 hQ ha1 hL (hup L hL) fun k s a => (step L hL k s a).ge, fun ha s a => ?_⟩
  have hb := bell_tendsto (M := M) (gamma := gamma) (hconv L hL) s a
  have hl := (tendsto_add_atTop_iff_nat (f := fun k => L k s) 1).2 (hconv L hL s)
  have e : bell M gamma V s a = Q s a := (hQ.q s a).symm
  rw [e] at hb
  have hgap := linear_tendsto ha0 ha (x := fun k => L k s - q k s a) (hl.sub hb) fun k => by
    rw [step L hL k s a]
    ring
  refine ((hconv L hL s).sub hgap).congr fun k => ?_
  ring

/-- Persistent advantage learning with `0 ≤ alpha ≤ 1`: the largest action values converge to the optimal values, from some
point on acting greedily is optimal, and the gap of an action ends up at least as large as its optimal gap. -/
theorem persistent_advantage_learning_optimal [NeZero m] (hprob : ∀ s a o, 0 ≤ M.prob s a o) (h0 : 0 ≤ gamma)
    (h1 : gamma < 1) (hQ : Spec.Optimal M gamma V Q) (mu : S → Fin m → ℝ) {alpha : ℝ} (ha0 : 0 ≤ alpha) (ha1 : alpha ≤ 1)
    {q : ℕ → S → Fin m → ℝ} (hfit : ∀ k, q (k + 1) = palFit M mu gamma alpha 1 (q k)) {L : ℕ → S → ℝ}
    (hL : ∀ k, Spec.Max (q k) (L k)) :
    (∀ s, Tendsto (fun k => L k s) atTop (nhds (V s))) ∧
      (∃ K, ∀ k ≥ K, ∀ w, Returns.PG.Spec.Proper M w → Spec.Greedy w (q k) →
        ∀ V' Q', Returns.PG.Spec.Values M w gamma V' Q' → V' = V ∧ Q' = Q) ∧
      ∀ η > 0, ∃ K, ∀ k ≥ K, ∀ s a, V s - Q s a - η < L k s - q k s a := by
  have hlo : ∀ k s a, bell M gamma (L k) s a - alpha * (L k s - q k s a) ≤ q (k + 1) s a := fun k s a => by
    rw [hfit]; exact (palFit_one hprob ha0 (hL k) s a).1
  have hup : ∀ k s a, q (k + 1) s a ≤ bell M gamma (L k) s a := fun k s a => by
    rw [hfit]; exact (palFit_one hprob ha0 (hL k) s a).2
  have h2 := gap_converges hprob h0 h1 hQ ha1 hL hup hlo
  exact ⟨h2.1, gap_optimal hprob h0 h1 hQ ha1 hL hup hlo, fun η hη => (h2.2 η hη).exists_forall_of_atTop⟩

/-- `DPPGreedy` is advantage learning with `alpha = 1`. -/
theorem dpp_greedy_is_al (mu : S → Fin m → ℝ) [NeZero m] (q : S → Fin m → ℝ) :
    dppGreedyFit M mu gamma 1 q = alFit M mu gamma 1 1 q := by
  funext s a
  obtain ⟨L, hL⟩ := max_exists q
  have e : (fun s => (maxValue (List.ofFn (q s))).getD 0) = L := funext fun s => by
    have := maxValue_of_isMax (isMax_row hL s)
    rw [row] at this
    rw [this]
    rfl
  have e' : ∀ s, (maxValue (List.ofFn (q s))).getD 0 = L s := fun s => congrFun e s
  rw [alFit_one zero_le_one hL, dppGreedyFit, dppFit_one, e, e', one_mul]

/-- `DPPL` with `eta > 0`: the operator converges to the optimal values, from some point on acting greedily is optimal, and
the values of the other actions fall without bound below it. -/
theorem dppl_optimal [NeZero m] (hprob : ∀ s a o, 0 ≤ M.prob s a o) (h0 : 0 ≤ gamma) (h1 : gamma < 1)
    (hQ : Spec.Optimal M gamma V Q) (mu : S → Fin m → ℝ) {eta : ℝ} (heta : 0 < eta) {q : ℕ → S → Fin m → ℝ}
    (hfit : ∀ k, q (k + 1) = dpplFit eta M mu gamma 1 (q k)) :
    (∀ s, Tendsto (fun k => logSumExpOp eta (q k s)) atTop (nhds (V s))) ∧
      (∃ K, ∀ k ≥ K, ∀ w, Returns.PG.Spec.Proper M w → Spec.Greedy w (q k) →
        ∀ V' Q', Returns.PG.Spec.Values M w gamma V' Q' → V' = V ∧ Q' = Q) ∧
      ∀ s a, Q s a < V s → Tendsto (fun k => q k s a) atTop atBot := by
  have step : ∀ k s a, q (k + 1) s a
      = bell M gamma (fun s => logSumExpOp eta (q k s)) s a - (logSumExpOp eta (q k s) - q k s a) := fun k s a => by
    rw [hfit, dpplFit, dppFit_one]
  have hlim : ∀ s, Tendsto (fun k => logSumExpOp eta (q k s)) atTop (nhds (V s)) := by
    refine converges hprob h0 h1 hQ (q := q) (L := fun k s => logSumExpOp eta (q k s)) (fun k s a => le_lse heta _ a)
      (fun k s => ?_) (fun k s d hd h => ?_) fun k s a => (step k s a).ge
    · obtain ⟨a, ha⟩ := lse_step_le heta (q k s) (bell M gamma (fun s => logSumExpOp eta (q k s)) s)
      refine ⟨a, ?_⟩
      have e : q (k + 1) s = fun i => bell M gamma (fun s => logSumExpOp eta (q k s)) s i
        - (logSumExpOp eta (q k s) - q k s i) := funext fun i => step k s i
      rw [e]
      exact ha
    · exact lse_two_steps heta (q k s) (q (k + 1) s) (q (k + 2) s) _ _ (step k s) (step (k + 1) s) h
  have hfall : ∀ s a, Q s a < V s → Tendsto (fun k => q k s a) atTop atBot := by
    intro s a hlt
    set c := V s - Q s a with hc
    have hcpos : 0 < c := by rw [hc]; linarith
    have ht : Tendsto (fun k => logSumExpOp eta (q k s) - bell M gamma (fun s => logSumExpOp eta (q k s)) s a) atTop
        (nhds c) := by
      have e : bell M gamma V s a = Q s a := (hQ.q s a).symm
      rw [hc, ← e]
      exact (hlim s).sub (bell_tendsto hlim s a)
    obtain ⟨K, hK⟩ := (ht.eventually (lt_mem_nhds (half_lt_self hcpos))).exists_forall_of_atTop
    have hq : ∀ j : ℕ, q (K + j) s a ≤ q K s a - j * (c / 2) := by
      intro j
      induction j with
      | zero => simp
      | succ j ih =>
        have h2 := hK (K + j) (by omega)
        have h3 := step (K + j) s a
        rw [← add_assoc]
        push_cast
        linarith
    rw [tendsto_atTop_atBot]
    intro x
    obtain ⟨j, hj⟩ := exists_nat_gt ((q K s a - x) / (c / 2))
    refine ⟨K + j, fun k hk => ?_⟩
    obtain ⟨i, rfl⟩ : ∃ i, k = K + i := ⟨k - K, by omega⟩
    have h2 := hq i
    have h3 : (j : ℝ) ≤ i := by exact_mod_cast (by omega : j ≤ i)
    rw [div_lt_iff₀ (half_pos hcpos)] at hj
    have h4 := mul_le_mul_of_nonneg_right h3 (half_pos hcpos).le
    linarith
  refine ⟨hlim, eventually_optimal h0 h1 hQ ?_, hfall⟩
  rw [eventually_all]
  intro s
  rw [eventually_all]
  intro a
  by_cases hlt : Q s a < V s
  · -- the operator is at most the maximum plus a constant
    have hmax : ∀ k, ∃ b, logSumExpOp eta (q k s) ≤ q k s b + Real.log m / eta := by
      intro k
      obtain ⟨b, _, hb⟩ := exists_mem_eq_sup' univ_nonempty (q k s)
      refine ⟨b, ?_⟩
      have hm : (0 : ℝ) < m := by exact_mod_cast Nat.pos_of_ne_zero (NeZero.ne m)
      have h2 : Real.exp (eta * logSumExpOp eta (q k s)) ≤ Real.exp (eta * (q k s b + Real.log m / eta)) := by
        rw [exp_lse heta, mul_add, mul_div_cancel₀ _ heta.ne', Real.exp_add, Real.exp_log hm]
        calc ∑ i, Real.exp (eta * q k s i) ≤ ∑ _i : Fin m, Real.exp (eta * q k s b) := by
              refine sum_le_sum fun i _ => Real.exp_le_exp.2 (mul_le_mul_of_nonneg_left ?_ heta.le)
              rw [← hb]
              exact le_sup' (q k s) (mem_univ i)
          _ = _ := by rw [sum_const, card_univ, Fintype.card_fin, nsmul_eq_mul, mul_comm]
      exact le_of_mul_le_mul_left (Real.exp_le_exp.1 h2) heta
    have hlow : ∀ᶠ k in atTop, V s - 1 < logSumExpOp eta (q k s) := (hlim s).eventually (lt_mem_nhds (by linarith))
    have hfar : ∀ᶠ k in atTop, q k s a ≤ V s - 1 - Real.log m / eta := (hfall s a hlt).eventually_le_atBot _
    filter_upwards [hlow, hfar] with k h2 h3 _
    obtain ⟨b, hb⟩ := hmax k
    exact ⟨b, by linarith⟩
  · exact Eventually.of_forall fun k h => absurd h hlt

/-- DQN with targets of several steps: a contraction, for every behaviour policy. -/
theorem n_step_contracts [NeZero m] (h0 : 0 ≤ gamma) (h1 : gamma ≤ 1) {mu : S → Fin m → ℝ}
    (hp : Returns.PG.Spec.Proper M mu) (n : ℕ) (q q' : S → Fin m → ℝ) {d : ℝ} (h : ∀ s a, |q s a - q' s a| ≤ d) (s : S)
    (a : Fin m) : |dqnFit M mu gamma n q s a - dqnFit M mu gamma n q' s a| ≤ gamma * d := by
  have key : ∀ q q' : S → Fin m → ℝ, (∀ s a, |q s a - q' s a| ≤ d) →
      dqnFit M mu gamma n q s a ≤ dqnFit M mu gamma n q' s a + gamma * d := by
    intro q q' h
    obtain ⟨L, hL⟩ := max_exists q
    obtain ⟨L', hL'⟩ := max_exists q'
    refine fit_le hp n (fun exp he => ?_) s a
    rw [dqn_target hL he, dqn_target hL' he]
    have := (abs_le.1 (backup_abs h0 h1 ((abs_nonneg _).trans (h s a)) (max_abs hL hL' h) exp)).2
    simp only [Option.getD_some]
    linarith
  rw [abs_le]
  have h2 := key q q' h
  have h3 := key q' q fun s a => by rw [abs_sub_comm]; exact h s a
  constructor <;> linarith

/-- The value of a trajectory that may be empty. -/
noncomputable def tailBack (gamma : ℝ) (V : S → ℝ) : List (Step S (Fin m)) → S → ℝ
  | [], e => V e
  | x :: tr, _ => Batch.Spec.backup gamma V ((x :: tr).map trans)

theorem backup_tail {stop : Outcome S → Bool} (V : S → ℝ) (x : Step S (Fin m)) (hx : x.out.done = false) (k : ℕ)
    (tr : List (Step S (Fin m))) (e : S) (h : M.Gen stop k x.out.next tr e) :
    Batch.Spec.backup gamma V ((x :: tr).map trans) = x.out.reward + gamma * tailBack gamma V tr e := by
  cases tr with
  | nil =>
    have he : e = x.out.next := by
      cases k with
      | zero => exact h.2
      | succ k => obtain ⟨a, o, ⟨_, h2, _⟩ | ⟨_, tr', h2, _⟩⟩ := h <;> simp at h2
    rw [he]
    simp [Batch.Spec.backup, trans, tailBack, hx]
  | cons y tr => simp [Batch.Spec.backup, trans, tailBack, hx]

/-- The mean of a target, given the mean of what follows. -/
theorem fit_tail [NeZero m] {mu : S → Fin m → ℝ} (hp : Returns.PG.Spec.Proper M mu) {q : S → Fin m → ℝ} {L : S → ℝ}
    (hL : Spec.Max q L) (n : ℕ) (s : S) (a : Fin m) :
    dqnFit M mu gamma n q s a = ∑ o, M.prob s a o * ((M.out s a o).reward + gamma *
      if a3cStop (M.out s a o) then (if (M.out s a o).done then 0 else L (M.out s a o).next)
      else M.expect a3cStop mu (n - 1) (M.out s a o).next (tailBack gamma L)) := by
  rw [dqnFit, fit]
  refine sum_congr rfl fun o _ => congrArg _ ?_
  by_cases hs : a3cStop (M.out s a o) = true
  · simp only [if_pos hs]
    rw [dqn_target hL (good_one _)]
    rfl
  · simp only [if_neg hs]
    have hs' : a3cStop (M.out s a o) = false := by simpa using hs
    have hd : (M.out s a o).done = false := by
      simp only [a3cStop, Bool.or_eq_false_iff] at hs'
      exact hs'.1
    have e1 : M.expect a3cStop mu (n - 1) (M.out s a o).next (fun tr _ =>
          (targetOf gamma (dqnTargets (row q)) ((⟨s, a, M.out s a o⟩ :: tr).map trans)).getD 0)
        = M.expect a3cStop mu (n - 1) (M.out s a o).next (fun tr e =>
          (M.out s a o).reward + gamma * tailBack gamma L tr e) := by
      refine Returns.PG.expect_congr M _ _ fun tr e ht => ?_
      rw [dqn_target hL (good_gen _ _ _ _ ht _ hs'), Option.getD_some, backup_tail L _ hd _ _ _ ht]
    rw [e1, Returns.PG.expect_add, Returns.PG.expect_const M hp.sum, Returns.PG.expect_mul]

theorem expect_tail [NeZero m] {mu : S → Fin m → ℝ} {q : S → Fin m → ℝ} {L : S → ℝ}
    (hL : Spec.Max q L) (k : ℕ) (s : S) :
    M.expect a3cStop mu (k + 1) s (tailBack gamma L) = ∑ a, mu s a * dqnFit M mu gamma (k + 1) q s a := by
  rw [Env.expect, Env.choose]
  refine sum_congr rfl fun a _ => congrArg _ ?_
  rw [dqnFit, fit]
  refine sum_congr rfl fun o _ => congrArg _ ?_
  by_cases hs : a3cStop (M.out s a o) = true
  · simp only [if_pos hs]
    rw [dqn_target hL (good_one _)]
    rfl
  · simp only [if_neg hs, Nat.add_sub_cancel]
    have hs' : a3cStop (M.out s a o) = false := by simpa using hs
    refine Returns.PG.expect_congr M _ _ fun tr e ht => ?_
    rw [dqn_target hL (good_gen _ _ _ _ ht _ hs')]
    rfl

/-- Targets of several steps computed from the optimal action values are too small on average, unless the behaviour policy
takes only optimal actions; then they are right. -/
theorem n_step_underestimates [NeZero m] (h0 : 0 ≤ gamma) {mu : S → Fin m → ℝ} (hp : Returns.PG.Spec.Proper M mu)
    (hQ : Spec.Optimal M gamma V Q) (n : ℕ) (s : S) (a : Fin m) :
    dqnFit M mu gamma n Q s a ≤ Q s a ∧
      ((∀ s a, mu s a ≠ 0 → Q s a = V s) → dqnFit M mu gamma n Q s a = Q s a) := by
  have key : ∀ k : ℕ, (∀ s, M.expect a3cStop mu k s (tailBack gamma V) ≤ V s ∧
      ((∀ s a, mu s a ≠ 0 → Q s a = V s) → M.expect a3cStop mu k s (tailBack gamma V) = V s)) →
      ∀ n, n - 1 = k → ∀ s a, dqnFit M mu gamma n Q s a ≤ Q s a ∧
      ((∀ s a, mu s a ≠ 0 → Q s a = V s) → dqnFit M mu gamma n Q s a = Q s a) := by
    intro k hk n hn s a
    rw [fit_tail hp hQ.max, hQ.q, hn]
    constructor
    · refine sum_le_sum fun o _ => mul_le_mul_of_nonneg_left (add_le_add_right (mul_le_mul_of_nonneg_left ?_ h0) _)
        (hp.prob s a o)
      by_cases hs : a3cStop (M.out s a o) = true
      · simp only [if_pos hs]; exact le_refl _
      · have hd : ¬ (M.out s a o).done = true := fun hd => hs (by simp [a3cStop, hd])
        simp only [if_neg hs, if_neg hd]
        exact (hk _).1
    · intro hopt
      refine sum_congr rfl fun o _ => ?_
      by_cases hs : a3cStop (M.out s a o) = true
      · simp only [if_pos hs]
      · have hd : ¬ (M.out s a o).done = true := fun hd => hs (by simp [a3cStop, hd])
        simp only [if_neg hs, if_neg hd]
        rw [(hk _).2 hopt]
  have tail : ∀ k : ℕ, ∀ s, M.expect a3cStop mu k s (tailBack gamma V) ≤ V s ∧
      ((∀ s a, mu s a ≠ 0 → Q s a = V s) → M.expect a3cStop mu k s (tailBack gamma V) = V s) := by
    intro k
    induction k with
    | zero => intro s; exact ⟨le_refl _, fun _ => rfl⟩
    | succ k ih =>
      intro s
      rw [expect_tail hQ.max]
      have hk := key k ih (k + 1) rfl s
      have e : V s = ∑ a, mu s a * V s := by rw [← sum_mul, hp.sum, one_mul]
      constructor
      · rw [e]
        exact sum_le_sum fun a _ => mul_le_mul_of_nonneg_left ((hk a).1.trans ((hQ.max s).2 ⟨a, rfl⟩)) (hp.nonneg s a)
      · intro hopt
        rw [e]
        refine sum_congr rfl fun a _ => ?_
        rw [(hk a).2 hopt]
        by_cases ha : mu s a = 0
        · rw [ha, zero_mul, zero_mul]
        · rw [hopt s a ha]
  exact key (n - 1) (tail _) n rfl s a

end

/-! ## Disagreements and non-vacuity -/

/-- In `false`, action 0 ends the episode with reward 3/10 and action 1 leads to `true`, where action 0 ends it with reward
0 and action 1 with reward 1. -/
noncomputable def detour : Env Bool (Fin 2) Unit where
  prob _ _ _ := 1
  out s a _ := match s, a with
    | false, 0 => ⟨3 / 10, true, false, false⟩
    | false, 1 => ⟨0, false, false, true⟩
    | true, 0 => ⟨0, true, false, false⟩
    | true, 1 => ⟨1, true, false, false⟩
  sum_prob _ _ := by simp

/-- The optimal action values of `detour` with discount 1/2. -/
noncomputable def detourQ : Bool → Fin 2 → ℝ
  | false, 0 => 3 / 10
  | false, 1 => 1 / 2
  | true, 0 => 0
  | true, 1 => 1

noncomputable def detourV : Bool → ℝ
  | false => 1 / 2
  | true => 1

theorem detour_optimal : Spec.Optimal detour (1 / 2) detourV detourQ := by
  constructor
  · intro s a
    cases s <;> fin_cases a <;> norm_num [detour, detourQ, detourV]
  · intro s
    cases s
    · refine ⟨⟨1, rfl⟩, ?_⟩
      rintro _ ⟨a, rfl⟩
      fin_cases a <;> norm_num [detourQ, detourV]
    · refine ⟨⟨1, rfl⟩, ?_⟩
      rintro _ ⟨a, rfl⟩
      fin_cases a <;> norm_num [detourQ, detourV]

/-- The behaviour of an agent that explores uniformly. -/
noncomputable def uniform : Bool → Fin 2 → ℝ := fun _ _ => 1 / 2

theorem uniform_proper : Returns.PG.Spec.Proper detour uniform :=
  ⟨fun _ _ _ => by norm_num [detour], fun _ _ => by norm_num [uniform], fun _ => by norm_num [uniform]⟩

/-- With targets of two steps and uniform exploration, DQN learns a wrong policy in `detour`, whatever the networks were:
every exact fit of its targets prefers the action worth 3/10 to the one worth 1/2, and acting greedily on it loses 1/5. -/
theorem n_step_wrong (q : Bool → Fin 2 → ℝ) :
    dqnFit detour uniform (1 / 2) 2 q false 0 = 3 / 10 ∧ dqnFit detour uniform (1 / 2) 2 q false 1 = 1 / 4 ∧
      ∀ w, Returns.PG.Spec.Proper detour w → Spec.Greedy w (dqnFit detour uniform (1 / 2) 2 q) →
        ∀ V' Q', Returns.PG.Spec.Values detour w (1 / 2) V' Q' → V' false = 3 / 10 ∧ detourV false = 1 / 2 := by
  obtain ⟨L, hL⟩ := max_exists q
  have e0 : dqnFit detour uniform (1 / 2) 2 q false 0 = 3 / 10 := by
    rw [fit_tail uniform_proper hL]
    norm_num [detour, a3cStop]
  have e1 : dqnFit detour uniform (1 / 2) 2 q false 1 = 1 / 4 := by
    rw [fit_tail uniform_proper hL]
    norm_num [detour, a3cStop, Env.expect, Env.choose, tailBack, uniform, Batch.Spec.backup, trans, Fin.sum_univ_two]
  refine ⟨e0, e1, fun w hp hw V' Q' hV => ⟨?_, rfl⟩⟩
  have hw1 : w false 1 = 0 := by
    by_contra h
    have := hw false 1 h 0
    rw [e0, e1] at this
    norm_num at this
  have hw0 : w false 0 = 1 := by
    have := hp.sum false
    rw [Fin.sum_univ_two, hw1, add_zero] at this
    exact this
  rw [hV.v, Fin.sum_univ_two, hw0, hw1, hV.q]
  norm_num [detour]

/-- With one-step targets the hypotheses of `dqn_iteration_partial` are met by exact fits from any start. -/
example : ∃ q : ℕ → Bool → Fin 2 → ℝ, (∀ s a, |q 0 s a - detourQ s a| ≤ 1) ∧
    (∀ k s a, |q (k + 1) s a - dqnFit detour uniform (1 / 2) 1 (q k) s a| ≤ 0) ∧ q 0 ≠ detourQ := by
  refine ⟨fun k => (dqnFit detour uniform (1 / 2) 1)^[k] fun _ _ => 0, ?_, ?_, ?_⟩
  · intro s a
    cases s <;> fin_cases a <;> norm_num [detourQ, abs_le]
  · intro k s a
    simp only [Function.iterate_succ_apply', sub_self, abs_zero, le_refl]
  · intro h
    have := congrFun (congrFun h true) 1
    norm_num [detourQ] at this

/-- Exact fits of the other agents from any start, in the same environment. -/
example (q : Bool → Fin 2 → ℝ) : (∃ K, ∀ k ≥ K, ∀ w, Returns.PG.Spec.Proper detour w →
      Spec.Greedy w ((alFit detour uniform (1 / 2) (9 / 10) 1)^[k] q) →
      ∀ V' Q', Returns.PG.Spec.Values detour w (1 / 2) V' Q' → V' false = 1 / 2) ∧
    (∃ K, ∀ k ≥ K, ∀ w, Returns.PG.Spec.Proper detour w → Spec.Greedy w ((dpplFit 1 detour uniform (1 / 2) 1)^[k] q) →
      ∀ V' Q', Returns.PG.Spec.Values detour w (1 / 2) V' Q' → V' false = 1 / 2) := by
  constructor
  · obtain ⟨_, ⟨K, hK⟩, _⟩ := advantage_learning_optimal uniform_proper.prob (by norm_num) (by norm_num) detour_optimal
      uniform (alpha := 9 / 10) (by norm_num) (by norm_num)
      (q := fun k => (alFit detour uniform (1 / 2) (9 / 10) 1)^[k] q) (fun k => Function.iterate_succ_apply' _ _ _)
    exact ⟨K, fun k hk w hp hw V' Q' hV => by rw [(hK k hk w hp hw V' Q' hV).1]; rfl⟩
  · obtain ⟨_, ⟨K, hK⟩, _⟩ := dppl_optimal uniform_proper.prob (by norm_num) (by norm_num) detour_optimal
      uniform (eta := 1) (by norm_num)
      (q := fun k => (dpplFit 1 detour uniform (1 / 2) 1)^[k] q) (fun k => Function.iterate_succ_apply' _ _ _)
    exact ⟨K, fun k hk w hp hw V' Q' hV => by rw [(hK k hk w hp hw V' Q' hV).1]; rfl⟩

/-- The policy that is greedy in `detour`, and its values. -/
example : ∃ w, Returns.PG.Spec.Proper detour w ∧ Spec.Greedy w detourQ ∧
    Returns.PG.Spec.Values detour w (1 / 2) detourV detourQ := by
  refine ⟨fun _ a => if a = 1 then 1 else 0, ⟨fun _ _ _ => by norm_num [detour], ?_, ?_⟩, ?_, ?_⟩
  · intro s a; fin_cases a <;> norm_num
  · intro s; norm_num [Fin.sum_univ_two]
  · intro s a ha b
    have h1 : a = 1 := by
      by_contra h
      exact ha (if_neg h)
    subst h1
    cases s <;> fin_cases b <;> norm_num [detourQ]
  · refine ⟨detour_optimal.q, fun s => ?_⟩
    cases s <;> norm_num [Fin.sum_univ_two, detourQ, detourV]

/-- One state, two actions that end the episode with rewards 1 and 0. -/
noncomputable def pick : Env Unit (Fin 2) Unit where
  prob _ _ _ := 1
  out _ a _ := ⟨if a = 0 then 1 else 0, true, false, ()⟩
  sum_prob _ _ := by simp

/-- Advantage learning with `alpha = 2` need not learn anything: from these action values the worse action stays the greedy
one in every generation. -/
theorem al_alpha_too_large (gamma : ℝ) (mu : Unit → Fin 2 → ℝ) :
    ∃ q : ℕ → Unit → Fin 2 → ℝ, (∀ k, q (k + 1) = alFit pick mu gamma 2 1 (q k)) ∧
      ∀ k, q k () 0 ≤ -10 ∧ q k () 1 = 0 := by
  refine ⟨fun k => (alFit pick mu gamma 2 1)^[k] fun _ a => if a = 0 then -10 else 0, fun k => ?_, fun k => ?_⟩
  · simp only [Function.iterate_succ_apply']
  · induction k with
    | zero => norm_num
    | succ k ih =>
      simp only [Function.iterate_succ_apply']
      set q := (alFit pick mu gamma 2 1)^[k] fun _ a => if a = 0 then -10 else 0
      obtain ⟨i0, i1⟩ : q () 0 ≤ -10 ∧ q () 1 = 0 := ih
      have hL : Spec.Max q fun _ => 0 := by
        intro s
        refine ⟨⟨1, i1⟩, ?_⟩
        rintro _ ⟨a, rfl⟩
        fin_cases a
        · simp only [Fin.zero_eta]; linarith
        · exact i1.le
      rw [alFit_one (by norm_num) hL, alFit_one (by norm_num) hL, i1]
      norm_num [bell, pick]
      linarith

end Pfrl.Value.Iteration
