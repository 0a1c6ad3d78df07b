import Verif.Value.Iteration

/-!
# What the targets of Categorical DQN are targets of (C107)

As in `Value/Iteration.lean`, a network is fitted exactly: the new distribution of a state and action is the average, over what
the environment does, of the target distributions the agent computes (the minimiser of the cross entropy that the agent minimises).
-/

namespace Pfrl.Value.Dist

open Finset Filter
open Pfrl.Batch (Trans Out batchExperiences)
open Pfrl.Returns.PG (Env Outcome Step a3cStop)
open Pfrl.Value.Iteration (fit trans Good good_one good_gen dqnFit)

set_option linter.unusedSectionVars false

variable {S O : Type} [Fintype O] {m N : ℕ}

/-! ## Model -/

/-- `np.linspace(v_min, v_max, num=n_atoms)`, `pfrl/q_functions/state_q_functions.py:128` and
`pfrl/q_functions/dueling_dqn.py:89`. -/
noncomputable def atom (vMin vMax : ℝ) (N : ℕ) (j : Fin N) : ℝ := vMin + j * ((vMax - vMin) / ((N : ℝ) - 1))

/-- `z_values`, the same lines. -/
noncomputable def zValues (vMin vMax : ℝ) (N : ℕ) : List ℝ := List.ofFn (atom vMin vMax N)

/-- The output of a network with the probabilities `p`: for each action a row of probabilities. -/
def output (p : S → Fin m → Fin N → ℝ) (s : S) : List (List ℝ) := List.ofFn fun a => List.ofFn (p s a)

/-- The target distribution computed for one experience, `pfrl/agents/categorical_dqn.py:147-181`. -/
noncomputable def distTargetOf (gamma : ℝ) (compute : Out S Nat ℝ → Option (Except PyErr (List (List ℝ))))
    (exp : List (Trans S Nat ℝ)) : Option (List ℝ) :=
  match batchExperiences id gamma [exp] with
  | .error _ => none
  | .ok out =>
    match compute out with
    | some (.ok ds) => ds.head?
    | _ => none

/-- Categorical DQN, `pfrl/agents/categorical_dqn.py:114-145`: each probability of the exact fit is the mean of the target
probabilities. -/
noncomputable def catFit (M : Env S (Fin m) O) (mu : S → Fin m → ℝ) (gamma vMin vMax : ℝ) (n : ℕ)
    (p : S → Fin m → Fin N → ℝ) (s : S) (a : Fin m) (j : Fin N) : ℝ :=
  fit M mu n (fun exp =>
    (distTargetOf gamma (categoricalTargets (zValues vMin vMax N) (output p)) exp).bind fun d => d[j.1]?) s a

/-- Categorical Double DQN, `pfrl/agents/categorical_double_dqn.py:10-51`; `q` is the online network. -/
noncomputable def catDoubleFit (M : Env S (Fin m) O) (mu : S → Fin m → ℝ) (gamma vMin vMax : ℝ) (n : ℕ)
    (q p : S → Fin m → Fin N → ℝ) (s : S) (a : Fin m) (j : Fin N) : ℝ :=
  fit M mu n (fun exp =>
    (distTargetOf gamma (categoricalDoubleTargets (zValues vMin vMax N) (output q) (output p)) exp).bind fun d => d[j.1]?) s a

/-! ## Specification -/

/-- The mean of the distribution with probabilities `q` on the atoms. -/
noncomputable def Spec.mean (vMin vMax : ℝ) (q : Fin N → ℝ) : ℝ := ∑ j, q j * atom vMin vMax N j

/-- Probabilities. -/
def Spec.IsDist (q : Fin N → ℝ) : Prop := (∀ j, 0 ≤ q j) ∧ ∑ j, q j = 1

/-- No reward moves a return inside the support outside of it. -/
def Spec.Covers (M : Env S (Fin m) O) (gamma vMin vMax : ℝ) : Prop := ∀ s a o,
  vMin ≤ (M.out s a o).reward + gamma * (if (M.out s a o).done then 0 else vMin) ∧
    (M.out s a o).reward + gamma * (if (M.out s a o).done then 0 else vMax) ≤ vMax

/-- The distributions of the returns of the policy `w`, every step of which is projected onto the atoms: the mass that the next
distribution has at an atom is moved to the reward plus the discounted atom (the reward alone at the end of an episode), clipped
to the support, and shared between the two neighbouring atoms in proportion to their closeness. -/
def Spec.Returns (M : Env S (Fin m) O) (gamma vMin vMax : ℝ) (w : S → Fin m) (η : S → Fin m → Fin N → ℝ) : Prop :=
  (∀ s a, Spec.IsDist (η s a)) ∧ ∀ s a j, η s a j = ∑ o, M.prob s a o * ∑ i, η (M.out s a o).next (w (M.out s a o).next) i *
    Categorical.Spec.share ((vMax - vMin) / ((N : ℝ) - 1))
      (min (max ((M.out s a o).reward + gamma * if (M.out s a o).done then 0 else atom vMin vMax N i) vMin) vMax)
      (atom vMin vMax N j)

/-! ## Lemmas: lists -/

section lists
variable {vMin vMax : ℝ}

theorem zValues_grid : Categorical.Spec.Grid (zValues vMin vMax N) N vMin ((vMax - vMin) / ((N : ℝ) - 1)) := by
  unfold Categorical.Spec.Grid zValues atom
  apply List.ext_getElem
  · simp
  · intro i h1 h2
    simp

theorem last_atom (hN : 2 ≤ N) : vMin + ((N : ℝ) - 1) * ((vMax - vMin) / ((N : ℝ) - 1)) = vMax := by
  have : ((N : ℝ) - 1) ≠ 0 := by
    have : (2 : ℝ) ≤ N := by exact_mod_cast hN
    linarith
  field_simp
  ring

theorem step_pos (hN : 2 ≤ N) (hv : vMin < vMax) : 0 < (vMax - vMin) / ((N : ℝ) - 1) := by
  have : (2 : ℝ) ≤ N := by exact_mod_cast hN
  exact div_pos (by linarith) (by linarith)

theorem atom_mem (hN : 2 ≤ N) (hv : vMin < vMax) (j : Fin N) : vMin ≤ atom vMin vMax N j ∧ atom vMin vMax N j ≤ vMax := by
  have h := (step_pos hN hv).le
  constructor
  · exact le_add_of_nonneg_right (mul_nonneg (Nat.cast_nonneg _) h)
  · refine le_of_le_of_eq ?_ (last_atom (vMin := vMin) (vMax := vMax) hN)
    refine add_le_add_right (mul_le_mul_of_nonneg_right ?_ h) _
    have : (j.1 : ℝ) + 1 ≤ N := by exact_mod_cast j.2
    linarith

theorem zipWith_ofFn {α β γ : Type} (f : α → β → γ) (u : Fin N → α) (v : Fin N → β) :
    List.zipWith f (List.ofFn u) (List.ofFn v) = List.ofFn fun i => f (u i) (v i) := by
  apply List.ext_getElem
  · simp
  · intro i h1 h2
    simp

theorem mean_eq (q : Fin N → ℝ) : Categorical.Spec.mean (zValues vMin vMax N) (List.ofFn q) = Spec.mean vMin vMax q := by
  unfold Categorical.Spec.mean zValues Spec.mean
  rw [zipWith_ofFn, List.sum_ofFn]
  exact sum_congr rfl fun j _ => mul_comm _ _

theorem projected_get (hN : 2 ≤ N) (f : ℝ → ℝ) (q : Fin N → ℝ) (j : Fin N) :
    (Categorical.Spec.projected N vMin ((vMax - vMin) / ((N : ℝ) - 1)) ((zValues vMin vMax N).map f) (List.ofFn q))[j.1]?
      = some (∑ i, q i * Categorical.Spec.share ((vMax - vMin) / ((N : ℝ) - 1))
          (min (max (f (atom vMin vMax N i)) vMin) vMax) (atom vMin vMax N j)) := by
  unfold Categorical.Spec.projected
  rw [List.getElem?_map, List.getElem?_range j.2, Option.map_some, zValues, List.map_ofFn, List.zip, zipWith_ofFn, List.map_ofFn,
    List.sum_ofFn, last_atom hN]
  rfl

/-- The greedy action of a distributional network. -/
theorem greedy_exists [NeZero m] (p : S → Fin m → Fin N → ℝ) (s : S) : ∃ g : Fin m,
    greedyAction (distQ (output p s) (zValues vMin vMax N)) = some g.1 ∧
    (output p s)[g.1]? = some (List.ofFn (p s g)) ∧
    maxAsDistribution (output p s) (zValues vMin vMax N) = some (List.ofFn (p s g)) ∧
    ∀ b, Spec.mean vMin vMax (p s b) ≤ Spec.mean vMin vMax (p s g) := by
  have hne : output p s ≠ [] := by
    intro h
    have : (output p s).length = m := by simp [output]
    rw [h] at this
    exact NeZero.ne m this.symm
  obtain ⟨g, q, h1, h2, h3, _, h5⟩ := greedy_distributional hne (zValues vMin vMax N)
  have hg : g < m := by
    have := (List.getElem?_eq_some_iff.mp h2).1
    simpa [output] using this
  have hq : q = List.ofFn (p s ⟨g, hg⟩) := by
    have := h2
    simp [output, hg] at this
    exact this.symm
  subst hq
  refine ⟨⟨g, hg⟩, h1, h2, h3, fun b => ?_⟩
  have := h5 (List.ofFn (p s b)) ((List.mem_ofFn' _ _).2 ⟨b, rfl⟩)
  rwa [mean_eq_zipWith, mean_eq_zipWith, mean_eq, mean_eq] at this

end lists

/-! ## Lemmas: targets -/

section targets
variable {vMin vMax gamma : ℝ}

/-- The target distribution of an experience. -/
theorem target_of (hN : 2 ≤ N) (hv : vMin < vMax) {p : S → Fin m → Fin N → ℝ} (hp : ∀ s a, Spec.IsDist (p s a)) (g : S → Fin m)
    {next : S → Option (List ℝ)} (hnext : ∀ s, next s = some (List.ofFn (p s (g s)))) {exp : List (Trans S Nat ℝ)}
    (he : exp ≠ []) (ht : Batch.Spec.TerminalOnlyLast exp) :
    ∃ (d : Fin N → ℝ) (tn : Trans S Nat ℝ), exp.getLast? = some tn ∧
      distTargetOf gamma (categoricalTargetsOf (zValues vMin vMax N) next) exp = some (List.ofFn d) ∧
      Spec.IsDist d ∧
      (∀ j, d j = ∑ i, p tn.nextState (g tn.nextState) i * Categorical.Spec.share ((vMax - vMin) / ((N : ℝ) - 1))
          (min (max (Batch.Spec.backup gamma (fun _ => atom vMin vMax N i) exp) vMin) vMax) (atom vMin vMax N j)) ∧
      ((∀ i, vMin ≤ Batch.Spec.backup gamma (fun _ => atom vMin vMax N i) exp ∧
          Batch.Spec.backup gamma (fun _ => atom vMin vMax N i) exp ≤ vMax) →
        Spec.mean vMin vMax d = Batch.Spec.backup gamma (fun s => Spec.mean vMin vMax (p s (g s))) exp) := by
  obtain ⟨out, ds, h1, h2, h3, h4⟩ := categorical_targets_of id gamma (exps := [exp]) (by simp) (by simpa using he) hN
    (step_pos hN hv) (zValues_grid (vMin := vMin) (vMax := vMax)) (next := next) (pg := fun s => List.ofFn (p s (g s))) hnext
    (fun s => ⟨by simp, by rw [List.sum_ofFn]; exact (hp _ _).2, fun x hx => by
      obtain ⟨i, rfl⟩ := (List.mem_ofFn' _ _).1 hx
      exact (hp _ _).1 i⟩)
  obtain ⟨d, d1, d2, d3, d4, d5, tn, d6, d7⟩ := h4 0 exp rfl ht
  have hd : d = List.ofFn fun j : Fin N => d[j.1]'(by rw [d2]; exact j.2) := by
    apply List.ext_getElem
    · simp [d2]
    · intro i h1 h2
      simp
  have hget : ∀ j : Fin N, d[j.1]? = some (d[j.1]'(by rw [d2]; exact j.2)) := fun j => List.getElem?_eq_getElem _
  refine ⟨fun j => d[j.1]'(by rw [d2]; exact j.2), tn, d6, ?_, ⟨fun j => d4 _ (List.getElem_mem _), ?_⟩, fun j => ?_, fun hin => ?_⟩
  · simp only [distTargetOf, h1, h2]
    rw [List.head?_eq_getElem?, d1, ← hd]
  · rw [← d3]
    conv_rhs => rw [hd, List.sum_ofFn]
  · have e2 := projected_get (vMin := vMin) (vMax := vMax) hN (fun x => Batch.Spec.backup gamma (fun _ => x) exp)
      (p tn.nextState (g tn.nextState)) j
    exact Option.some.inj ((hget j).symm.trans ((congrArg (fun l : List ℝ => l[j.1]?) d7).trans e2))
  · rw [last_atom hN] at d5
    have := d5 (by
      intro zj hz
      obtain ⟨i, rfl⟩ := (List.mem_ofFn' _ _).1 hz
      exact hin i)
    rw [hd, mean_eq] at this
    simp only [mean_eq, id] at this
    exact this

end targets

/-! ## Lemmas: fitting -/

section fitting
variable {M : Env S (Fin m) O} {mu : S → Fin m → ℝ} {vMin vMax gamma : ℝ}

/-- An experience that can be stored. -/
def Stored (M : Env S (Fin m) O) (exp : List (Trans S Nat ℝ)) : Prop :=
  Good (m := m) exp ∧ ∀ t ∈ exp, ∃ s a o, t = Iteration.trans ⟨s, a, M.out s a o⟩

theorem gen_mem {stop : Outcome S → Bool} (k : ℕ) : ∀ (s : S) (tr : List (Step S (Fin m))) (e : S), M.Gen stop k s tr e →
    ∀ x ∈ tr, ∃ s a o, x = ⟨s, a, M.out s a o⟩ := by
  induction k with
  | zero => intro s tr e h x hx; rw [h.1] at hx; cases hx
  | succ k ih =>
    intro s tr e h x hx
    obtain ⟨a, o, ⟨_, rfl, _⟩ | ⟨_, tr', rfl, h⟩⟩ := h
    · rw [List.mem_singleton.1 hx]; exact ⟨s, a, o, rfl⟩
    · rcases List.mem_cons.1 hx with rfl | hx
      · exact ⟨s, a, o, rfl⟩
      · exact ih _ _ _ h x hx

theorem fit_eq (n : ℕ) {f g : List (Trans S Nat ℝ) → Option ℝ} (h : ∀ exp, Stored M exp → (f exp).getD 0 = (g exp).getD 0)
    (s : S) (a : Fin m) : fit M mu n f s a = fit M mu n g s a := by
  unfold fit
  refine sum_congr rfl fun o _ => congrArg _ ?_
  by_cases hs : a3cStop (M.out s a o) = true
  · simp only [if_pos hs]
    exact h _ ⟨good_one _, fun t ht => ⟨s, a, o, List.mem_singleton.1 ht⟩⟩
  · simp only [if_neg hs]
    have hs' : a3cStop (M.out s a o) = false := by simpa using hs
    refine Returns.PG.expect_congr M _ _ fun tr e ht => h _ ⟨good_gen _ _ _ _ ht _ hs', ?_⟩
    intro t hx'
    obtain ⟨x, hx, rfl⟩ := List.mem_map.1 hx'
    rcases List.mem_cons.1 hx with rfl | hx
    · exact ⟨s, a, o, rfl⟩
    · obtain ⟨s, a, o, rfl⟩ := gen_mem _ _ _ _ ht x hx
      exact ⟨s, a, o, rfl⟩

theorem fit_add (n : ℕ) (f g : List (Trans S Nat ℝ) → ℝ) (s : S) (a : Fin m) :
    fit M mu n (fun e => some (f e + g e)) s a = fit M mu n (fun e => some (f e)) s a + fit M mu n (fun e => some (g e)) s a := by
  unfold fit
  rw [← sum_add_distrib]
  refine sum_congr rfl fun o _ => ?_
  rw [← mul_add]
  congr 1
  by_cases hs : a3cStop (M.out s a o) = true
  · simp only [if_pos hs, Option.getD_some]
  · simp only [if_neg hs, Option.getD_some]
    exact Returns.PG.expect_add M _ _ _ _

theorem fit_mul (n : ℕ) (c : ℝ) (f : List (Trans S Nat ℝ) → ℝ) (s : S) (a : Fin m) :
    fit M mu n (fun e => some (c * f e)) s a = c * fit M mu n (fun e => some (f e)) s a := by
  unfold fit
  rw [mul_sum]
  refine sum_congr rfl fun o _ => ?_
  rw [mul_left_comm]
  congr 1
  by_cases hs : a3cStop (M.out s a o) = true
  · simp only [if_pos hs, Option.getD_some]
  · simp only [if_neg hs, Option.getD_some]
    exact Returns.PG.expect_mul M _ _ _ _

theorem fit_sum (n : ℕ) (c : Fin N → ℝ) (f : Fin N → List (Trans S Nat ℝ) → ℝ) (s : S) (a : Fin m) :
    ∑ j, c j * fit M mu n (fun e => some (f j e)) s a = fit M mu n (fun e => some (∑ j, c j * f j e)) s a := by
  induction N with
  | zero =>
    simp only [univ_eq_empty, sum_empty]
    unfold fit
    symm
    refine sum_eq_zero fun o _ => ?_
    by_cases hs : a3cStop (M.out s a o) = true
    · simp [hs]
    · simp only [if_neg hs, Option.getD_some]
      have := Returns.PG.expect_mul M (stop := a3cStop) (w := mu) 0 (n - 1) (M.out s a o).next fun _ _ => (0 : ℝ)
      simp only [zero_mul] at this
      rw [this, mul_zero]
  | succ N ih =>
    simp only [Fin.sum_univ_castSucc]
    rw [ih, fit_add n (fun e => ∑ j : Fin N, c j.castSucc * f j.castSucc e) (fun e => c (Fin.last N) * f (Fin.last N) e), fit_mul]

/-- Inside the support all along an experience. -/
theorem backup_covers (h0 : 0 ≤ gamma) (hc : Spec.Covers M gamma vMin vMax) {x : ℝ} (hx : vMin ≤ x ∧ x ≤ vMax) :
    ∀ exp : List (Trans S Nat ℝ), exp ≠ [] → (∀ t ∈ exp, ∃ s a o, t = Iteration.trans ⟨s, a, M.out s a o⟩) →
      vMin ≤ Batch.Spec.backup gamma (fun _ => x) exp ∧ Batch.Spec.backup gamma (fun _ => x) exp ≤ vMax
  | [], h, _ => absurd rfl h
  | [t], _, h => by
    obtain ⟨s, a, o, rfl⟩ := h t (List.mem_singleton_self t)
    obtain ⟨c1, c2⟩ := hc s a o
    rw [Batch.Spec.backup]
    by_cases hd : (M.out s a o).done = true
    · have hd' : (Iteration.trans ⟨s, a, M.out s a o⟩).terminal = true := hd
      rw [if_pos hd']
      simp only [if_pos hd] at c1 c2
      exact ⟨c1, c2⟩
    · have hd' : ¬(Iteration.trans ⟨s, a, M.out s a o⟩).terminal = true := hd
      rw [if_neg hd']
      simp only [if_neg hd] at c1 c2
      exact ⟨c1.trans (add_le_add_right (mul_le_mul_of_nonneg_left hx.1 h0) _),
        (add_le_add_right (mul_le_mul_of_nonneg_left hx.2 h0) _).trans c2⟩
  | t :: t' :: rest, _, h => by
    have ih := backup_covers h0 hc hx (t' :: rest) (by simp) fun u hu => h u (List.mem_cons_of_mem _ hu)
    obtain ⟨s, a, o, rfl⟩ := h t (List.mem_cons_self ..)
    obtain ⟨c1, c2⟩ := hc s a o
    rw [Batch.Spec.backup.eq_3 _ _ _ _ (by simp)]
    by_cases hd : (M.out s a o).done = true
    · have hd' : (Iteration.trans ⟨s, a, M.out s a o⟩).terminal = true := hd
      rw [if_pos hd']
      simp only [if_pos hd] at c1 c2
      exact ⟨c1, c2⟩
    · have hd' : ¬(Iteration.trans ⟨s, a, M.out s a o⟩).terminal = true := hd
      rw [if_neg hd']
      simp only [if_neg hd] at c1 c2
      exact ⟨c1.trans (add_le_add_right (mul_le_mul_of_nonneg_left ih.1 h0) _),
        (add_le_add_right (mul_le_mul_of_nonneg_left ih.2 h0) _).trans c2⟩

/-- Fitting the targets computed from the distributions of the actions `g`. -/
noncomputable def fitOf (M : Env S (Fin m) O) (mu : S → Fin m → ℝ) (gamma vMin vMax : ℝ) (n : ℕ)
    (next : S → Option (List ℝ)) (s : S) (a : Fin m) (j : Fin N) : ℝ :=
  fit M mu n (fun exp => (distTargetOf gamma (categoricalTargetsOf (zValues vMin vMax N) next) exp).bind fun d => d[j.1]?) s a

theorem fitOf_sum (hN : 2 ≤ N) (hv : vMin < vMax) {p : S → Fin m → Fin N → ℝ} (hp : ∀ s a, Spec.IsDist (p s a)) (g : S → Fin m)
    {next : S → Option (List ℝ)} (hnext : ∀ s, next s = some (List.ofFn (p s (g s)))) (n : ℕ) (c : Fin N → ℝ)
    (s : S) (a : Fin m) :
    ∃ d : List (Trans S Nat ℝ) → Fin N → ℝ,
      (∀ exp, Stored M exp → distTargetOf gamma (categoricalTargetsOf (zValues vMin vMax N) next) exp = some (List.ofFn (d exp)) ∧
        Spec.IsDist (d exp)) ∧
      ∑ j, c j * fitOf M mu gamma vMin vMax n next s a j = fit M mu n (fun e => some (∑ j, c j * d e j)) s a := by
  classical
  have hd : ∀ exp : List (Trans S Nat ℝ), ∃ d : Fin N → ℝ, Stored M exp →
      distTargetOf gamma (categoricalTargetsOf (zValues vMin vMax N) next) exp = some (List.ofFn d) ∧ Spec.IsDist d := by
    intro exp
    by_cases hs : Stored M exp
    · obtain ⟨d, _, _, h1, h2, _⟩ := target_of (gamma := gamma) hN hv hp g hnext hs.1.1 hs.1.2.1
      exact ⟨d, fun _ => ⟨h1, h2⟩⟩
    · exact ⟨fun _ => 0, fun h => absurd h hs⟩
  choose d hd using hd
  refine ⟨d, hd, ?_⟩
  rw [← fit_sum]
  refine sum_congr rfl fun j _ => congrArg _ ?_
  refine fit_eq n (fun exp hs => ?_) s a
  rw [(hd exp hs).1]
  simp

theorem fit_const (hp : Returns.PG.Spec.Proper M mu) (n : ℕ) (c : ℝ) (s : S) (a : Fin m) :
    fit M mu n (fun _ => some c) s a = c := by
  unfold fit
  simp only [Option.getD_some, Returns.PG.expect_const M hp.sum, ite_self]
  rw [← sum_mul, M.sum_prob, one_mul]

theorem fitOf_spec (hN : 2 ≤ N) (hv : vMin < vMax) (hpm : Returns.PG.Spec.Proper M mu) {p : S → Fin m → Fin N → ℝ}
    (hp : ∀ s a, Spec.IsDist (p s a)) (g : S → Fin m)
    {next : S → Option (List ℝ)} (hnext : ∀ s, next s = some (List.ofFn (p s (g s)))) (n : ℕ) (s : S) (a : Fin m) :
    Spec.IsDist (fitOf (N := N) M mu gamma vMin vMax n next s a) ∧
      (0 ≤ gamma → Spec.Covers M gamma vMin vMax → Spec.mean vMin vMax (fitOf (N := N) M mu gamma vMin vMax n next s a)
        = fit M mu n (fun exp => some (Batch.Spec.backup gamma (fun s => Spec.mean vMin vMax (p s (g s))) exp)) s a) := by
  refine ⟨⟨fun j => ?_, ?_⟩, fun h0 hc => ?_⟩
  · have := Iteration.fit_le hpm n (f := fun _ => some 0) (c := 0)
      (g := fun exp => (distTargetOf gamma (categoricalTargetsOf (zValues vMin vMax N) next) exp).bind fun d => d[j.1]?)
      (fun exp he => by
        obtain ⟨d, _, _, h1, h2, _⟩ := target_of (gamma := gamma) hN hv hp g hnext he.1 he.2.1
        rw [h1]
        simpa using h2.1 j) s a
    rw [fit_const hpm, add_zero] at this
    exact this
  · obtain ⟨d, h1, h2⟩ := fitOf_sum (M := M) (mu := mu) (gamma := gamma) hN hv hp g hnext n (fun _ => 1) s a
    simp only [one_mul] at h2
    rw [h2, ← fit_const hpm n 1 s a]
    exact fit_eq n (fun exp he => by simp [(h1 exp he).2.2]) s a
  · obtain ⟨d, h1, h2⟩ := fitOf_sum (M := M) (mu := mu) (gamma := gamma) hN hv hp g hnext n (atom vMin vMax N) s a
    unfold Spec.mean
    simp only [mul_comm (fitOf M mu gamma vMin vMax n next s a _)]
    rw [h2]
    refine fit_eq n (fun exp he => ?_) s a
    obtain ⟨d', _, _, g1, _, _, g4⟩ := target_of (gamma := gamma) hN hv hp g hnext he.1.1 he.1.2.1
    have e : d exp = d' := List.ofFn_injective (Option.some.inj ((h1 exp he).1.symm.trans g1))
    have := g4 fun i => backup_covers h0 hc (atom_mem hN hv i) exp he.1.1 he.2
    unfold Spec.mean at this
    simp only [Option.getD_some]
    rw [← this, e]
    exact sum_congr rfl fun j _ => mul_comm _ _

/-- One step of the projected return distributions of a policy. -/
noncomputable def push (M : Env S (Fin m) O) (gamma vMin vMax : ℝ) (w : S → Fin m) (p : S → Fin m → Fin N → ℝ) (s : S) (a : Fin m)
    (j : Fin N) : ℝ :=
  ∑ o, M.prob s a o * ∑ i, p (M.out s a o).next (w (M.out s a o).next) i *
    Categorical.Spec.share ((vMax - vMin) / ((N : ℝ) - 1))
      (min (max ((M.out s a o).reward + gamma * if (M.out s a o).done then 0 else atom vMin vMax N i) vMin) vMax)
      (atom vMin vMax N j)

theorem fitOf_one (hN : 2 ≤ N) (hv : vMin < vMax) {p : S → Fin m → Fin N → ℝ}
    (hp : ∀ s a, Spec.IsDist (p s a)) (g : S → Fin m)
    {next : S → Option (List ℝ)} (hnext : ∀ s, next s = some (List.ofFn (p s (g s)))) (s : S) (a : Fin m) (j : Fin N) :
    fitOf M mu gamma vMin vMax 1 next s a j = push M gamma vMin vMax g p s a j := by
  rw [fitOf, Iteration.fit_one, push]
  refine sum_congr rfl fun o _ => congrArg _ ?_
  have he : Good (m := m) [Iteration.trans ⟨s, a, M.out s a o⟩] := good_one _
  obtain ⟨d, tn, ht, h1, _, h3, _⟩ := target_of (gamma := gamma) hN hv hp g hnext he.1 he.2.1
  simp only [List.getLast?_singleton, Option.some.injEq] at ht
  subst ht
  rw [h1]
  simp only [Option.bind_some, List.getElem?_ofFn, j.2, dif_pos, Option.getD_some]
  exact h3 j

end fitting

/-! ## Lemmas: distance of distributions -/

section distance
variable {vMin vMax : ℝ}

/-- At most `d` apart in the distance of Kantorovich and Rubinstein. -/
def Within (vMin vMax : ℝ) (d : ℝ) (q q' : Fin N → ℝ) : Prop := ∀ (L : ℝ) (f : ℝ → ℝ), 0 ≤ L →
  (∀ x y, |f x - f y| ≤ L * |x - y|) → |∑ j, (q j - q' j) * f (atom vMin vMax N j)| ≤ L * d

/-- The part of a unit step that lies below `t`. -/
noncomputable def ramp (t : ℝ) : ℝ := min (max t 0) 1

theorem ramp_mono {s t : ℝ} (h : s ≤ t) : ramp s ≤ ramp t := min_le_min_right _ (max_le_max_right _ h)

theorem ramp_sum (u : ℝ) (n : ℕ) : ∑ j ∈ range n, ramp (u - j) = min (max u 0) n := by
  induction n with
  | zero => simp
  | succ n ih =>
    rw [sum_range_succ, ih]
    push_cast
    have hn : (0 : ℝ) ≤ n := Nat.cast_nonneg n
    unfold ramp
    rcases le_total u n with h | h
    · rw [max_eq_right (by linarith : u - n ≤ 0), min_eq_left zero_le_one, min_eq_left (max_le h hn),
        min_eq_left ((max_le h hn).trans (by linarith))]
      ring
    · rw [max_eq_left (by linarith : 0 ≤ u - n), max_eq_left (hn.trans h), min_eq_right h]
      rcases le_total u (n + 1) with h' | h'
      · rw [min_eq_left h', min_eq_left (by linarith)]; ring
      · rw [min_eq_right h', min_eq_right (by linarith)]

theorem tent_eq (t : ℝ) : max 0 (1 - |t|) = ramp (t + 1) - ramp t := by
  unfold ramp
  rcases le_total 0 t with h | h
  · rw [abs_of_nonneg h, max_eq_left h, max_eq_left (by linarith : 0 ≤ t + 1), min_eq_right (by linarith : 1 ≤ t + 1)]
    rcases le_total t 1 with h' | h'
    · rw [min_eq_left h', max_eq_right (by linarith)]
    · rw [min_eq_right h', max_eq_left (by linarith)]; ring
  · rw [abs_of_nonpos h, max_eq_right h, min_eq_left zero_le_one, min_eq_left (max_le (by linarith) zero_le_one)]
    rw [max_comm]
    ring_nf

/-- Summation by parts. -/
theorem tents (F : ℕ → ℝ) (u : ℝ) (n : ℕ) : ∑ j ∈ range (n + 1), F j * (ramp (u - j + 1) - ramp (u - j))
    = F 0 * ramp (u + 1) + ∑ j ∈ range n, (F (j + 1) - F j) * ramp (u - j) - F n * ramp (u - n) := by
  induction n with
  | zero => simp; ring
  | succ n ih =>
    rw [sum_range_succ, ih, sum_range_succ _ n]
    push_cast
    rw [show u - (n + 1 : ℝ) + 1 = u - n by ring]
    ring

/-- Piecewise linear interpolation of the values of `f` at the atoms. -/
noncomputable def interp (vMin vMax : ℝ) (N : ℕ) (f : ℝ → ℝ) (x : ℝ) : ℝ :=
  ∑ j : Fin N, f (atom vMin vMax N j) * Categorical.Spec.share ((vMax - vMin) / ((N : ℝ) - 1)) x (atom vMin vMax N j)

theorem interp_eq (hN : 2 ≤ N) (hv : vMin < vMax) (f : ℝ → ℝ) {x : ℝ} (hx : vMin ≤ x ∧ x ≤ vMax) :
    interp vMin vMax N f x = f vMin + ∑ j ∈ range (N - 1),
      (f (vMin + ((j + 1 : ℕ) : ℝ) * ((vMax - vMin) / ((N : ℝ) - 1))) - f (vMin + (j : ℝ) * ((vMax - vMin) / ((N : ℝ) - 1))))
        * ramp ((x - vMin) / ((vMax - vMin) / ((N : ℝ) - 1)) - j) := by
  have hδ := step_pos hN hv
  have hlast := last_atom (vMin := vMin) (vMax := vMax) hN
  set δ := (vMax - vMin) / ((N : ℝ) - 1) with hδd
  have hu0 : 0 ≤ (x - vMin) / δ := div_nonneg (by linarith) hδ.le
  have hu1 : (x - vMin) / δ ≤ (N : ℝ) - 1 := by rw [div_le_iff₀ hδ]; linarith
  obtain ⟨n, rfl⟩ : ∃ n, N = n + 1 := ⟨N - 1, by omega⟩
  have h := tents (fun j => f (vMin + (j : ℝ) * δ)) ((x - vMin) / δ) n
  unfold interp
  rw [← hδd]
  have e : ∀ j : Fin (n + 1), f (atom vMin vMax (n + 1) j) * Categorical.Spec.share δ x (atom vMin vMax (n + 1) j)
      = (fun j : ℕ => f (vMin + (j : ℝ) * δ) * (ramp ((x - vMin) / δ - j + 1) - ramp ((x - vMin) / δ - j))) j.1 := by
    intro j
    simp only [atom, ← hδd, Categorical.Spec.share]
    rw [← tent_eq]
    congr 3
    rw [← abs_of_pos hδ, ← abs_div, abs_of_pos hδ]
    congr 1
    field_simp
    ring
  rw [sum_congr rfl fun j _ => e j,
    Fin.sum_univ_eq_sum_range (fun j : ℕ => f (vMin + (j : ℝ) * δ) * (ramp ((x - vMin) / δ - j + 1) - ramp ((x - vMin) / δ - j))), h]
  have r1 : ramp ((x - vMin) / δ + 1) = 1 := by
    unfold ramp
    rw [max_eq_left (by linarith), min_eq_right (by linarith)]
  have r2 : ramp ((x - vMin) / δ - n) = 0 := by
    unfold ramp
    push_cast at hu1
    rw [max_eq_right (by linarith), min_eq_left zero_le_one]
  rw [r1, r2]
  simp

theorem interp_lipschitz (hN : 2 ≤ N) (hv : vMin < vMax) {L : ℝ} {f : ℝ → ℝ} (hf : ∀ x y, |f x - f y| ≤ L * |x - y|) {x y : ℝ}
    (hx : vMin ≤ x ∧ x ≤ vMax) (hy : vMin ≤ y ∧ y ≤ vMax) :
    |interp vMin vMax N f x - interp vMin vMax N f y| ≤ L * |x - y| := by
  wlog hxy : y ≤ x generalizing x y with H
  · rw [abs_sub_comm, abs_sub_comm x]
    exact H hy hx (le_of_not_ge hxy)
  rw [interp_eq hN hv f hx, interp_eq hN hv f hy]
  have hδ := step_pos hN hv
  have hlast := last_atom (vMin := vMin) (vMax := vMax) hN
  set δ := (vMax - vMin) / ((N : ℝ) - 1) with hδd
  rw [add_sub_add_left_eq_sub, ← sum_sub_distrib]
  have hstep : ∀ j : ℕ, |f (vMin + ((j + 1 : ℕ) : ℝ) * δ) - f (vMin + (j : ℝ) * δ)| ≤ L * δ := by
    intro j
    refine (hf _ _).trans (le_of_eq ?_)
    push_cast
    rw [show vMin + ((j : ℝ) + 1) * δ - (vMin + j * δ) = δ by ring, abs_of_pos hδ]
  have hcast : ((N - 1 : ℕ) : ℝ) = (N : ℝ) - 1 := by rw [Nat.cast_sub (by omega)]; simp
  have hsum : ∀ t, vMin ≤ t ∧ t ≤ vMax → ∑ j ∈ range (N - 1), ramp ((t - vMin) / δ - j) = (t - vMin) / δ := by
    intro t ht
    rw [ramp_sum, hcast, max_eq_left (div_nonneg (by linarith [ht.1]) hδ.le), min_eq_left]
    rw [div_le_iff₀ hδ]; linarith [ht.2]
  calc |∑ j ∈ range (N - 1), ((f (vMin + ((j + 1 : ℕ) : ℝ) * δ) - f (vMin + (j : ℝ) * δ)) * ramp ((x - vMin) / δ - j)
        - (f (vMin + ((j + 1 : ℕ) : ℝ) * δ) - f (vMin + (j : ℝ) * δ)) * ramp ((y - vMin) / δ - j))|
      ≤ ∑ j ∈ range (N - 1), L * δ * (ramp ((x - vMin) / δ - j) - ramp ((y - vMin) / δ - j)) := by
        refine (abs_sum_le_sum_abs _ _).trans (sum_le_sum fun j _ => ?_)
        rw [← mul_sub, abs_mul]
        have hm : ramp ((y - vMin) / δ - j) ≤ ramp ((x - vMin) / δ - j) :=
          ramp_mono (sub_le_sub_right (div_le_div_of_nonneg_right (by linarith) hδ.le) _)
        rw [abs_of_nonneg (sub_nonneg.2 hm)]
        exact mul_le_mul_of_nonneg_right (hstep j) (sub_nonneg.2 hm)
    _ = L * |x - y| := by
        rw [← mul_sum, sum_sub_distrib, hsum x hx, hsum y hy, abs_of_nonneg (sub_nonneg.2 hxy)]
        field_simp
        ring

theorem clip_mem (hv : vMin < vMax) (x : ℝ) : vMin ≤ min (max x vMin) vMax ∧ min (max x vMin) vMax ≤ vMax :=
  ⟨le_min (le_max_right _ _) hv.le, min_le_right _ _⟩

theorem clip_lipschitz (x y : ℝ) : |min (max x vMin) vMax - min (max y vMin) vMax| ≤ |x - y| := by
  refine (abs_min_sub_min_le_max _ _ _ _).trans ?_
  rw [sub_self, abs_zero, max_eq_left (abs_nonneg _)]
  refine (abs_max_sub_max_le_max _ _ _ _).trans ?_
  rw [sub_self, abs_zero, max_eq_left (abs_nonneg _)]

/-- A step of the return distributions brings them closer. -/
theorem push_within {M : Env S (Fin m) O} {gamma : ℝ} (hprob : ∀ s a o, 0 ≤ M.prob s a o) (hN : 2 ≤ N) (hv : vMin < vMax)
    (h0 : 0 ≤ gamma) (w : S → Fin m) {p p' : S → Fin m → Fin N → ℝ} {d : ℝ} (h : ∀ s a, Within vMin vMax d (p s a) (p' s a))
    (s : S) (a : Fin m) : Within vMin vMax (gamma * d) (push M gamma vMin vMax w p s a) (push M gamma vMin vMax w p' s a) := by
  intro L f hL hf
  have e : ∑ j, (push M gamma vMin vMax w p s a j - push M gamma vMin vMax w p' s a j) * f (atom vMin vMax N j)
      = ∑ o, M.prob s a o * ∑ i, (p (M.out s a o).next (w (M.out s a o).next) i - p' (M.out s a o).next (w (M.out s a o).next) i) *
        interp vMin vMax N f (min (max ((M.out s a o).reward + gamma * if (M.out s a o).done then 0 else atom vMin vMax N i) vMin) vMax) := by
    simp only [push, interp, ← sum_sub_distrib, ← mul_sub, ← sub_mul]
    simp only [sum_mul, mul_sum]
    rw [sum_comm]
    refine sum_congr rfl fun o _ => ?_
    rw [sum_comm]
    refine sum_congr rfl fun i _ => sum_congr rfl fun j _ => ?_
    ring
  rw [e]
  have hle : ∀ o, |∑ i, (p (M.out s a o).next (w (M.out s a o).next) i - p' (M.out s a o).next (w (M.out s a o).next) i) *
        interp vMin vMax N f (min (max ((M.out s a o).reward + gamma * if (M.out s a o).done then 0 else atom vMin vMax N i) vMin) vMax)|
      ≤ L * (gamma * d) := by
    intro o
    rw [← mul_assoc]
    refine h _ _ (L * gamma) (fun x => interp vMin vMax N f
      (min (max ((M.out s a o).reward + gamma * if (M.out s a o).done then 0 else x) vMin) vMax)) (mul_nonneg hL h0) fun x y => ?_
    refine (interp_lipschitz hN hv hf (clip_mem hv _) (clip_mem hv _)).trans ?_
    rw [mul_assoc]
    refine mul_le_mul_of_nonneg_left ((clip_lipschitz _ _).trans ?_) hL
    rw [add_sub_add_left_eq_sub, ← mul_sub, abs_mul, abs_of_nonneg h0]
    refine mul_le_mul_of_nonneg_left ?_ h0
    by_cases hdn : (M.out s a o).done = true
    · simp [hdn]
    · simp [hdn]
  calc _ ≤ ∑ o, M.prob s a o * (L * (gamma * d)) := by
        refine (abs_sum_le_sum_abs _ _).trans (sum_le_sum fun o _ => ?_)
        rw [abs_mul, abs_of_nonneg (hprob s a o)]
        exact mul_le_mul_of_nonneg_left (hle o) (hprob s a o)
    _ = L * (gamma * d) := by rw [← sum_mul, M.sum_prob, one_mul]

theorem within_start (hN : 2 ≤ N) (hv : vMin < vMax) {q q' : Fin N → ℝ} (hq : Spec.IsDist q) (hq' : Spec.IsDist q') :
    Within vMin vMax (vMax - vMin) q q' := by
  intro L f hL hf
  have e : ∑ j, (q j - q' j) * f (atom vMin vMax N j)
      = ∑ i, q i * ∑ j, q' j * (f (atom vMin vMax N i) - f (atom vMin vMax N j)) := by
    simp only [mul_sub, sum_sub_distrib, sub_mul, ← sum_mul, hq'.2, hq.2, one_mul]
  rw [e]
  have hb : ∀ i j, |f (atom vMin vMax N i) - f (atom vMin vMax N j)| ≤ L * (vMax - vMin) := by
    intro i j
    refine (hf _ _).trans (mul_le_mul_of_nonneg_left ?_ hL)
    have h1 := atom_mem hN hv i
    have h2 := atom_mem hN hv j
    rw [abs_le]; constructor <;> linarith [h1.1, h1.2, h2.1, h2.2]
  have hin : ∀ i, |∑ j, q' j * (f (atom vMin vMax N i) - f (atom vMin vMax N j))| ≤ L * (vMax - vMin) := by
    intro i
    calc _ ≤ ∑ j, q' j * (L * (vMax - vMin)) := by
          refine (abs_sum_le_sum_abs _ _).trans (sum_le_sum fun j _ => ?_)
          rw [abs_mul, abs_of_nonneg (hq'.1 j)]
          exact mul_le_mul_of_nonneg_left (hb i j) (hq'.1 j)
      _ = _ := by rw [← sum_mul, hq'.2, one_mul]
  calc _ ≤ ∑ i, q i * (L * (vMax - vMin)) := by
        refine (abs_sum_le_sum_abs _ _).trans (sum_le_sum fun j _ => ?_)
        rw [abs_mul, abs_of_nonneg (hq.1 j)]
        exact mul_le_mul_of_nonneg_left (hin j) (hq.1 j)
    _ = _ := by rw [← sum_mul, hq.2, one_mul]

theorem within_coord (hN : 2 ≤ N) (hv : vMin < vMax) {q q' : Fin N → ℝ} {c : ℝ} (h : Within vMin vMax (c * (vMax - vMin)) q q')
    (j : Fin N) : |q j - q' j| ≤ c * ((N : ℝ) - 1) := by
  have hδ := step_pos hN hv
  have hN' : (0 : ℝ) < (N : ℝ) - 1 := by
    have : (2 : ℝ) ≤ N := by exact_mod_cast hN
    linarith
  have hval : c * ((N : ℝ) - 1) = 1 / ((vMax - vMin) / ((N : ℝ) - 1)) * (c * (vMax - vMin)) := by
    have : vMax - vMin ≠ 0 := by linarith
    field_simp
  have := h (1 / ((vMax - vMin) / ((N : ℝ) - 1)))
    (fun x => max 0 (1 - |x - atom vMin vMax N j| / ((vMax - vMin) / ((N : ℝ) - 1)))) (by positivity) (fun x y => by
      refine (abs_max_sub_max_le_max _ _ _ _).trans ?_
      rw [sub_self, abs_zero, max_eq_right (abs_nonneg _), sub_sub_sub_cancel_left, ← sub_div, abs_div, abs_of_pos hδ,
        div_mul_eq_mul_div, one_mul]
      refine div_le_div_of_nonneg_right ?_ hδ.le
      refine (abs_abs_sub_abs_le _ _).trans (le_of_eq ?_)
      rw [abs_sub_comm x y]
      congr 1; ring)
  rw [hval]
  refine le_trans (le_of_eq ?_) this
  congr 1
  rw [sum_eq_single j]
  · simp
  · intro i _ hij
    have hge : (1 : ℝ) ≤ |atom vMin vMax N i - atom vMin vMax N j| / ((vMax - vMin) / ((N : ℝ) - 1)) := by
      rw [le_div_iff₀ hδ, one_mul]
      simp only [atom]
      rw [add_sub_add_left_eq_sub, ← sub_mul, abs_mul, abs_of_pos hδ]
      refine le_mul_of_one_le_left hδ.le ?_
      have : (1 : ℤ) ≤ |(i.1 : ℤ) - j.1| := by
        refine Int.one_le_abs ?_
        intro h
        exact hij (Fin.ext (by omega))
      exact_mod_cast this
    rw [max_eq_left (by linarith), mul_zero]
  · intro h; exact absurd (mem_univ j) h

end distance

/-! ## Lemmas: limits -/

section limits
variable {M : Env S (Fin m) O} {gamma vMin vMax : ℝ}

theorem push_isDist (hprob : ∀ s a o, 0 ≤ M.prob s a o) (hN : 2 ≤ N) (hv : vMin < vMax) (w : S → Fin m)
    {p : S → Fin m → Fin N → ℝ} (hp : ∀ s a, Spec.IsDist (p s a)) (s : S) (a : Fin m) :
    Spec.IsDist (push M gamma vMin vMax w p s a) := by
  refine ⟨fun j => sum_nonneg fun o _ => mul_nonneg (hprob s a o) (sum_nonneg fun i _ => mul_nonneg ((hp _ _).1 i) (le_max_left _ _)), ?_⟩
  unfold push
  rw [sum_comm]
  have h1 : ∀ x, vMin ≤ x ∧ x ≤ vMax →
      ∑ j, Categorical.Spec.share ((vMax - vMin) / ((N : ℝ) - 1)) x (atom vMin vMax N j) = 1 := by
    intro x hx
    have := interp_eq hN hv (fun _ => 1) hx
    simpa [interp] using this
  simp only [← mul_sum]
  refine (sum_congr rfl fun o _ => ?_).trans (M.sum_prob s a)
  rw [sum_comm]
  simp only [← mul_sum, h1 _ (clip_mem hv _), mul_one]
  rw [(hp _ _).2, mul_one]

theorem iterate_within (hprob : ∀ s a o, 0 ≤ M.prob s a o) (hN : 2 ≤ N) (hv : vMin < vMax) (h0 : 0 ≤ gamma) (w : S → Fin m)
    {p p' : S → Fin m → Fin N → ℝ} (hp : ∀ s a, Spec.IsDist (p s a)) (hp' : ∀ s a, Spec.IsDist (p' s a)) (k : ℕ) (s : S) (a : Fin m) :
    Within vMin vMax (gamma ^ k * (vMax - vMin)) ((push M gamma vMin vMax w)^[k] p s a) ((push M gamma vMin vMax w)^[k] p' s a) := by
  induction k generalizing s a with
  | zero => simpa using within_start hN hv (hp s a) (hp' s a)
  | succ k ih =>
    rw [Function.iterate_succ_apply', Function.iterate_succ_apply', pow_succ', mul_assoc]
    exact push_within hprob hN hv h0 w ih s a

theorem iterate_isDist (hprob : ∀ s a o, 0 ≤ M.prob s a o) (hN : 2 ≤ N) (hv : vMin < vMax) (w : S → Fin m)
    {p : S → Fin m → Fin N → ℝ} (hp : ∀ s a, Spec.IsDist (p s a)) (k : ℕ) (s : S) (a : Fin m) :
    Spec.IsDist ((push M gamma vMin vMax w)^[k] p s a) := by
  induction k generalizing s a with
  | zero => exact hp s a
  | succ k ih => rw [Function.iterate_succ_apply']; exact push_isDist hprob hN hv w ih s a

/-- The projected return distributions of a policy exist, are unique, and are approached geometrically. -/
theorem returns_limit (hprob : ∀ s a o, 0 ≤ M.prob s a o) (hN : 2 ≤ N) (hv : vMin < vMax) (h0 : 0 ≤ gamma) (h1 : gamma < 1)
    (w : S → Fin m) : ∃ η : S → Fin m → Fin N → ℝ, Spec.Returns M gamma vMin vMax w η ∧
      (∀ η' : S → Fin m → Fin N → ℝ, Spec.Returns M gamma vMin vMax w η' → η' = η) ∧
      ∀ p : S → Fin m → Fin N → ℝ, (∀ s a, Spec.IsDist (p s a)) → ∀ k s a j,
        |(push M gamma vMin vMax w)^[k] p s a j - η s a j| ≤ gamma ^ k * ((N : ℝ) - 1) := by
  set T : (S → Fin m → Fin N → ℝ) → S → Fin m → Fin N → ℝ := push M gamma vMin vMax w with hT
  have hpow : Tendsto (fun k : ℕ => gamma ^ k * ((N : ℝ) - 1)) atTop (nhds 0) := by
    simpa using (tendsto_pow_atTop_nhds_zero_of_lt_one h0 h1).mul_const ((N : ℝ) - 1)
  -- a start
  let p0 : S → Fin m → Fin N → ℝ := fun _ _ j => if j.1 = 0 then 1 else 0
  have hp0 : ∀ s a, Spec.IsDist (p0 s a) := by
    intro s a
    refine ⟨fun j => by simp only [p0]; split_ifs <;> norm_num, ?_⟩
    rw [sum_eq_single (⟨0, by omega⟩ : Fin N)]
    · simp [p0]
    · intro j _ hj
      have : j.1 ≠ 0 := fun h => hj (Fin.ext h)
      simp [p0, this]
    · intro h; exact absurd (mem_univ _) h
  have hcoord : ∀ p p' : S → Fin m → Fin N → ℝ, (∀ s a, Spec.IsDist (p s a)) → (∀ s a, Spec.IsDist (p' s a)) → ∀ k s a j,
      |T^[k] p s a j - T^[k] p' s a j| ≤ gamma ^ k * ((N : ℝ) - 1) := fun p p' hp hp' k s a j =>
    within_coord hN hv (iterate_within hprob hN hv h0 w hp hp' k s a) j
  have hlim : ∀ s a j, ∃ x, Tendsto (fun k => T^[k] p0 s a j) atTop (nhds x) := by
    intro s a j
    apply cauchySeq_tendsto_of_complete
    refine cauchySeq_of_le_tendsto_0' (fun k => gamma ^ k * ((N : ℝ) - 1)) (fun k l hkl => ?_) hpow
    obtain ⟨i, rfl⟩ := Nat.exists_eq_add_of_le hkl
    rw [Real.dist_eq, Function.iterate_add_apply]
    exact hcoord _ _ hp0 (iterate_isDist hprob hN hv w hp0 i) k s a j
  choose η hη using hlim
  have hfix : T η = η := by
    funext s a j
    refine tendsto_nhds_unique ?_ ((tendsto_add_atTop_iff_nat 1).2 (hη s a j))
    simp only [Function.iterate_succ_apply']
    refine tendsto_finsetSum _ fun o _ => Tendsto.const_mul _ (tendsto_finsetSum _ fun i _ => Tendsto.mul_const _ (hη _ _ i))
  have hdist : ∀ s a, Spec.IsDist (η s a) := by
    intro s a
    refine ⟨fun j => ge_of_tendsto' (hη s a j) fun k => (iterate_isDist hprob hN hv w hp0 k s a).1 j, ?_⟩
    refine tendsto_nhds_unique (tendsto_finsetSum univ fun j _ => hη s a j) ?_
    refine tendsto_const_nhds.congr fun k => ?_
    exact (iterate_isDist hprob hN hv w hp0 k s a).2.symm
  have hconv : ∀ η' : S → Fin m → Fin N → ℝ, (∀ s a, Spec.IsDist (η' s a)) → T η' = η' →
      ∀ p : S → Fin m → Fin N → ℝ, (∀ s a, Spec.IsDist (p s a)) → ∀ k s a j,
        |T^[k] p s a j - η' s a j| ≤ gamma ^ k * ((N : ℝ) - 1) := by
    intro η' hd hf p hp k s a j
    have := hcoord p η' hp hd k s a j
    rwa [Function.iterate_fixed hf] at this
  refine ⟨η, ⟨hdist, fun s a j => (congrFun (congrFun (congrFun hfix s) a) j).symm⟩, fun η' h => ?_, hconv η hdist hfix⟩
  have hf' : T η' = η' := funext fun s => funext fun a => funext fun j => (h.2 s a j).symm
  funext s a j
  have : ∀ k, |η s a j - η' s a j| ≤ gamma ^ k * ((N : ℝ) - 1) := fun k => by
    have := hconv η' h.1 hf' η hdist k s a j
    rwa [Function.iterate_fixed hfix] at this
  have := ge_of_tendsto' hpow this
  have := abs_eq_zero.1 (le_antisymm this (abs_nonneg _))
  linarith

end limits

/-! ## C107 -/

section C107
variable {M : Env S (Fin m) O} {mu : S → Fin m → ℝ} {gamma vMin vMax : ℝ}

/-- **C107 (targets).** If the networks' outputs are distributions, so are the fitted outputs, for experiences of any length.
If the support covers the returns, the expected values follow the recursions of DQN and Double DQN exactly. -/
theorem categorical_fit [NeZero m] (hN : 2 ≤ N) (hv : vMin < vMax) (h0 : 0 ≤ gamma) (hpm : Returns.PG.Spec.Proper M mu)
    {q p : S → Fin m → Fin N → ℝ} (hp : ∀ s a, Spec.IsDist (p s a)) (n : ℕ) (s : S) (a : Fin m) :
    Spec.IsDist (catFit M mu gamma vMin vMax n p s a) ∧ Spec.IsDist (catDoubleFit M mu gamma vMin vMax n q p s a) ∧
      (Spec.Covers M gamma vMin vMax →
        Spec.mean vMin vMax (catFit M mu gamma vMin vMax n p s a)
          = dqnFit M mu gamma n (fun s a => Spec.mean vMin vMax (p s a)) s a ∧
        Spec.mean vMin vMax (catDoubleFit M mu gamma vMin vMax n q p s a)
          = Iteration.doubleFit M mu gamma n (fun s a => Spec.mean vMin vMax (q s a)) (fun s a => Spec.mean vMin vMax (p s a)) s a) := by
  choose g hg using fun s => greedy_exists (vMin := vMin) (vMax := vMax) p s
  choose g' hg' using fun s => greedy_exists (vMin := vMin) (vMax := vMax) q s
  obtain ⟨a1, a2⟩ := fitOf_spec (gamma := gamma) hN hv hpm hp g
    (next := fun s => maxAsDistribution (output p s) (zValues vMin vMax N)) (fun s => (hg s).2.2.1) n s a
  obtain ⟨b1, b2⟩ := fitOf_spec (gamma := gamma) hN hv hpm hp g'
    (next := fun s => (greedyAction (distQ (output q s) (zValues vMin vMax N))).bind fun a => (output p s)[a]?)
    (fun s => by rw [(hg' s).1]; simp [output]) n s a
  refine ⟨a1, b1, fun hc => ⟨?_, ?_⟩⟩
  · refine (a2 h0 hc).trans ?_
    refine fit_eq n (fun exp he => ?_) s a
    rw [Iteration.dqn_target (V := fun s => Spec.mean vMin vMax (p s (g s))) (fun s => ⟨⟨g s, rfl⟩, ?_⟩) he.1]
    rintro _ ⟨b, rfl⟩
    exact (hg s).2.2.2 b
  · refine (b2 h0 hc).trans ?_
    refine fit_eq n (fun exp he => ?_) s a
    rw [Iteration.double_target (V := fun s => Spec.mean vMin vMax (p s (g' s))) g' (fun s => ?_) (fun s => rfl) he.1]
    rw [← (hg' s).1]
    congr 1
    unfold Iteration.row distQ output
    rw [List.map_ofFn]
    congr 1
    funext b
    rw [Function.comp, mean_eq_zipWith, mean_eq]

/-- **C107 (expected values).** Categorical DQN with one-step targets, on a support that covers the returns.  If the expected
values of every new network are within `d` of those of an exact fit, they approach the optimal action values geometrically, up to
`d / (1 - gamma)`, and acting greedily on them is as good accordingly. -/
theorem categorical_values [Fintype S] [NeZero m] (hN : 2 ≤ N) (hv : vMin < vMax) (h0 : 0 ≤ gamma) (h1 : gamma < 1)
    (hpm : Returns.PG.Spec.Proper M mu) (hc : Spec.Covers M gamma vMin vMax) {V : S → ℝ} {Q : S → Fin m → ℝ}
    (hQ : Iteration.Spec.Optimal M gamma V Q) {p : ℕ → S → Fin m → Fin N → ℝ} (hp : ∀ k s a, Spec.IsDist (p k s a)) {ε d : ℝ}
    (hstart : ∀ s a, |Spec.mean vMin vMax (p 0 s a) - Q s a| ≤ ε)
    (hfit : ∀ k s a, |Spec.mean vMin vMax (p (k + 1) s a) - Spec.mean vMin vMax (catFit M mu gamma vMin vMax 1 (p k) s a)| ≤ d)
    (k : ℕ) :
    (∀ s a, |Spec.mean vMin vMax (p k s a) - Q s a| ≤ gamma ^ k * ε + d / (1 - gamma)) ∧
      ∀ w, Returns.PG.Spec.Proper M w → Iteration.Spec.Greedy w (fun s a => Spec.mean vMin vMax (p k s a)) →
        ∀ V' Q', Returns.PG.Spec.Values M w gamma V' Q' →
          ∀ s, V s - 2 * (gamma ^ k * ε + d / (1 - gamma)) / (1 - gamma) ≤ V' s :=
  Iteration.dqn_iteration_partial (q := fun k s a => Spec.mean vMin vMax (p k s a)) hpm.prob h0 h1 hQ mu hstart
    (fun k s a => by
      rw [← ((categorical_fit (q := p k) hN hv h0 hpm (hp k) 1 s a).2.2 hc).1]
      exact hfit k s a) k

/-- **C107 (distributions).** Categorical DQN with one-step targets, fitted exactly, on a support that covers the returns.  If every
state has one best action, better than the others by some `gap > 0`, then the probabilities converge geometrically, from some
point on, to the projected return distributions of the optimal policy, whose expected values are the optimal values. -/
theorem categorical_distributions [Fintype S] [NeZero m] (hN : 2 ≤ N) (hv : vMin < vMax) (h0 : 0 ≤ gamma) (h1 : gamma < 1)
    (hpm : Returns.PG.Spec.Proper M mu) (hc : Spec.Covers M gamma vMin vMax) {V : S → ℝ} {Q : S → Fin m → ℝ}
    (hQ : Iteration.Spec.Optimal M gamma V Q) {w : S → Fin m} {gap : ℝ} (hgap : 0 < gap)
    (hw : ∀ s a, a ≠ w s → Q s a + gap ≤ Q s (w s)) {p : ℕ → S → Fin m → Fin N → ℝ} (hp : ∀ s a, Spec.IsDist (p 0 s a))
    (hfit : ∀ k s a j, p (k + 1) s a j = catFit M mu gamma vMin vMax 1 (p k) s a j) :
    ∃ η : S → Fin m → Fin N → ℝ, Spec.Returns M gamma vMin vMax w η ∧
      (∀ η' : S → Fin m → Fin N → ℝ, Spec.Returns M gamma vMin vMax w η' → η' = η) ∧
      (∀ s a, Spec.mean vMin vMax (η s a) = Q s a) ∧
      ∃ K, ∀ k s a j, |p (K + k) s a j - η s a j| ≤ gamma ^ k * ((N : ℝ) - 1) := by
  obtain ⟨ε, hstart⟩ : ∃ ε, ∀ s a, |Spec.mean vMin vMax (p 0 s a) - Q s a| ≤ ε := by
    refine ⟨∑ s, ∑ a, |Spec.mean vMin vMax (p 0 s a) - Q s a|, fun s a => ?_⟩
    refine le_trans ?_ (single_le_sum (f := fun s => ∑ a, |Spec.mean vMin vMax (p 0 s a) - Q s a|)
      (fun s _ => sum_nonneg fun a _ => abs_nonneg _) (mem_univ s))
    exact single_le_sum (f := fun a => |Spec.mean vMin vMax (p 0 s a) - Q s a|) (fun a _ => abs_nonneg _) (mem_univ a)
  have hfit' : ∀ k s a, p (k + 1) s a = catFit M mu gamma vMin vMax 1 (p k) s a := fun k s a => funext fun j => hfit k s a j
  have hpd : ∀ k s a, Spec.IsDist (p k s a) := by
    intro k
    induction k with
    | zero => exact hp
    | succ k ih =>
      intro s a
      rw [hfit']
      exact (categorical_fit (q := p k) hN hv h0 hpm ih 1 s a).1
  have hval : ∀ k s a, |Spec.mean vMin vMax (p k s a) - Q s a| ≤ gamma ^ k * ε := by
    intro k s a
    have := (categorical_values (d := 0) hN hv h0 h1 hpm hc hQ hpd hstart (fun k s a => by rw [hfit']; simp) k).1 s a
    simpa using this
  have hpow : Tendsto (fun k : ℕ => gamma ^ k * ε) atTop (nhds 0) := by
    simpa using (tendsto_pow_atTop_nhds_zero_of_lt_one h0 h1).mul_const ε
  obtain ⟨K, hK⟩ := (hpow.eventually (gt_mem_nhds (half_pos hgap))).exists_forall_of_atTop
  have hstep : ∀ k, K ≤ k → p (k + 1) = push M gamma vMin vMax w (p k) := by
    intro k hk
    choose g hg using fun s => greedy_exists (vMin := vMin) (vMax := vMax) (p k) s
    have hgw : g = w := by
      funext s
      by_contra hne
      have e1 := hw s (g s) hne
      have e2 := (hg s).2.2.2 (w s)
      have e3 := abs_le.1 (hval k s (g s))
      have e4 := abs_le.1 (hval k s (w s))
      have e5 := hK k hk
      linarith [e3.2, e4.1]
    funext s a j
    rw [hfit]
    refine (fitOf_one (mu := mu) hN hv (hpd k) g (fun s => (hg s).2.2.1) s a j).trans ?_
    rw [hgw]
  have hit : ∀ k, p (K + k) = (push M gamma vMin vMax w)^[k] (p K) := by
    intro k
    induction k with
    | zero => rfl
    | succ k ih => rw [Function.iterate_succ_apply', ← ih, ← hstep (K + k) (by omega)]; rfl
  obtain ⟨η, g1, g2, g3⟩ := returns_limit (M := M) (N := N) hpm.prob hN hv h0 h1 w
  have hconv : ∀ k s a j, |p (K + k) s a j - η s a j| ≤ gamma ^ k * ((N : ℝ) - 1) := by
    intro k s a j
    rw [hit]
    exact g3 _ (hpd K) k s a j
  refine ⟨η, g1, g2, fun s a => ?_, K, hconv⟩
  have l1 : Tendsto (fun k => Spec.mean vMin vMax (p (K + k) s a)) atTop (nhds (Spec.mean vMin vMax (η s a))) := by
    refine tendsto_finsetSum _ fun j _ => Tendsto.mul_const _ ?_
    rw [tendsto_iff_dist_tendsto_zero]
    refine squeeze_zero (fun k => dist_nonneg) (fun k => ?_)
      (by simpa using (tendsto_pow_atTop_nhds_zero_of_lt_one h0 h1).mul_const ((N : ℝ) - 1))
    rw [Real.dist_eq]
    exact hconv k s a j
  have l2 : Tendsto (fun k => Spec.mean vMin vMax (p (K + k) s a)) atTop (nhds (Q s a)) := by
    rw [tendsto_iff_dist_tendsto_zero]
    refine squeeze_zero (fun k => dist_nonneg) (fun k => ?_)
      ((tendsto_add_atTop_iff_nat K).2 hpow)
    rw [Real.dist_eq, add_comm k K]
    exact hval (K + k) s a
  exact tendsto_nhds_unique l1 l2

end C107

/-! ## Why one best action is needed -/

namespace Tie

/-- State 0 leads to 1.  In state 1, action 0 wins or loses `1/2` and leads to 2, action 1 leads to 3.  States 2 and 3 lead to each
other.  No other rewards. -/
noncomputable def env : Env (Fin 4) (Fin 2) Bool where
  prob _ _ _ := 1 / 2
  out s a o :=
    if s = 0 then ⟨0, false, false, 1⟩
    else if s = 1 then (if a = 0 then ⟨if o then 1 / 2 else -(1 / 2), false, false, 2⟩ else ⟨0, false, false, 3⟩)
    else if s = 2 then ⟨0, false, false, 3⟩ else ⟨0, false, false, 2⟩
  sum_prob := by intro s a; simp

/-- All mass at 0, except in state 2, where it is at 1. -/
def start (s : Fin 4) (_ : Fin 2) : Fin 3 → ℝ := if s = 2 then ![0, 0, 1] else ![0, 1, 0]

/-- Some policy. -/
noncomputable def mu (_ : Fin 4) (_ : Fin 2) : ℝ := 1 / 2

/-- Categorical DQN from there. -/
noncomputable def nets (k : ℕ) : Fin 4 → Fin 2 → Fin 3 → ℝ := (catFit env mu (1 / 2) (-1) 1 1)^[k] start

theorem proper : Returns.PG.Spec.Proper env mu :=
  ⟨fun s a o => by norm_num [env], fun s a => by norm_num [mu], fun s => by simp [mu]⟩

theorem covers : Spec.Covers env (1 / 2) (-1) 1 := by
  intro s a o
  rcases (by omega : s = 0 ∨ s = 1 ∨ s = 2 ∨ s = 3) with rfl | rfl | rfl | rfl <;>
    rcases (by omega : a = 0 ∨ a = 1) with rfl | rfl <;> cases o <;> norm_num [env, show (2 : Fin 4) ≠ 0 by decide, show (2 : Fin 4) ≠ 1 by decide,
      show (3 : Fin 4) ≠ 0 by decide, show (3 : Fin 4) ≠ 1 by decide, show (3 : Fin 4) ≠ 2 by decide]

theorem mean_three (x y z : ℝ) : Spec.mean (-1) 1 ![x, y, z] = z - x := by
  simp [Spec.mean, Fin.sum_univ_three, atom]
  ring

/-- Moving a distribution. -/
noncomputable def move (r : ℝ) (q : Fin 3 → ℝ) (j : Fin 3) : ℝ := ∑ i, q i * Categorical.Spec.share ((1 - (-1)) / (((3 : ℕ) : ℝ) - 1))
  (min (max (r + 1 / 2 * atom (-1) 1 3 i) (-1)) 1) (atom (-1) 1 3 j)

theorem move_zero (q : Fin 3 → ℝ) : move 0 q = ![q 0 / 2, q 0 / 2 + q 1 + q 2 / 2, q 2 / 2] := by
  funext j
  unfold move
  rw [Fin.sum_univ_three]
  fin_cases j <;> norm_num [atom, Categorical.Spec.share, abs_of_nonneg, abs_of_neg] <;> ring

theorem move_up (q : Fin 3 → ℝ) : move (1 / 2) q = ![0, q 0 + q 1 / 2, q 1 / 2 + q 2] := by
  funext j
  unfold move
  rw [Fin.sum_univ_three]
  fin_cases j <;> norm_num [atom, Categorical.Spec.share, abs_of_nonneg, abs_of_neg] <;> ring

theorem move_down (q : Fin 3 → ℝ) : move (-(1 / 2)) q = ![q 0 + q 1 / 2, q 1 / 2 + q 2, 0] := by
  funext j
  unfold move
  rw [Fin.sum_univ_three]
  fin_cases j <;> norm_num [atom, Categorical.Spec.share, abs_of_nonneg, abs_of_neg] <;> ring

theorem start_isDist (s : Fin 4) (a : Fin 2) : Spec.IsDist (start s a) := by
  unfold start
  split_ifs
  · exact ⟨fun j => by fin_cases j <;> simp, by simp [Fin.sum_univ_three]⟩
  · exact ⟨fun j => by fin_cases j <;> simp, by simp [Fin.sum_univ_three]⟩

/-- What is known of the networks: the probabilities of states 2, 3 and 1. -/
structure Known (p : Fin 4 → Fin 2 → Fin 3 → ℝ) (e f : ℝ) : Prop where
  dist : ∀ s a, Spec.IsDist (p s a)
  two : ∀ b, p 2 b = ![0, 1 - e, e]
  three : ∀ b, p 3 b = ![0, 1 - f, f]

theorem catFit_eq {p : Fin 4 → Fin 2 → Fin 3 → ℝ} (hp : ∀ s a, Spec.IsDist (p s a)) : ∃ g : Fin 4 → Fin 2,
    (∀ s b, Spec.mean (-1) 1 (p s b) ≤ Spec.mean (-1) 1 (p s (g s))) ∧
    ∀ s a j, catFit env mu (1 / 2) (-1) 1 1 p s a j = push env (1 / 2) (-1) 1 g p s a j := by
  choose g hg using fun s => greedy_exists (vMin := (-1 : ℝ)) (vMax := 1) p s
  exact ⟨g, fun s => (hg s).2.2.2, fun s a j =>
    fitOf_one (mu := mu) (by norm_num) (by norm_num) hp g (fun s => (hg s).2.2.1) s a j⟩

theorem push_eq (g : Fin 4 → Fin 2) (p : Fin 4 → Fin 2 → Fin 3 → ℝ) :
    (∀ a, push env (1 / 2) (-1) 1 g p 0 a = move 0 (p 1 (g 1))) ∧
      (push env (1 / 2) (-1) 1 g p 1 0 = fun j => (move (1 / 2) (p 2 (g 2)) j + move (-(1 / 2)) (p 2 (g 2)) j) / 2) ∧
      (push env (1 / 2) (-1) 1 g p 1 1 = move 0 (p 3 (g 3))) ∧
      (∀ a, push env (1 / 2) (-1) 1 g p 2 a = move 0 (p 3 (g 3))) ∧
      ∀ a, push env (1 / 2) (-1) 1 g p 3 a = move 0 (p 2 (g 2)) := by
  have h : ∀ s a j, push env (1 / 2) (-1) 1 g p s a j
      = (move (env.out s a true).reward (p (env.out s a true).next (g (env.out s a true).next)) j
        + move (env.out s a false).reward (p (env.out s a false).next (g (env.out s a false).next)) j) / 2 := by
    intro s a j
    have hd : ∀ o, (env.out s a o).done = false := by
      intro o
      unfold env
      fin_cases s <;> fin_cases a <;> cases o <;> rfl
    unfold push move
    rw [Fintype.sum_bool]
    simp only [hd, Bool.false_eq_true, if_false]
    simp only [env]
    ring
  refine ⟨fun a => ?_, ?_, ?_, fun a => ?_, fun a => ?_⟩
  · funext j; rw [h]; simp [env]
  · funext j; rw [h]; simp [env]
  · funext j; rw [h]; simp [env]
  · funext j; rw [h]; simp [env]
  · funext j; rw [h]; simp [env]

theorem Known.step {p : Fin 4 → Fin 2 → Fin 3 → ℝ} {e f : ℝ} (h : Known p e f) :
    Known (catFit env mu (1 / 2) (-1) 1 1 p) (f / 2) (e / 2) ∧
      catFit env mu (1 / 2) (-1) 1 1 p 1 0 = ![(1 - e) / 4, 1 / 2, (1 + e) / 4] ∧
      catFit env mu (1 / 2) (-1) 1 1 p 1 1 = ![0, 1 - f / 2, f / 2] := by
  obtain ⟨g, _, hg⟩ := catFit_eq h.dist
  have hg' : catFit env mu (1 / 2) (-1) 1 1 p = push env (1 / 2) (-1) 1 g p :=
    funext fun s => funext fun a => funext fun j => hg s a j
  obtain ⟨_, e2, e3, e4, e5⟩ := push_eq g p
  rw [hg']
  refine ⟨⟨fun s a => push_isDist proper.prob (by norm_num) (by norm_num) g h.dist s a, fun b => ?_, fun b => ?_⟩, ?_, ?_⟩
  · rw [e4, move_zero, h.three]
    funext j; fin_cases j <;> simp; ring
  · rw [e5, move_zero, h.two]
    funext j; fin_cases j <;> simp; ring
  · rw [e2, move_up, move_down, h.two]
    funext j; fin_cases j <;> simp <;> ring
  · rw [e3, move_zero, h.three]
    funext j; fin_cases j <;> simp; ring

theorem known (i : ℕ) : Known (nets (2 * i)) ((1 / 4) ^ i) 0 ∧ Known (nets (2 * i + 1)) 0 ((1 / 4) ^ i / 2) := by
  have hs : ∀ k, nets (k + 1) = catFit env mu (1 / 2) (-1) 1 1 (nets k) := fun k => Function.iterate_succ_apply' _ _ _
  have key : ∀ i, Known (nets (2 * i)) ((1 / 4) ^ i) 0 → Known (nets (2 * i + 1)) 0 ((1 / 4) ^ i / 2) := by
    intro i h
    rw [hs]
    simpa using h.step.1
  have h0 : ∀ i, Known (nets (2 * i)) ((1 / 4) ^ i) 0 := by
    intro i
    induction i with
    | zero =>
      refine ⟨start_isDist, fun b => ?_, fun b => ?_⟩
      · funext j; fin_cases j <;> simp [nets, start]
      · funext j; fin_cases j <;> simp [nets, start]
    | succ i ih =>
      have := (key i ih).step.1
      rw [← hs] at this
      rw [show 2 * (i + 1) = 2 * i + 1 + 1 by ring, pow_succ]
      convert this using 1 <;> ring
  exact ⟨h0 i, key i (h0 i)⟩

theorem first (i : ℕ) (a : Fin 2) : nets (2 * i + 2) 0 a 0 = (1 - (1 / 4) ^ i) / 8 ∧ nets (2 * i + 3) 0 a 0 = 0 := by
  have hs : ∀ k, nets (k + 1) = catFit env mu (1 / 2) (-1) 1 1 (nets k) := fun k => Function.iterate_succ_apply' _ _ _
  have hpos : (0 : ℝ) < (1 / 4) ^ i := by positivity
  obtain ⟨k1, k2⟩ := known i
  constructor
  · obtain ⟨_, a0, a1⟩ := k1.step
    rw [← hs] at a0 a1
    obtain ⟨g, g1, g2⟩ := catFit_eq k2.dist
    have hg : g 1 = 0 := by
      by_contra hne
      have hg : g 1 = 1 := by omega
      have := g1 1 0
      rw [hg, a0, a1] at this
      rw [mean_three, mean_three] at this
      linarith
    rw [show 2 * i + 2 = 2 * i + 1 + 1 by ring, hs, g2, (push_eq g _).1, hg, a0, move_zero]
    simp
    ring
  · obtain ⟨k3, a0, a1⟩ := k2.step
    rw [← hs] at k3 a0 a1
    obtain ⟨g, g1, g2⟩ := catFit_eq k3.dist
    have hg : g 1 = 1 := by
      by_contra hne
      have hg : g 1 = 0 := by omega
      have := g1 1 1
      rw [hg, a0, a1] at this
      rw [mean_three, mean_three] at this
      linarith
    rw [show 2 * i + 3 = 2 * i + 1 + 1 + 1 by ring, hs, g2, (push_eq g _).1, hg, a1, move_zero]
    simp

end Tie

/-- **C107 (ties).** With two best actions the distributions need not converge, although everything else is as in
`categorical_distributions`: here all optimal values are 0, and the probability of one atom in one state alternates for ever. -/
theorem categorical_distributions_need_gap :
    Returns.PG.Spec.Proper Tie.env Tie.mu ∧ Spec.Covers Tie.env (1 / 2) (-1) 1 ∧
      Iteration.Spec.Optimal Tie.env (1 / 2) (fun _ => 0) (fun _ _ => 0) ∧ (∀ s a, Spec.IsDist (Tie.nets 0 s a)) ∧
      (∀ k s a j, Tie.nets (k + 1) s a j = catFit Tie.env Tie.mu (1 / 2) (-1) 1 1 (Tie.nets k) s a j) ∧
      ∀ a, ¬∃ x, Tendsto (fun k => Tie.nets k 0 a 0) atTop (nhds x) := by
  refine ⟨Tie.proper, Tie.covers, ⟨fun s a => ?_, fun s => ⟨⟨0, rfl⟩, ?_⟩⟩, Tie.start_isDist,
    fun k s a j => by rw [Tie.nets, Function.iterate_succ_apply']; rfl, fun a => ?_⟩
  · rw [Fintype.sum_bool]
    rcases (by omega : s = 0 ∨ s = 1 ∨ s = 2 ∨ s = 3) with rfl | rfl | rfl | rfl <;>
      rcases (by omega : a = 0 ∨ a = 1) with rfl | rfl <;> norm_num [Tie.env, show (2 : Fin 4) ≠ 0 by decide, show (2 : Fin 4) ≠ 1 by decide,
      show (3 : Fin 4) ≠ 0 by decide, show (3 : Fin 4) ≠ 1 by decide, show (3 : Fin 4) ≠ 2 by decide]
  · rintro _ ⟨b, rfl⟩; rfl
  · rintro ⟨x, hx⟩
    have h1 : Tendsto (fun i : ℕ => Tie.nets (2 * i + 2) 0 a 0) atTop (nhds x) :=
      hx.comp (tendsto_atTop_mono (fun i => by simp only [id]; omega) tendsto_id : Tendsto (fun i : ℕ => 2 * i + 2) atTop atTop)
    have h2 : Tendsto (fun i : ℕ => Tie.nets (2 * i + 3) 0 a 0) atTop (nhds x) :=
      hx.comp (tendsto_atTop_mono (fun i => by simp only [id]; omega) tendsto_id : Tendsto (fun i : ℕ => 2 * i + 3) atTop atTop)
    simp only [fun i => (Tie.first i a).1] at h1
    simp only [fun i => (Tie.first i a).2] at h2
    have h3 : Tendsto (fun i : ℕ => (1 - (1 / 4 : ℝ) ^ i) / 8) atTop (nhds ((1 - 0) / 8)) :=
      (tendsto_const_nhds.sub (tendsto_pow_atTop_nhds_zero_of_lt_one (by norm_num) (by norm_num))).div_const 8
    have e1 := tendsto_nhds_unique h1 h3
    have e2 := tendsto_nhds_unique h2 tendsto_const_nhds
    rw [e2] at e1
    norm_num at e1

/-! ## Non-vacuity -/

/-- One state; action 0 gives `1/2`, action 1 nothing. -/
noncomputable def exampleEnv : Env Unit (Fin 2) Unit where
  prob _ _ _ := 1
  out _ a _ := ⟨if a = 0 then 1 / 2 else 0, false, false, ()⟩
  sum_prob := by intro s a; simp

/-- The hypotheses of `categorical_distributions` hold for the support `[0, 1]` with five atoms and all mass at 0 at the start. -/
example : ∃ η : Unit → Fin 2 → Fin 5 → ℝ, Spec.Returns exampleEnv (1 / 2) 0 1 (fun _ => 0) η ∧
    (∀ s a, Spec.mean 0 1 (η s a) = if a = 0 then 1 else 1 / 2) ∧
    ∃ K, ∀ k s a j, |(catFit exampleEnv (fun _ _ => 1 / 2) (1 / 2) 0 1 1)^[K + k] (fun _ _ j => if j = 0 then 1 else 0) s a j - η s a j|
      ≤ (1 / 2) ^ k * ((5 : ℕ) - 1) := by
  obtain ⟨η, h1, _, h3, h4⟩ := categorical_distributions (M := exampleEnv) (mu := fun _ _ => 1 / 2) (gamma := 1 / 2) (vMin := 0)
    (vMax := 1) (N := 5) (V := fun _ => 1) (Q := fun _ a => if a = 0 then 1 else 1 / 2) (w := fun _ => 0) (gap := 1 / 2)
    (p := fun k => (catFit exampleEnv (fun _ _ => 1 / 2) (1 / 2) 0 1 1)^[k] fun _ _ j => if j = 0 then 1 else 0)
    (by norm_num) (by norm_num) (by norm_num) (by norm_num)
    ⟨fun s a o => by norm_num [exampleEnv], fun s a => by norm_num, fun s => by simp⟩
    (fun s a o => by
      rcases (by omega : a = 0 ∨ a = 1) with rfl | rfl <;> norm_num [exampleEnv])
    ⟨fun s a => by
      rcases (by omega : a = 0 ∨ a = 1) with rfl | rfl <;> norm_num [exampleEnv], fun s => ⟨⟨0, by simp⟩, by
      rintro _ ⟨b, rfl⟩
      rcases (by omega : b = 0 ∨ b = 1) with rfl | rfl <;> norm_num⟩⟩
    (by norm_num) (fun s a ha => by simp [ha]; norm_num)
    (fun s a => ⟨fun j => by simp only [Function.iterate_zero, id]; split_ifs <;> norm_num, by simp⟩)
    (fun k s a j => by rw [Function.iterate_succ_apply'])
  exact ⟨η, h1, h3, h4⟩

/-- The target of an experience that ends the episode is all mass shared between the neighbours of the reward. -/
example : categoricalDoubleTargets [(0 : ℚ), 1, 2] (fun _ => [[0, 0, 1], [1, 0, 0]]) (fun _ => [[0, 1, 0], [1, 0, 0]])
    (⟨[()], [()], [(1 / 2 : ℚ)], [()], [1], [1], none⟩ : Out Unit Unit ℚ) = some (.ok [[1 / 2, 1 / 2, 0]]) := by
  decide +kernel

/-- An experience that goes on: the online network prefers the first action, whose target distribution is used. -/
example : categoricalDoubleTargets [(0 : ℚ), 1, 2] (fun _ => [[0, 0, 1], [1, 0, 0]]) (fun _ => [[0, 1, 0], [1, 0, 0]])
    (⟨[()], [()], [(1 / 2 : ℚ)], [()], [0], [1], none⟩ : Out Unit Unit ℚ) = some (.ok [[0, 1 / 2, 1 / 2]]) := by
  decide +kernel

end Pfrl.Value.Dist
