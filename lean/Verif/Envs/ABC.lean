import Mathlib.Analysis.SpecialFunctions.Exp
import Mathlib.Algebra.BigOperators.Intervals
import Mathlib.Algebra.Order.BigOperators.Ring.Finset
import Mathlib.Tactic.Ring
import Mathlib.Tactic.Linarith
import Mathlib.Tactic.FieldSimp
import Verif.Basic

/-!
# The ABC environment (C103)

`pfrl/envs/abc.py`.  One-hot observations have entries 0 and 1 in `ℕ`, rewards 0 and 1 in `ℕ`.
-/

namespace Pfrl.Envs.ABC

/-! ## Model -/

/-- The arguments of `ABC.__init__`, `pfrl/envs/abc.py:76-106`; `discrete` decides which of `step` and `softStep` below is
used. -/
structure Cfg where
  size : ℕ
  po : Bool
  episodic : Bool
  det : Bool

/-- `_state` and `_offset`, set by `reset`. -/
structure St where
  state : ℕ
  offset : ℕ
deriving DecidableEq, Repr

/-- `observe`, `pfrl/envs/abc.py:108-111`: assignment to an index outside the array raises. -/
def observe (c : Cfg) (s : St) : Except PyErr (List ℕ) :=
  if s.state + s.offset < c.size + 2 then .ok ((List.replicate (c.size + 2) 0).set (s.state + s.offset) 1)
  else .error .indexError

/-- `reset`, `pfrl/envs/abc.py:113-126`, given the previous state, if any, and the value of the random draw from
`{0, 1}`. -/
def reset (c : Cfg) (draw : ℕ) (old : Option St) : St :=
  ⟨0, if c.po then (if c.det then ((old.map St.offset).getD 0 + 1) % 2 else draw) else 0⟩

/-- Reward, `done` and the new `_state`, `pfrl/envs/abc.py:137-159`. -/
def advance (c : Cfg) (s : St) (action : ℤ) : St × ℕ × Bool :=
  if action = s.state then
    if s.state + 1 = c.size then
      if c.episodic then ({ s with state := c.size }, 1, true) else ({ s with state := 0 }, 1, false)
    else ({ s with state := s.state + 1 }, 0, false)
  else
    if c.episodic then ({ s with state := c.size }, 0, true) else (s, 0, false)

/-- What a step returns. -/
structure Out where
  obs : List ℕ
  reward : ℕ
  done : Bool
deriving DecidableEq, Repr

/-- `step` with an integer action, `pfrl/envs/abc.py:128-159`. -/
def step (c : Cfg) (s : St) (action : ℤ) : St × Except PyErr Out :=
  ((advance c s action).1, (observe c (advance c s action).1).map fun o => ⟨o, (advance c s action).2.1, (advance c s action).2.2⟩)

/-- A client that takes the given actions until `done`. -/
def trace (c : Cfg) : St → List ℤ → Except PyErr (List Out)
  | _, [] => .ok []
  | s, a :: l =>
    match step c s a with
    | (_, .error e) => .error e
    | (s', .ok o) => if o.done then .ok [o] else (trace c s' l).map (o :: ·)

/-- A client whose actions depend on the observations of the episode so far; returns the sum of rewards. -/
def rollout (c : Cfg) (policy : List (List ℕ) → ℤ) : ℕ → St → List (List ℕ) → Except PyErr ℕ
  | 0, _, _ => .ok 0
  | n + 1, s, hist =>
    match step c s (policy hist) with
    | (_, .error e) => .error e
    | (s', .ok o) => if o.done then .ok o.reward else (rollout c policy n s' (hist ++ [o.obs])).map (o.reward + ·)

/-- `np.clip(action, -1, 1)` on one entry, `pfrl/envs/abc.py:131`. -/
noncomputable def clip (x : ℝ) : ℝ := min (max x (-1)) 1

/-- `prob = np.exp(action) / np.exp(action).sum()`, `pfrl/envs/abc.py:135`. -/
noncomputable def prob (n : ℕ) (a : ℕ → ℝ) (i : ℕ) : ℝ :=
  Real.exp (clip (a i)) / ∑ j ∈ Finset.range n, Real.exp (clip (a j))

/-- `np.argmax`: the first index of the maximum of the entries `0, …, n`. -/
noncomputable def argmax (a : ℕ → ℝ) : ℕ → ℕ
  | 0 => 0
  | n + 1 => if a (argmax a n) < a (n + 1) then n + 1 else argmax a n

/-- The inner action of a deterministic environment with continuous actions, `pfrl/envs/abc.py:131-133`. -/
noncomputable def innerAction (n : ℕ) (a : ℕ → ℝ) : ℕ := argmax (fun i => clip (a i)) (n - 1)

/-- The expected sum of rewards of a client of a stochastic environment with continuous actions: `np.random.choice` picks
inner action `i` with probability `prob i`, `pfrl/envs/abc.py:134-136`. Errors count as return 0. -/
noncomputable def expectedReturn (c : Cfg) (policy : List (List ℕ) → ℕ → ℝ) : ℕ → St → List (List ℕ) → ℝ
  | 0, _, _ => 0
  | n + 1, s, hist =>
    ∑ i ∈ Finset.range c.size, prob c.size (policy hist) i *
      (match step c s i with
       | (_, .error _) => 0
       | (s', .ok o) => o.reward + if o.done then 0 else expectedReturn c policy n s' (hist ++ [o.obs]))

/-! ## Specification -/

/-- The vector with `N + 2` entries that is one at `i` and zero elsewhere. -/
def Spec.oneHot (N i : ℕ) : List ℕ := (List.range (N + 2)).map fun j => if j = i then 1 else 0

/-- The correct actions `k, k + 1, …` (`m` of them). -/
def Spec.correct (k m : ℕ) : List ℤ := (List.range' k m).map fun j : ℕ => (j : ℤ)

/-- Steps the counter of correct actions, when the task is cyclic with period `N`. -/
def Spec.count (N : ℕ) (c : ℕ) (a : ℤ) : ℕ := if a = ((c % N : ℕ) : ℤ) then c + 1 else c

/-- The observations of an episode with shift `o` in which all actions so far, `k` of them, were correct. -/
def Spec.history (N o k : ℕ) : List (List ℕ) := (List.range (k + 1)).map fun j => Spec.oneHot N (j + o)

/-! ## Lemmas -/

theorem set_oneHot {N i : ℕ} (h : i < N + 2) : (List.replicate (N + 2) 0).set i 1 = Spec.oneHot N i := by
  apply List.ext_getElem?
  intro j
  rw [List.getElem?_set]
  unfold Spec.oneHot
  by_cases hj : i = j
  · subst hj
    rw [if_pos rfl, if_pos (by simpa using h)]
    simp [h]
  · rw [if_neg hj]
    by_cases h2 : j < N + 2
    · simp only [List.getElem?_map, List.getElem?_range h2, Option.map_some]
      rw [List.getElem?_replicate, if_pos h2, if_neg (fun h => hj h.symm)]
    · rw [List.getElem?_eq_none (by simp; omega), List.getElem?_eq_none (by simp; omega)]

theorem observe_ok {c : Cfg} {s : St} (h : s.state + s.offset < c.size + 2) :
    observe c s = .ok (Spec.oneHot c.size (s.state + s.offset)) := by
  rw [observe, if_pos h, set_oneHot h]

theorem oneHot_inj {N i j : ℕ} (hi : i < N + 2) (h : Spec.oneHot N i = Spec.oneHot N j) : i = j := by
  have h1 : (Spec.oneHot N i)[i]? = some 1 := by simp [Spec.oneHot, hi]
  rw [h] at h1
  simp only [Spec.oneHot, List.getElem?_map, List.getElem?_range hi, Option.map_some, Option.some.injEq] at h1
  by_contra hc
  rw [if_neg hc] at h1
  cases h1

theorem step_next {c : Cfg} {k o : ℕ} (ho : o ≤ 1) (hk : k + 1 < c.size) :
    step c ⟨k, o⟩ k = (⟨k + 1, o⟩, .ok ⟨Spec.oneHot c.size (k + 1 + o), 0, false⟩) := by
  have h1 : advance c ⟨k, o⟩ k = (⟨k + 1, o⟩, 0, false) := by
    rw [advance, if_pos rfl, if_neg (by simp only; omega)]
  rw [step, h1, observe_ok (by simp only; omega)]
  rfl

theorem step_goal {c : Cfg} (hc : c.episodic = true) {k o : ℕ} (ho : o ≤ 1) (hk : k + 1 = c.size) :
    step c ⟨k, o⟩ k = (⟨c.size, o⟩, .ok ⟨Spec.oneHot c.size (c.size + o), 1, true⟩) := by
  have h1 : advance c ⟨k, o⟩ k = (⟨c.size, o⟩, 1, true) := by
    rw [advance, if_pos rfl, if_pos (by simpa using hk), if_pos hc]
  rw [step, h1, observe_ok (by simp only; omega)]
  rfl

theorem step_wrong {c : Cfg} (hc : c.episodic = true) {k o : ℕ} (ho : o ≤ 1) {a : ℤ} (ha : a ≠ k) :
    step c ⟨k, o⟩ a = (⟨c.size, o⟩, .ok ⟨Spec.oneHot c.size (c.size + o), 0, true⟩) := by
  have h1 : advance c ⟨k, o⟩ a = (⟨c.size, o⟩, 0, true) := by
    rw [advance, if_neg (by simpa using ha), if_pos hc]
  rw [step, h1, observe_ok (by simp only; omega)]
  rfl

theorem trace_correct {c : Cfg} {o : ℕ} (ho : o ≤ 1) (rest : List ℤ) :
    ∀ (m k : ℕ), k + m < c.size → trace c ⟨k, o⟩ (Spec.correct k m ++ rest)
      = (trace c ⟨k + m, o⟩ rest).map
          (((List.range' (k + 1) m).map fun j => ⟨Spec.oneHot c.size (j + o), 0, false⟩) ++ ·) := by
  intro m
  induction m with
  | zero =>
    intro k _
    simp only [Spec.correct, List.range'_zero, List.map_nil, List.nil_append, Nat.add_zero]
    cases trace c ⟨k, o⟩ rest <;> rfl
  | succ m ih =>
    intro k hk
    have e : Spec.correct k (m + 1) ++ rest = (k : ℤ) :: (Spec.correct (k + 1) m ++ rest) := by
      simp [Spec.correct, List.range'_succ]
    rw [e, trace, step_next ho (by omega)]
    simp only [Bool.false_eq_true, if_false]
    rw [ih (k + 1) (by omega), show k + 1 + m = k + (m + 1) by omega]
    cases trace c ⟨k + (m + 1), o⟩ rest with
    | error e => rfl
    | ok v => simp [Except.map, List.range'_succ]

/-- Every list of actions begins with the correct actions, or deviates, or ends too early. -/
theorem split_actions (l : List ℤ) : ∀ (m k : ℕ),
    (∃ rest, l = Spec.correct k m ++ rest) ∨
    (∃ j a rest, j < m ∧ a ≠ ((k + j : ℕ) : ℤ) ∧ l = Spec.correct k j ++ a :: rest) ∨
    (∃ j, j < m ∧ l = Spec.correct k j) := by
  induction l with
  | nil =>
    intro m k
    cases m with
    | zero => exact .inl ⟨[], by simp [Spec.correct]⟩
    | succ m => exact .inr (.inr ⟨0, by omega, by simp [Spec.correct]⟩)
  | cons b l ih =>
    intro m k
    cases m with
    | zero => exact .inl ⟨b :: l, by simp [Spec.correct]⟩
    | succ m =>
      by_cases hb : b = (k : ℤ)
      · subst hb
        have e : ∀ j, Spec.correct k (j + 1) = (k : ℤ) :: Spec.correct (k + 1) j := by
          intro j; simp [Spec.correct, List.range'_succ]
        rcases ih m (k + 1) with ⟨rest, h⟩ | ⟨j, a, rest, h1, h2, h3⟩ | ⟨j, h1, h2⟩
        · exact .inl ⟨rest, by rw [e, h]; rfl⟩
        · exact .inr (.inl ⟨j + 1, a, rest, by omega, by rwa [show k + (j + 1) = k + 1 + j by omega], by rw [e, h3]; rfl⟩)
        · exact .inr (.inr ⟨j + 1, by omega, by rw [e, h2]⟩)
      · exact .inr (.inl ⟨0, b, l, by omega, by simpa using hb, by simp [Spec.correct]⟩)

theorem history_succ (N o k : ℕ) : Spec.history N o (k + 1) = Spec.history N o k ++ [Spec.oneHot N (k + 1 + o)] := by
  simp [Spec.history, List.range_succ]

theorem rollout_spec {c : Cfg} (hc : c.episodic = true) {o : ℕ} (ho : o ≤ 1) (policy : List (List ℕ) → ℤ) :
    ∀ (m k n : ℕ), k + m = c.size → 0 < m → m ≤ n →
      ((∀ j, k ≤ j → j < c.size → policy (Spec.history c.size o j) = j) →
        rollout c policy n ⟨k, o⟩ (Spec.history c.size o k) = .ok 1) ∧
      ((∃ j, k ≤ j ∧ j < c.size ∧ policy (Spec.history c.size o j) ≠ j) →
        rollout c policy n ⟨k, o⟩ (Spec.history c.size o k) = .ok 0) := by
  intro m
  induction m with
  | zero => intro k n _ h; omega
  | succ m ih =>
    intro k n hk _ hn
    obtain ⟨n, rfl⟩ : ∃ n', n = n' + 1 := ⟨n - 1, by omega⟩
    by_cases hp : policy (Spec.history c.size o k) = k
    · rcases Nat.eq_zero_or_pos m with hm | hm
      · subst hm
        rw [rollout, hp, step_goal hc ho (by omega)]
        refine ⟨fun _ => rfl, ?_⟩
        rintro ⟨j, h1, h2, h3⟩
        obtain rfl : j = k := by omega
        exact absurd hp h3
      · have hstep := step_next (c := c) ho (k := k) (by omega)
        obtain ⟨i1, i2⟩ := ih (k + 1) n (by omega) hm (by omega)
        rw [rollout, hp, hstep]
        simp only [Bool.false_eq_true, if_false]
        rw [← history_succ]
        refine ⟨fun h => ?_, fun h => ?_⟩
        · rw [i1 fun j hj hj' => h j (by omega) hj']
          rfl
        · obtain ⟨j, h1, h2, h3⟩ := h
          have : j ≠ k := by rintro rfl; exact h3 hp
          rw [i2 ⟨j, by omega, h2, h3⟩]
          rfl
    · rw [rollout, step_wrong hc ho hp]
      refine ⟨fun h => absurd (h k (le_refl _) (by omega)) hp, fun _ => rfl⟩

theorem clip_mem (x : ℝ) : -1 ≤ clip x ∧ clip x ≤ 1 :=
  ⟨le_min (le_max_right _ _) (by norm_num), min_le_right _ _⟩

theorem clip_id {x : ℝ} (h1 : -1 ≤ x) (h2 : x ≤ 1) : clip x = x := by
  rw [clip, max_eq_left h1, min_eq_left h2]

theorem sum_exp_pos {n : ℕ} (hn : 0 < n) (a : ℕ → ℝ) : 0 < ∑ j ∈ Finset.range n, Real.exp (clip (a j)) :=
  Finset.sum_pos (fun _ _ => Real.exp_pos _) ⟨0, Finset.mem_range.2 hn⟩

theorem expected_spec {c : Cfg} (hc : c.episodic = true) {o : ℕ} (ho : o ≤ 1) (policy : List (List ℕ) → ℕ → ℝ) :
    ∀ (m k n : ℕ), k + m = c.size → 0 < m → m ≤ n →
      expectedReturn c policy n ⟨k, o⟩ (Spec.history c.size o k)
        = ∏ j ∈ Finset.Ico k c.size, prob c.size (policy (Spec.history c.size o j)) j := by
  intro m
  induction m with
  | zero => intro k n _ h; omega
  | succ m ih =>
    intro k n hk _ hn
    obtain ⟨n, rfl⟩ : ∃ n', n = n' + 1 := ⟨n - 1, by omega⟩
    rw [expectedReturn, Finset.sum_eq_single k]
    · rw [Finset.prod_eq_prod_Ico_succ_bot (by omega : k < c.size)]
      refine congrArg (fun z : ℝ => prob c.size (policy (Spec.history c.size o k)) k * z) ?_
      rcases Nat.eq_zero_or_pos m with hm | hm
      · subst hm
        rw [step_goal hc ho (by omega)]
        rw [Finset.Ico_eq_empty (by omega), Finset.prod_empty]
        simp
      · rw [step_next ho (by omega)]
        simp only [Bool.false_eq_true, if_false, Nat.cast_zero, zero_add]
        rw [← history_succ, ih (k + 1) n (by omega) hm (by omega)]
    · intro i _ hi
      rw [step_wrong hc ho (by exact_mod_cast hi)]
      simp
    · intro h
      exact absurd (Finset.mem_range.2 (by omega)) h

theorem argmax_spec (a : ℕ → ℝ) : ∀ n, argmax a n ≤ n ∧ (∀ i, i ≤ n → a i ≤ a (argmax a n)) ∧
    ∀ i, i < argmax a n → a i < a (argmax a n) := by
  intro n
  induction n with
  | zero => exact ⟨le_refl _, fun i hi => by rw [Nat.le_zero.1 hi]; exact le_refl _, fun i hi => absurd hi (Nat.not_lt_zero _)⟩
  | succ n ih =>
    obtain ⟨h1, h2, h3⟩ := ih
    rw [argmax]
    by_cases h : a (argmax a n) < a (n + 1)
    · rw [if_pos h]
      refine ⟨le_refl _, fun i hi => ?_, fun i hi => ?_⟩
      · rcases Nat.lt_or_eq_of_le hi with h' | rfl
        · exact le_trans (h2 i (by omega)) h.le
        · exact le_refl _
      · exact lt_of_le_of_lt (h2 i (by omega)) h
    · rw [if_neg h]
      refine ⟨by omega, fun i hi => ?_, h3⟩
      rcases Nat.lt_or_eq_of_le hi with h' | rfl
      · exact h2 i (by omega)
      · exact not_lt.1 h

/-! ## C103 -/

/-- **C103 (episodic).** From the start of an episode, with either shift, whatever the actions: the environment never
raises; the correct actions `0, …, N - 1` are rewarded once, at the end, where the episode ends; the first wrong action
ends the episode without reward; and before that nothing is rewarded and nothing ends.  Observations are one-hot and
show the state plus the shift. -/
theorem abc_episode {c : Cfg} (hc : c.episodic = true) (hN : 0 < c.size) {o : ℕ} (ho : o ≤ 1) (l : List ℤ) :
    (∃ rest, l = Spec.correct 0 c.size ++ rest ∧ trace c ⟨0, o⟩ l = .ok
      (((List.range' 1 (c.size - 1)).map fun j => ⟨Spec.oneHot c.size (j + o), 0, false⟩)
        ++ [⟨Spec.oneHot c.size (c.size + o), 1, true⟩])) ∨
    (∃ j a rest, j < c.size ∧ a ≠ (j : ℤ) ∧ l = Spec.correct 0 j ++ a :: rest ∧ trace c ⟨0, o⟩ l = .ok
      (((List.range' 1 j).map fun j => ⟨Spec.oneHot c.size (j + o), 0, false⟩)
        ++ [⟨Spec.oneHot c.size (c.size + o), 0, true⟩])) ∨
    (∃ j, j < c.size ∧ l = Spec.correct 0 j ∧ trace c ⟨0, o⟩ l = .ok
      ((List.range' 1 j).map fun j => ⟨Spec.oneHot c.size (j + o), 0, false⟩)) := by
  rcases split_actions l c.size 0 with ⟨rest, h⟩ | ⟨j, a, rest, h1, h2, h3⟩ | ⟨j, h1, h2⟩
  · refine .inl ⟨rest, h, ?_⟩
    have e : Spec.correct 0 c.size ++ rest = Spec.correct 0 (c.size - 1) ++ (((c.size - 1 : ℕ) : ℤ) :: rest) := by
      obtain ⟨n, hn⟩ : ∃ n, c.size = n + 1 := ⟨c.size - 1, by omega⟩
      rw [hn]
      simp [Spec.correct, List.range'_concat]
    rw [h, e, trace_correct ho _ (c.size - 1) 0 (by omega), trace,
      show (⟨0 + (c.size - 1), o⟩ : St) = ⟨c.size - 1, o⟩ by rw [Nat.zero_add], step_goal hc ho (by omega)]
    rfl
  · refine .inr (.inl ⟨j, a, rest, h1, by simpa using h2, h3, ?_⟩)
    rw [h3, trace_correct ho _ j 0 (by omega), trace, step_wrong hc ho h2]
    rfl
  · refine .inr (.inr ⟨j, h1, h2, ?_⟩)
    have := trace_correct (c := c) ho [] j 0 (by omega)
    rw [List.append_nil] at this
    rw [h2, this, trace]
    simp [Except.map]

/-- **C103 (return).** The return of an episode is one if its actions begin with `0, …, N - 1`, and zero otherwise. -/
theorem abc_return {c : Cfg} (hc : c.episodic = true) (hN : 0 < c.size) {o : ℕ} (ho : o ≤ 1) (l : List ℤ) :
    ∃ t, trace c ⟨0, o⟩ l = .ok t ∧
      (t.map Out.reward).sum = if Spec.correct 0 c.size <+: l then 1 else 0 := by
  have hz : ∀ (g : ℕ → List ℕ) (k j : ℕ), (((List.range' k j).map fun i => (⟨g i, 0, false⟩ : Out)).map Out.reward).sum = 0 := by
    intro g k j
    rw [List.map_map]
    simp [Function.comp_def]
  rcases abc_episode hc hN ho l with ⟨rest, h, ht⟩ | ⟨j, a, rest, h1, h2, h3, ht⟩ | ⟨j, h1, h2, ht⟩
  · refine ⟨_, ht, ?_⟩
    rw [if_pos ⟨rest, h.symm⟩, List.map_append, List.sum_append, hz]
    simp
  · refine ⟨_, ht, ?_⟩
    rw [if_neg, List.map_append, List.sum_append, hz]
    · simp
    · rintro ⟨r, hr⟩
      have e1 : (Spec.correct 0 c.size ++ r)[j]? = some (j : ℤ) := by
        rw [List.getElem?_append_left (by simpa [Spec.correct] using h1)]
        simp [Spec.correct, h1]
      have e2 : (Spec.correct 0 j ++ a :: rest)[j]? = some a := by
        rw [List.getElem?_append_right (by simp [Spec.correct])]
        simp [Spec.correct]
      rw [hr, h3, e2] at e1
      exact h2 (by injection e1)
  · refine ⟨_, ht, ?_⟩
    rw [if_neg, hz]
    intro hp
    have := hp.length_le
    rw [h2] at this
    simp [Spec.correct] at this
    omega

/-- **C103 (non-episodic).** Without episodes, whatever the actions from the start: no step raises or ends anything; the
sum of rewards is the number of completed rounds of `N` correct actions, wrong actions leave the state as it was, and the
observation shows the position in the round plus the shift. -/
theorem abc_nonepisodic {c : Cfg} (hc : c.episodic = false) (hN : 0 < c.size) {o : ℕ} (ho : o ≤ 1) (l : List ℤ) :
    ∃ t, trace c ⟨0, o⟩ l = .ok t ∧ t.length = l.length ∧
      (∀ out ∈ t, out.done = false) ∧
      (t.map Out.reward).sum = l.foldl (Spec.count c.size) 0 / c.size ∧
      ∀ k, k < l.length → (t[k]?).map Out.obs
        = some (Spec.oneHot c.size ((l.take (k + 1)).foldl (Spec.count c.size) 0 % c.size + o)) := by
  have key : ∀ (l : List ℤ) (n : ℕ), ∃ t, trace c ⟨n % c.size, o⟩ l = .ok t ∧ t.length = l.length ∧
      (∀ out ∈ t, out.done = false) ∧
      (t.map Out.reward).sum + n / c.size = l.foldl (Spec.count c.size) n / c.size ∧
      ∀ k, k < l.length → (t[k]?).map Out.obs
        = some (Spec.oneHot c.size ((l.take (k + 1)).foldl (Spec.count c.size) n % c.size + o)) := by
    intro l
    induction l with
    | nil => intro n; exact ⟨[], rfl, rfl, by simp, by simp, by simp⟩
    | cons a l ih =>
      intro n
      have hlt := Nat.mod_lt n hN
      -- one step: the counter moves, the reward is the increase of the quotient
      have hst : ∃ r, step c ⟨n % c.size, o⟩ a
          = (⟨Spec.count c.size n a % c.size, o⟩, .ok ⟨Spec.oneHot c.size (Spec.count c.size n a % c.size + o), r, false⟩) ∧
          r + n / c.size = Spec.count c.size n a / c.size := by
        by_cases ha : a = ((n % c.size : ℕ) : ℤ)
        · have hcount : Spec.count c.size n a = n + 1 := by rw [Spec.count, if_pos ha]
          rw [hcount]
          by_cases hgoal : n % c.size + 1 = c.size
          · have hm : (n + 1) % c.size = 0 := by
              rw [← Nat.mod_add_mod, hgoal, Nat.mod_self]
            have hd : (n + 1) / c.size = n / c.size + 1 := by
              have e1 := Nat.div_add_mod n c.size
              have e2 := Nat.div_add_mod (n + 1) c.size
              rw [hm] at e2
              have : c.size * ((n + 1) / c.size) = c.size * (n / c.size + 1) := by rw [Nat.mul_add]; omega
              exact Nat.eq_of_mul_eq_mul_left hN this
            refine ⟨1, ?_, by omega⟩
            have h1 : advance c ⟨n % c.size, o⟩ a = (⟨0, o⟩, 1, false) := by
              rw [advance, if_pos ha, if_pos hgoal, if_neg (by simp [hc])]
            rw [step, h1, observe_ok (by simp only; omega), hm]
            rfl
          · have hm : (n + 1) % c.size = n % c.size + 1 := by
              rw [Nat.add_mod, Nat.mod_eq_of_lt (a := 1) (by omega), Nat.mod_eq_of_lt (by omega)]
            have hd : (n + 1) / c.size = n / c.size := by
              have e1 := Nat.div_add_mod n c.size
              have e2 := Nat.div_add_mod (n + 1) c.size
              have : c.size * ((n + 1) / c.size) = c.size * (n / c.size) := by omega
              exact Nat.eq_of_mul_eq_mul_left hN this
            refine ⟨0, ?_, by omega⟩
            have h1 : advance c ⟨n % c.size, o⟩ a = (⟨n % c.size + 1, o⟩, 0, false) := by
              rw [advance, if_pos ha, if_neg hgoal]
            rw [step, h1, observe_ok (by simp only; omega), hm]
            rfl
        · have hcount : Spec.count c.size n a = n := by rw [Spec.count, if_neg ha]
          rw [hcount]
          refine ⟨0, ?_, by omega⟩
          have h1 : advance c ⟨n % c.size, o⟩ a = (⟨n % c.size, o⟩, 0, false) := by
            rw [advance, if_neg ha, if_neg (by simp [hc])]
          rw [step, h1, observe_ok (by simp only; omega)]
          rfl
      obtain ⟨r, hs, hr⟩ := hst
      obtain ⟨t, h1, h2, h3, h4, h5⟩ := ih (Spec.count c.size n a)
      refine ⟨⟨Spec.oneHot c.size (Spec.count c.size n a % c.size + o), r, false⟩ :: t, ?_, by simp [h2], ?_, ?_, ?_⟩
      · rw [trace, hs]
        simp only [Bool.false_eq_true, if_false]
        rw [h1]
        rfl
      · intro out hout
        rcases List.mem_cons.1 hout with rfl | h
        · rfl
        · exact h3 out h
      · rw [List.map_cons, List.sum_cons, List.foldl_cons]
        simp only
        omega
      · intro k hk
        cases k with
        | zero => simp
        | succ k =>
          rw [List.getElem?_cons_succ, h5 k (by simpa using hk)]
          simp
  obtain ⟨t, h1, h2, h3, h4, h5⟩ := key l 0
  rw [Nat.zero_mod] at h1
  exact ⟨t, h1, h2, h3, by simpa using h4, h5⟩

/-- **C103 (optimum).** A policy that sees the observations of the episode so far gets return one from the start of an
episode with shift `o` if and only if it acts correctly on the histories met on the way, and zero otherwise. -/
theorem abc_policy_return {c : Cfg} (hc : c.episodic = true) (hN : 0 < c.size) {o : ℕ} (ho : o ≤ 1)
    (policy : List (List ℕ) → ℤ) (n : ℕ) (hn : c.size ≤ n) :
    rollout c policy n ⟨0, o⟩ [Spec.oneHot c.size o]
      = .ok (if ∀ j ∈ List.range c.size, policy (Spec.history c.size o j) = j then 1 else 0) := by
  have h0 : Spec.history c.size o 0 = [Spec.oneHot c.size o] := by simp [Spec.history]
  obtain ⟨h1, h2⟩ := rollout_spec hc ho policy c.size 0 n (by omega) hN hn
  rw [h0] at h1 h2
  by_cases h : ∀ j ∈ List.range c.size, policy (Spec.history c.size o j) = j
  · rw [if_pos h]
    exact h1 fun j _ hj => h j (List.mem_range.2 hj)
  · rw [if_neg h]
    push Not at h
    obtain ⟨j, hj, hj'⟩ := h
    exact h2 ⟨j, by omega, List.mem_range.1 hj, hj'⟩

/-- **C103 (partial observability needs memory).** If `N ≥ 2`, no policy that only looks at the current observation gets
the reward both in shifted and in non-shifted episodes. -/
theorem abc_memoryless_fails {c : Cfg} (hc : c.episodic = true) (hN : 2 ≤ c.size) (f : List ℕ → ℤ) (n : ℕ)
    (hn : c.size ≤ n) :
    ¬ (rollout c (fun h => f (h.getLastD [])) n ⟨0, 0⟩ [Spec.oneHot c.size 0] = .ok 1 ∧
       rollout c (fun h => f (h.getLastD [])) n ⟨0, 1⟩ [Spec.oneHot c.size 1] = .ok 1) := by
  rintro ⟨h1, h2⟩
  rw [abc_policy_return hc (by omega) (by omega) _ n hn] at h1 h2
  have k1 : f (Spec.oneHot c.size 1) = 1 := by
    by_contra hcon
    rw [if_neg] at h1
    · cases h1
    · intro hall
      have := hall 1 (List.mem_range.2 (by omega))
      simp [Spec.history, List.range_succ] at this
      exact hcon this
  have k2 : f (Spec.oneHot c.size 1) = 0 := by
    by_contra hcon
    rw [if_neg] at h2
    · cases h2
    · intro hall
      have := hall 0 (List.mem_range.2 (by omega))
      simp [Spec.history] at this
      exact hcon this
  rw [k1] at k2
  cases k2

/-- **C103 (and memory suffices).** The policy that subtracts the position seen first from the position seen now gets the
reward in every episode. -/
theorem abc_memory_suffices {c : Cfg} (hc : c.episodic = true) (hN : 0 < c.size) {o : ℕ} (ho : o ≤ 1) (n : ℕ)
    (hn : c.size ≤ n) :
    rollout c (fun h => ((h.getLastD []).idxOf 1 : ℤ) - ((h.headD []).idxOf 1 : ℤ)) n ⟨0, o⟩ [Spec.oneHot c.size o] = .ok 1 := by
  rw [abc_policy_return hc hN ho _ n hn, if_pos]
  intro j hj
  have hj := List.mem_range.1 hj
  have hidx : ∀ i, i < c.size + 2 → (Spec.oneHot c.size i).idxOf 1 = i := by
    intro i hi
    have hmem : 1 ∈ Spec.oneHot c.size i := by
      unfold Spec.oneHot
      exact List.mem_map.2 ⟨i, List.mem_range.2 hi, by simp⟩
    have hlt := List.idxOf_lt_length_of_mem hmem
    have hget := List.getElem_idxOf hlt
    by_contra hne
    have : (Spec.oneHot c.size i)[(Spec.oneHot c.size i).idxOf 1]'hlt = 0 := by
      simp only [Spec.oneHot, List.getElem_map, List.getElem_range]
      rw [if_neg]
      exact hne
    rw [this] at hget
    cases hget
  have e1 : (Spec.history c.size o j).getLastD [] = Spec.oneHot c.size (j + o) := by
    simp [Spec.history, List.range_succ]
  have e2 : (Spec.history c.size o j).headD [] = Spec.oneHot c.size o := by
    unfold Spec.history
    rw [List.range_succ_eq_map]
    simp
  rw [e1, e2, hidx _ (by omega), hidx _ (by omega)]
  push_cast
  ring

/-- **C103 (shifts).** A fresh environment that is deterministic and partially observable shifts the observations of the
episodes number 0, 2, 4, …, counted from zero; one that is fully observable never shifts. -/
theorem abc_shifts (c : Cfg) (draws : ℕ → ℕ) (states : ℕ → St) (h0 : states 0 = reset c (draws 0) none)
    (hs : ∀ k, ∃ s, s.offset = (states k).offset ∧ states (k + 1) = reset c (draws (k + 1)) (some s)) (k : ℕ) :
    (states k).state = 0 ∧
    (states k).offset = if c.po then (if c.det then (k + 1) % 2 else draws k) else 0 := by
  induction k with
  | zero => rw [h0]; simp [reset]
  | succ k ih =>
    obtain ⟨s, h1, h2⟩ := hs k
    rw [h2]
    refine ⟨rfl, ?_⟩
    simp only [reset, Option.map_some, Option.getD_some, h1, ih.2]
    by_cases hp : c.po = true
    · by_cases hd : c.det = true
      · simp only [hp, hd, if_true]
        omega
      · simp [hp, hd]
    · simp [hp]

/-- **C103 (continuous, deterministic).** With continuous actions inside the action space the inner action of a
deterministic environment is the first of the most probable ones. -/
theorem abc_inner_action {n : ℕ} (hn : 0 < n) {a : ℕ → ℝ} (ha : ∀ i, i < n → -1 ≤ a i ∧ a i ≤ 1) :
    innerAction n a < n ∧ (∀ i, i < n → prob n a i ≤ prob n a (innerAction n a)) ∧
    (∀ i, i < n → a i ≤ a (innerAction n a)) ∧ ∀ i, i < innerAction n a → a i < a (innerAction n a) := by
  obtain ⟨h1, h2, h3⟩ := argmax_spec (fun i => clip (a i)) (n - 1)
  have hlt : innerAction n a < n := by unfold innerAction; omega
  have e : ∀ i, i < n → clip (a i) = a i := fun i hi => clip_id (ha i hi).1 (ha i hi).2
  refine ⟨hlt, fun i hi => ?_, fun i hi => ?_, fun i hi => ?_⟩
  · unfold prob
    exact div_le_div_of_nonneg_right (Real.exp_le_exp.2 (h2 i (by omega))) (sum_exp_pos hn a).le
  · have := h2 i (by omega)
    rw [e i hi] at this
    exact this.trans (e _ hlt).le
  · have := h3 i hi
    rw [e i (by omega)] at this
    exact this.trans_le (e _ hlt).le

/-- **C103 (continuous, outside of the action space).** Clipping comes first: the entry with the largest value need not be
the action taken. -/
theorem abc_clipping_ties : innerAction 2 (fun i => if i = 0 then 2 else 3) = 0 := by
  simp [innerAction, argmax, clip]

/-- **C103 (continuous, stochastic).** The expected return of any policy in the stochastic environment with continuous
actions is the product of the probabilities of the correct inner actions; it is at most
`(e / (e + (N - 1) / e)) ^ N`, and this is attained by sending `+1` for the correct inner action and `-1` for the others. -/
theorem abc_stochastic_optimum {c : Cfg} (hc : c.episodic = true) (hN : 0 < c.size) {o : ℕ} (ho : o ≤ 1) (n : ℕ)
    (hn : c.size ≤ n) (policy : List (List ℕ) → ℕ → ℝ) :
    expectedReturn c policy n ⟨0, o⟩ [Spec.oneHot c.size o]
      = ∏ j ∈ Finset.range c.size, prob c.size (policy (Spec.history c.size o j)) j ∧
    expectedReturn c policy n ⟨0, o⟩ [Spec.oneHot c.size o]
      ≤ (Real.exp 1 / (Real.exp 1 + (c.size - 1) * Real.exp (-1))) ^ c.size ∧
    ((∀ j, j < c.size → ∀ i, policy (Spec.history c.size o j) i = if i = j then 1 else -1) →
      expectedReturn c policy n ⟨0, o⟩ [Spec.oneHot c.size o]
        = (Real.exp 1 / (Real.exp 1 + (c.size - 1) * Real.exp (-1))) ^ c.size) := by
  have h0 : Spec.history c.size o 0 = [Spec.oneHot c.size o] := by simp [Spec.history]
  have h := expected_spec hc ho policy c.size 0 n (by omega) hN hn
  rw [h0, ← Finset.range_eq_Ico] at h
  have hsplit : ∀ (j : ℕ), j < c.size → ∀ g : ℕ → ℝ, ∑ i ∈ Finset.range c.size, g i
      = g j + ∑ i ∈ (Finset.range c.size).erase j, g i :=
    fun j hj g => (Finset.add_sum_erase _ g (Finset.mem_range.2 hj)).symm
  have hcard : ∀ j, j < c.size → (((Finset.range c.size).erase j).card : ℝ) = c.size - 1 := by
    intro j hj
    rw [Finset.card_erase_of_mem (Finset.mem_range.2 hj), Finset.card_range, Nat.cast_sub (by omega), Nat.cast_one]
  have hN1 : (0 : ℝ) ≤ c.size - 1 := by
    have : (1 : ℝ) ≤ c.size := by exact_mod_cast hN
    linarith
  refine ⟨h, ?_, ?_⟩
  · rw [h]
    refine (Finset.prod_le_prod (fun j _ => div_nonneg (Real.exp_pos _).le (sum_exp_pos hN _).le) fun j hj => ?_).trans_eq
      (by rw [Finset.prod_const, Finset.card_range])
    have hj := Finset.mem_range.1 hj
    set a := policy (Spec.history c.size o j) with ha
    rw [hsplit j hj, div_le_div_iff₀ (by
        have := Finset.sum_nonneg fun i (_ : i ∈ (Finset.range c.size).erase j) => (Real.exp_pos (clip (a i))).le
        have := Real.exp_pos (clip (a j))
        linarith) (by have := Real.exp_pos 1; have := mul_nonneg hN1 (Real.exp_pos (-1)).le; linarith)]
    have hsum : (c.size - 1) * Real.exp (-1) ≤ ∑ i ∈ (Finset.range c.size).erase j, Real.exp (clip (a i)) := by
      rw [← hcard j hj, ← nsmul_eq_mul]
      exact Finset.card_nsmul_le_sum _ _ _ fun i _ => Real.exp_le_exp.2 (clip_mem _).1
    have h1 : Real.exp (clip (a j)) ≤ Real.exp 1 := Real.exp_le_exp.2 (clip_mem _).2
    have h2 := mul_le_mul h1 hsum (mul_nonneg hN1 (Real.exp_pos (-1)).le) (Real.exp_pos 1).le
    nlinarith
  · intro hp
    rw [h, Finset.prod_congr rfl (g := fun _ => Real.exp 1 / (Real.exp 1 + (c.size - 1) * Real.exp (-1))),
      Finset.prod_const, Finset.card_range]
    intro j hj
    have hj := Finset.mem_range.1 hj
    unfold prob
    rw [hsplit j hj, hp j hj j, if_pos rfl, clip_id (by norm_num) (by norm_num)]
    congr 2
    rw [← hcard j hj, ← nsmul_eq_mul, ← Finset.sum_const]
    refine Finset.sum_congr rfl fun i hi => ?_
    rw [hp j hj i, if_neg (Finset.ne_of_mem_erase hi), clip_id (by norm_num) (by norm_num)]

/-- **C103 (after the end).** After the end of an episode, actions of the action space keep answering `done` without
reward. -/
theorem abc_after_end {c : Cfg} (hc : c.episodic = true) {o : ℕ} (ho : o ≤ 1) (a : ℕ) (ha : a < c.size) :
    step c ⟨c.size, o⟩ a = (⟨c.size, o⟩, .ok ⟨Spec.oneHot c.size (c.size + o), 0, true⟩) :=
  step_wrong hc ho (by exact_mod_cast ha.ne)

/-! ## Non-vacuity -/

example : trace ⟨3, true, true, true⟩ ⟨0, 1⟩ [0, 1, 2, 0] = .ok
    [⟨[0, 0, 1, 0, 0], 0, false⟩, ⟨[0, 0, 0, 1, 0], 0, false⟩, ⟨[0, 0, 0, 0, 1], 1, true⟩] := by decide

example : trace ⟨3, false, true, true⟩ ⟨0, 0⟩ [0, 2, 2] = .ok
    [⟨[0, 1, 0, 0, 0], 0, false⟩, ⟨[0, 0, 0, 1, 0], 0, true⟩] := by decide

example : trace ⟨2, false, false, true⟩ ⟨0, 0⟩ [0, 0, 1, 0, 1] = .ok
    [⟨[0, 1, 0, 0], 0, false⟩, ⟨[0, 1, 0, 0], 0, false⟩, ⟨[1, 0, 0, 0], 1, false⟩, ⟨[0, 1, 0, 0], 0, false⟩,
      ⟨[1, 0, 0, 0], 1, false⟩] := by decide

example : rollout ⟨2, true, true, true⟩ (fun h => (h.length : ℤ) - 1) 5 ⟨0, 1⟩ [Spec.oneHot 2 1] = .ok 1 := by decide

/-- The first episode of a deterministic partially observable environment is shifted, the second is not. -/
example : (reset ⟨2, true, true, true⟩ 0 none).offset = 1 ∧
    (reset ⟨2, true, true, true⟩ 0 (some (reset ⟨2, true, true, true⟩ 0 none))).offset = 0 := by decide

example : ∃ states : ℕ → St, states 0 = reset ⟨2, true, true, true⟩ 0 none ∧
    ∀ k, ∃ s, s.offset = (states k).offset ∧ states (k + 1) = reset ⟨2, true, true, true⟩ 0 (some s) :=
  ⟨fun k => Nat.rec (reset ⟨2, true, true, true⟩ 0 none) (fun _ s => reset ⟨2, true, true, true⟩ 0 (some s)) k, rfl,
    fun _ => ⟨_, rfl, rfl⟩⟩

end Pfrl.Envs.ABC
