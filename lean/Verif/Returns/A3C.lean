import Verif.Returns.A2C

/-!
# Returns in A3C (C26)
-/

namespace Pfrl.Returns

set_option linter.unusedSectionVars false

variable {K : Type _} [CommRing K]

/-! ## Model -/

/-- `pfrl/agents/a3c.py:90-96`: the counters and the rewards since the last update, a dict keyed by
time step.  `updates` records the returns used by each update so far.  Observations, actions and
recurrent states are kept by the code in the same way as the rewards and are not modelled. -/
structure A3C (K : Type _) where
  t : Nat
  tStart : Nat
  pastRewards : Nat → Option K
  updates : List (List K)

/-- A new agent, `pfrl/agents/a3c.py:90-96`. -/
def A3C.new : A3C K := ⟨0, 0, fun _ => none, []⟩

/-- The loop `pfrl/agents/a3c.py:179-183` over `reversed(range(t_start, t_start + n))`; the
accumulator is `list(reversed(rev_returns))`.  A missing key raises. -/
def a3cLoop (γ : K) (past : Nat → Option K) (tStart : Nat) : Nat → K → List K → Except PyErr (List K)
  | 0, _, acc => .ok acc
  | n + 1, R, acc =>
    match past (tStart + n) with
    | none => .error .keyError
    | some r =>
      let R := R * γ
      let R := R + r
      a3cLoop γ past tStart n R (R :: acc)

/-- `update`, `pfrl/agents/a3c.py:130-228`, without the gradient step; `statevar` is the value
predicted for the observation that is bootstrapped from, if any. -/
def A3C.update (γ : K) (a : A3C K) (statevar : Option K) : Except PyErr (A3C K) :=
  if a.tStart < a.t then
    match a3cLoop γ a.pastRewards a.tStart (a.t - a.tStart) (statevar.getD 0) [] with
    | .error e => .error e
    | .ok ret =>
      .ok { a with pastRewards := fun _ => none, tStart := a.t, updates := a.updates ++ [ret] }
  else .error .assertionError

/-- `_observe_train`, `pfrl/agents/a3c.py:269-283`. -/
def A3C.observe (γ : K) (tMax : Nat) (a : A3C K) (s : Turn K) : Except PyErr (A3C K) :=
  let a := { a with t := a.t + 1 }
  let a := { a with pastRewards := Function.update a.pastRewards (a.t - 1) (some s.reward) }
  if a.t - a.tStart = tMax ∨ s.done = true ∨ s.reset = true then
    a.update γ (if s.done then none else some s.boot)
  else .ok a

/-- A training history. -/
def A3C.run (γ : K) (tMax : Nat) (a : A3C K) : List (Turn K) → Except PyErr (A3C K)
  | [] => .ok a
  | s :: rest =>
    match a.observe γ tMax s with
    | .error e => .error e
    | .ok a => A3C.run γ tMax a rest

/-! ## Specification -/

/-- `segment ++ [last]` is exactly one rollout: it was stopped by an episode end or by its length, and
by neither before. -/
def Spec.Rollout (tMax : Nat) (init : List (Turn K)) (last : Turn K) : Prop :=
  (∀ s ∈ init, s.ended = false) ∧ init.length < tMax ∧
    (last.ended = true ∨ init.length + 1 = tMax)

/-- The returns of a rollout: discounted rewards to the end of the rollout, bootstrapped with the value
of the observation after it unless the environment was terminated there. -/
def Spec.a3cReturns (γ : K) (init : List (Turn K)) (last : Turn K) : List K :=
  (List.range (init.length + 1)).map fun i =>
    Spec.disc γ (((init ++ [last]).drop i).map Turn.reward)
      + if last.done then 0 else γ ^ (init.length + 1 - i) * last.boot

/-! ## Lemmas -/

theorem a3cLoop_spec (γ boot : K) (past : Nat → Option K) (tStart : Nat) (rs : List K)
    (hp : ∀ i (h : i < rs.length), past (tStart + i) = some rs[i]) :
    ∀ (n : Nat) (R : K) (acc : List K), n ≤ rs.length →
      R = Spec.disc γ (rs.drop n) + γ ^ (rs.length - n) * boot →
      a3cLoop γ past tStart n R acc = .ok ((List.range n).map (fun i =>
        Spec.disc γ (rs.drop i) + γ ^ (rs.length - i) * boot) ++ acc) := by
  intro n
  induction n with
  | zero => intro R acc _ _; simp [a3cLoop]
  | succ n ih =>
    intro R acc hn hR
    simp only [a3cLoop, hp n (by omega)]
    have hR' : R * γ + rs[n] = Spec.disc γ (rs.drop n) + γ ^ (rs.length - n) * boot := by
      rw [List.drop_eq_getElem_cons (show n < rs.length by omega), disc_cons, hR,
        show rs.length - n = (rs.length - (n + 1)) + 1 by omega, pow_succ]
      ring
    rw [ih _ _ (by omega) hR', List.range_succ, List.map_append]
    simp [hR']

/-- State of the agent after the steps `cur` of the current rollout. -/
structure A3CIn (tMax : Nat) (a : A3C K) (cur : List (Turn K)) : Prop where
  t : a.t = a.tStart + cur.length
  lt : cur.length < tMax
  noEnd : ∀ s ∈ cur, s.ended = false
  past : ∀ i (h : i < cur.length), a.pastRewards (a.tStart + i) = some cur[i].reward

theorem a3c_observe_spec (γ : K) {tMax : Nat} (h1 : 0 < tMax) {a : A3C K} {cur : List (Turn K)}
    (h : A3CIn tMax a cur) (s : Turn K) :
    ∃ a', a.observe γ tMax s = .ok a' ∧
      ((Spec.Rollout tMax cur s ∧ A3CIn tMax a' [] ∧
          a'.updates = a.updates ++ [Spec.a3cReturns γ cur s])
        ∨ (A3CIn tMax a' (cur ++ [s]) ∧ a'.updates = a.updates)) := by
  have ht := h.t
  have hlt := h.lt
  unfold A3C.observe
  simp only [Nat.add_sub_cancel]
  have hd : a.t + 1 - a.tStart = cur.length + 1 := by omega
  have hpast : ∀ i (hi : i < (cur ++ [s]).length),
      Function.update a.pastRewards a.t (some s.reward) (a.tStart + i)
        = some ((cur ++ [s])[i]).reward := by
    intro i hi
    rw [List.length_append, List.length_singleton] at hi
    by_cases hc : i = cur.length
    · subst hc; rw [← ht, Function.update_self]; simp
    · rw [Function.update_of_ne (by omega), List.getElem_append_left (by omega)]
      exact h.past i (by omega)
  by_cases hstop : a.t + 1 - a.tStart = tMax ∨ s.done = true ∨ s.reset = true
  · simp only [if_pos hstop]
    unfold A3C.update
    simp only
    rw [if_pos (by omega), hd]
    have hloop := a3cLoop_spec γ ((if s.done then none else some s.boot).getD 0)
      (Function.update a.pastRewards a.t (some s.reward)) a.tStart ((cur ++ [s]).map Turn.reward)
      (by
        intro i hi
        rw [List.getElem_map]
        exact hpast i (by simpa using hi))
      (cur.length + 1) ((if s.done then none else some s.boot).getD 0) [] (by simp)
      (by rw [List.drop_eq_nil_of_le (by simp)]; simp)
    rw [hloop]
    refine ⟨_, rfl, Or.inl ⟨⟨h.noEnd, hlt, ?_⟩, ⟨by simp, by simpa using h1, by simp, by simp⟩, ?_⟩⟩
    · unfold Turn.ended
      rcases hstop with h | h | h
      · right; omega
      · left; simp [h]
      · left; simp [h]
    · simp only [List.append_nil]
      congr 2
      unfold Spec.a3cReturns
      apply List.map_congr_left
      intro i _
      rw [List.map_drop, List.length_map, List.length_append, List.length_singleton]
      cases s.done <;> simp
  · simp only [if_neg hstop]
    refine ⟨_, rfl, Or.inr ⟨⟨?_, ?_, ?_, hpast⟩, rfl⟩⟩
    · simp only [List.length_append, List.length_singleton]; omega
    · rw [List.length_append, List.length_singleton]
      by_contra hc
      exact hstop (Or.inl (by omega))
    · intro s' hs'
      rcases List.mem_append.mp hs' with h' | h'
      · exact h.noEnd s' h'
      · rw [List.mem_singleton] at h'
        subst h'
        unfold Turn.ended
        cases hd : s'.done <;> cases hr : s'.reset <;> simp_all

/-! ## C26 -/

/-- **C26.** Train a new agent with `t_max > 0` on any history of steps.  Training succeeds; the
history falls into consecutive rollouts, each stopped exactly by the first episode end or by reaching
`t_max` steps, and an unfinished rest; and there has been exactly one update per rollout, using for
each of its steps the discounted rewards to the end of the rollout, bootstrapped with the value of the
observation after it if and only if the environment did not terminate there.  So each reward is used
in exactly one update. -/
theorem a3c_returns (γ : K) (tMax : Nat) (h1 : 0 < tMax) (history : List (Turn K)) :
    ∃ (a : A3C K) (rollouts : List (List (Turn K) × Turn K)) (pending : List (Turn K)),
      A3C.new.run γ tMax history = .ok a ∧
      history = (rollouts.map fun r => r.1 ++ [r.2]).flatten ++ pending ∧
      (∀ r ∈ rollouts, Spec.Rollout tMax r.1 r.2) ∧
      (∀ s ∈ pending, s.ended = false) ∧ pending.length < tMax ∧
      a.updates = rollouts.map fun r => Spec.a3cReturns γ r.1 r.2 := by
  have key : ∀ (history cur : List (Turn K)) (a : A3C K), A3CIn tMax a cur →
      ∃ (a' : A3C K) (rollouts : List (List (Turn K) × Turn K)) (pending : List (Turn K)),
        a.run γ tMax history = .ok a' ∧
        cur ++ history = (rollouts.map fun r => r.1 ++ [r.2]).flatten ++ pending ∧
        (∀ r ∈ rollouts, Spec.Rollout tMax r.1 r.2) ∧
        (∀ s ∈ pending, s.ended = false) ∧ pending.length < tMax ∧
        a'.updates = a.updates ++ rollouts.map fun r => Spec.a3cReturns γ r.1 r.2 := by
    intro history
    induction history with
    | nil =>
      intro cur a h
      exact ⟨a, [], cur, rfl, by simp, by simp, h.noEnd, h.lt, by simp⟩
    | cons s rest ih =>
      intro cur a h
      obtain ⟨a1, k1, k2⟩ := a3c_observe_spec γ h1 h s
      simp only [A3C.run, k1]
      rcases k2 with ⟨k3, k4, k5⟩ | ⟨k4, k5⟩
      · obtain ⟨a2, ro, pe, l1, l2, l3, l4, l5, l6⟩ := ih [] a1 k4
        refine ⟨a2, (cur, s) :: ro, pe, l1, ?_, ?_, l4, l5, ?_⟩
        · rw [List.nil_append] at l2
          simp [l2]
        · intro r hr
          rcases List.mem_cons.mp hr with rfl | hr
          · exact k3
          · exact l3 r hr
        · rw [l6, k5]; simp
      · obtain ⟨a2, ro, pe, l1, l2, l3, l4, l5, l6⟩ := ih (cur ++ [s]) a1 k4
        refine ⟨a2, ro, pe, l1, ?_, l3, l4, l5, by rw [l6, k5]⟩
        rw [← l2]; simp
  obtain ⟨a, ro, pe, l1, l2, l3, l4, l5, l6⟩ := key history [] A3C.new
    ⟨rfl, h1, by simp, by simp⟩
  exact ⟨a, ro, pe, l1, by simpa using l2, l3, l4, l5, by simpa [A3C.new] using l6⟩

/-- Rollouts stopped by termination, by length and by a reset. -/
example : ((A3C.new : A3C Int).run 2 2
    [⟨0, 1, true, false, 9⟩, ⟨0, 10, false, false, 9⟩, ⟨0, 100, false, false, 7⟩,
     ⟨0, 5, false, true, 3⟩, ⟨0, 1, false, false, 9⟩]).map (fun a => a.updates)
    = .ok [[1], [238, 114], [11]] := by decide +kernel

end Pfrl.Returns
