import Mathlib.Analysis.Calculus.Deriv.Basic
import Mathlib.Analysis.SpecialFunctions.Log.Basic
import Verif.Batch.Props
import Verif.Categorical.Props
import Verif.Value.ActionValue

/-!
# Targets of the Q-learning family (C61, C62, C63, C72, C73)

The networks are functions from features to their outputs; sampled actions and quantile thresholds are arbitrary.
Numbers are exact.  The recurrent branches differ only in how the outputs are obtained and are not modelled.
-/

namespace Pfrl.Value

set_option linter.unusedSectionVars false

open Pfrl.Batch (Trans Out batchExperiences)

/-! ## Model -/

variable {S F A K : Type _} [Field K] [LinearOrder K] [IsStrictOrderedRing K]

/-- One row of the batch made by `batch_experiences`. -/
structure Row (F A K : Type _) where
  state : F
  action : A
  reward : K
  terminal : K
  discount : K
  next : F
  deriving DecidableEq

/-- The rows of a batch: tensors of the batch are combined elementwise. -/
def rows (out : Out F A K) : List (Row F A K) :=
  ((out.state.zip out.action).zip ((out.reward.zip out.terminal).zip (out.discount.zip out.nextState))).map fun x =>
    ⟨x.1.1, x.1.2, x.2.1.1, x.2.1.2, x.2.2.1, x.2.2.2⟩

/-- `DQN._compute_target_values`, `pfrl/agents/dqn.py:388-405`. -/
def dqnTargets (qTarget : F → List K) (out : Out F A K) : Option (List K) :=
  (rows out).mapM fun x => (maxValue (qTarget x.next)).map fun q => x.reward + x.discount * (1 - x.terminal) * q

/-- `DoubleDQN._compute_target_values`, `pfrl/agents/double_dqn.py:12-40`. -/
def doubleDqnTargets (q qTarget : F → List K) (out : Out F A K) : Option (List K) :=
  (rows out).mapM fun x => (greedyAction (q x.next)).bind fun a => (evaluateAction (qTarget x.next) a).map fun q =>
    x.reward + x.discount * (1 - x.terminal) * q

variable {Act : Type _}

/-- `DDPG.compute_critic_loss`, the target, `pfrl/agents/ddpg.py:149-166`: `self.gamma`, not the discounts of the
batch.  `sample k f` is the action the target policy gives for row `k`. -/
def ddpgTargets (gamma : K) (sample : Nat → F → Act) (qTarget : F → Act → K) (out : Out F A K) : List K :=
  (rows out).zipIdx.map fun x =>
    x.1.reward + gamma * (1 - x.1.terminal) * qTarget x.1.next (sample x.2 x.1.next)

/-- `SoftActorCritic.update_q_func`, the target, `pfrl/agents/soft_actor_critic.py:214-239`. -/
def sacTargets (temperature : K) (sample : Nat → F → Act) (logProb : F → Act → K) (q1 q2 : F → Act → K)
    (out : Out F A K) : List K :=
  (rows out).zipIdx.map fun x =>
    let a := sample x.2 x.1.next
    let nextQ := min (q1 x.1.next a) (q2 x.1.next a)
    x.1.reward + x.1.discount * (1 - x.1.terminal) * (nextQ - temperature * logProb x.1.next a)

/-- `TD3.update_q_func`, the target, `pfrl/agents/td3.py:181-206`. -/
def td3Targets (sample : Nat → F → Act) (smooth : Nat → Act → Act) (q1 q2 : F → Act → K) (out : Out F A K) : List K :=
  (rows out).zipIdx.map fun x =>
    let a := smooth x.2 (sample x.2 x.1.next)
    let nextQ := min (q1 x.1.next a) (q2 x.1.next a)
    x.1.reward + x.1.discount * (1 - x.1.terminal) * nextQ

/-- `IQN._compute_target_values`, `pfrl/agents/iqn.py:289-335`.  `tilde k f` is the row of Q values computed with the
thresholds drawn to choose the greedy action, `prime k f a` the quantiles of action `a` for the other thresholds. -/
def iqnTargets (tilde : Nat → F → List K) (prime : Nat → F → Nat → List K) (out : Out F A K) :
    Option (List (List K)) :=
  (rows out).zipIdx.mapM fun x => (greedyAction (tilde x.2 x.1.next)).map fun a =>
    (prime x.2 x.1.next a).map fun q => x.1.reward + x.1.discount * (1 - x.1.terminal) * q

/-- The end of `_compute_target_values`, `pfrl/agents/categorical_dqn.py:136-145` and
`pfrl/agents/categorical_double_dqn.py:38-51`: `next` is the distribution chosen for the next state. -/
def categoricalTargetsOf [FloorRing K] (z : List K) (next : F → Option (List K)) (out : Out F A K) :
    Option (Except PyErr (List (List K))) :=
  ((rows out).mapM fun x => next x.next).map fun nextQMax =>
    Categorical.project ((rows out).map fun x => Categorical.targetAtoms x.reward x.terminal x.discount z) nextQMax z

/-- `CategoricalDQN._compute_target_values`, `pfrl/agents/categorical_dqn.py:114-145`. -/
def categoricalTargets [FloorRing K] (z : List K) (qDist : F → List (List K)) (out : Out F A K) :
    Option (Except PyErr (List (List K))) :=
  categoricalTargetsOf z (fun f => maxAsDistribution (qDist f) z) out

/-- `CategoricalDoubleDQN._compute_target_values`, `pfrl/agents/categorical_double_dqn.py:10-51`: `qDist` is the online
network, `qDistTarget` the target network; `evaluate_actions_as_distribution`, `pfrl/action_value.py:146-154`, picks a row. -/
def categoricalDoubleTargets [FloorRing K] (z : List K) (qDist qDistTarget : F → List (List K)) (out : Out F A K) :
    Option (Except PyErr (List (List K))) :=
  categoricalTargetsOf z (fun f => (greedyAction (distQ (qDist f) z)).bind fun a => (qDistTarget f)[a]?) out

/-- `AL._compute_y_and_t`, the target, `pfrl/agents/al.py:45-78`. -/
def alTargets (alpha : K) (qTarget : F → List K) (out : Out F Nat K) : Option (List K) :=
  (rows out).mapM fun x => (maxValue (qTarget x.next)).bind fun nextQMax =>
    let tq := x.reward + x.discount * (1 - x.terminal) * nextQMax
    (advantage (qTarget x.state) x.action).map fun cur => tq + alpha * cur

/-- `PAL._compute_y_and_t`, the target, `pfrl/agents/pal.py:34-75`. -/
def palTargets (alpha : K) (qTarget : F → List K) (out : Out F Nat K) : Option (List K) :=
  (rows out).mapM fun x => (maxValue (qTarget x.next)).bind fun nextQMax =>
    let tq := x.reward + x.discount * (1 - x.terminal) * nextQMax
    (advantage (qTarget x.state) x.action).bind fun cur =>
      (advantage (qTarget x.next) x.action).map fun next => tq + alpha * max cur next

/-- `AbstractDPP._compute_y_and_t`, the target, `pfrl/agents/dpp.py:19-82`; `L` is the operator `_l_operator` applied
to the output of the target network. -/
def dppTargets (L : F → K) (qTarget : F → List K) (out : Out F Nat K) : Option (List K) :=
  (rows out).mapM fun x => (evaluateAction (qTarget x.state) x.action).map fun targetQ =>
    targetQ + (x.reward + x.discount * (1 - x.terminal) * L x.next) - L x.state

/-- `DPPL._l_operator`, `dpp.py:117-118`. -/
noncomputable def logSumExpOp {n : Nat} (eta : ℝ) (q : Fin n → ℝ) : ℝ := Real.log (∑ i, Real.exp (eta * q i)) / eta

/-- `smooth_l1_loss` with its default threshold 1. -/
noncomputable def smoothL1 (y t : ℝ) : ℝ := if |y - t| < 1 then (y - t) ^ 2 / 2 else |y - t| - 1 / 2

/-- `compute_eltwise_huber_quantile_loss`, `pfrl/agents/iqn.py:176-208`, one element. -/
noncomputable def quantileHuber (y t tau : ℝ) : ℝ := |tau - (if t < y then 1 else 0)| * smoothL1 y t

/-- `TD3.update`, `td3.py:251-259`, with the counters of `update_q_func` (line 231) and `update_policy`: the log records
what is done in each update. -/
inductive Td3Event where
  | critics
  | policy
  | syncTargets
  deriving DecidableEq

/-- State of the counters. -/
structure Td3 where
  qUpdates : Nat
  policyUpdates : Nat
  log : List Td3Event

/-- One call of `update`; a delay of zero raises `ZeroDivisionError`. -/
def Td3.update (delay : Nat) (s : Td3) : Except PyErr Td3 :=
  let s : Td3 := ⟨s.qUpdates + 1, s.policyUpdates, s.log ++ [.critics]⟩
  if delay = 0 then .error .zeroDivision
  else if s.qUpdates % delay = 0 then .ok ⟨s.qUpdates, s.policyUpdates + 1, s.log ++ [.policy, .syncTargets]⟩
  else .ok s

/-- `k` calls. -/
def Td3.updates (delay : Nat) : Nat → Td3 → Except PyErr Td3
  | 0, s => .ok s
  | k + 1, s =>
    match Td3.updates delay k s with
    | .error e => .error e
    | .ok s => s.update delay

/-! ## Specification -/

/-- `m` is the largest entry of the row. -/
def Spec.IsMax (row : List K) (m : K) : Prop := m ∈ row ∧ ∀ y ∈ row, y ≤ m

/-! ## Lemmas -/

omit [Field K] [IsStrictOrderedRing K] in
theorem maxValue_of_isMax {row : List K} {m : K} (h : Spec.IsMax row m) : maxValue row = some m := by
  obtain ⟨g, m', h1, h2, h3⟩ := greedyAction_spec (List.ne_nil_of_mem h.1)
  have : m = m' := le_antisymm (h3 m h.1) (h.2 m' (List.mem_of_getElem? h2))
  unfold maxValue
  rw [h1, this]
  exact h2

theorem mapM_option {α β : Type _} {f : α → Option β} {g : α → β} : ∀ (l : List α), (∀ x ∈ l, f x = some (g x)) →
    l.mapM f = some (l.map g)
  | [], _ => rfl
  | x :: l, h => by
    rw [List.mapM_cons, h x (List.mem_cons_self ..), mapM_option l fun y hy => h y (List.mem_cons_of_mem _ hy)]
    rfl

/-- What a row of the batch of given experiences is: the rewards, discount and terminal flag are such that bootstrapping
with a number `v` gives the repeated one-step backup of it. -/
theorem rows_spec (phi : S → F) (gamma : K) {exps : List (List (Trans S A K))} (hne : exps ≠ [])
    (hexp : ∀ e ∈ exps, e ≠ []) :
    ∃ out, batchExperiences phi gamma exps = .ok out ∧ (rows out).length = exps.length ∧
      ∀ (k : Nat) (exp : List (Trans S A K)), exps[k]? = some exp →
        ∃ (t0 tn : Trans S A K) (x : Row F A K), exp.head? = some t0 ∧ exp.getLast? = some tn ∧
          (rows out)[k]? = some x ∧ x.state = phi t0.state ∧ x.action = t0.action ∧ x.next = phi tn.nextState ∧
          x.discount = gamma ^ exp.length ∧ x.terminal = (if (∃ t ∈ exp, t.terminal = true) then 1 else 0) ∧
          (Batch.Spec.TerminalOnlyLast exp → ∀ V : S → K,
            x.reward + x.discount * (1 - x.terminal) * V tn.nextState = Batch.Spec.backup gamma V exp) := by
  obtain ⟨fs, h1, h2⟩ := Batch.mapM_first_ok hexp
  obtain ⟨ls, h3, h4⟩ := Batch.mapM_last_ok hexp
  have hfl : fs.length = exps.length := h2.length_eq.symm
  have hll : ls.length = exps.length := h4.length_eq.symm
  unfold batchExperiences
  simp only [h1, h3, if_neg hne]
  refine ⟨_, rfl, ?_, ?_⟩
  · simp [rows, hfl, hll]
  · intro k exp hk
    obtain ⟨t0, f1, f2⟩ := Batch.forall₂_get h2 k hk
    obtain ⟨tn, g1, g2⟩ := Batch.forall₂_get h4 k hk
    refine ⟨t0, tn, ⟨phi t0.state, t0.action, Batch.reward gamma exp, Batch.boolToR (exp.any Trans.terminal),
      gamma ^ exp.length, phi tn.nextState⟩, f2, g2, ?_, rfl, rfl, rfl, rfl, ?_, ?_⟩
    · unfold rows
      simp [List.zip, List.getElem?_zipWith, f1, g1, hk]
    · simp only [Batch.boolToR, List.any_eq_true]
    · intro hlast V
      exact Batch.target_eq_backup gamma V g2 hlast

/-! ## C62 -/

section C62
variable (phi : S → F) (gamma : K) {exps : List (List (Trans S A K))} (hne : exps ≠ []) (hexp : ∀ e ∈ exps, e ≠ [])
include hne hexp

/-- **C62 (DQN).** Let `V s` be the largest action value of the target network in state `s`.  The targets are
computed without error, one per experience, and each is the `n`-step backup of `V` along its experience: rewards until
the end, plus `gamma ^ n` times `V` of the last state unless the experience ends in a terminal state. -/
theorem dqn_targets (qTarget : F → List K) (V : S → K) (hV : ∀ s, Spec.IsMax (qTarget (phi s)) (V s)) :
    ∃ out ts, batchExperiences phi gamma exps = .ok out ∧ dqnTargets qTarget out = some ts ∧
      ts.length = exps.length ∧ ∀ (k : Nat) (exp : List (Trans S A K)), exps[k]? = some exp →
        Batch.Spec.TerminalOnlyLast exp → ts[k]? = some (Batch.Spec.backup gamma V exp) := by
  obtain ⟨out, h1, h2, h3⟩ := rows_spec phi gamma hne hexp
  have hrow : ∀ x ∈ rows out, ∃ s, x.next = phi s := by
    intro x hx
    obtain ⟨k, hk⟩ := List.getElem?_of_mem hx
    obtain ⟨exp, he⟩ : ∃ exp, exps[k]? = some exp := by
      have := (List.getElem?_eq_some_iff.mp hk).1
      exact ⟨_, List.getElem?_eq_getElem (h2 ▸ this)⟩
    obtain ⟨t0, tn, x', _, _, hx', _, _, hn, _⟩ := h3 k exp he
    rw [hk] at hx'; cases hx'
    exact ⟨_, hn⟩
  have hm : dqnTargets qTarget out = some ((rows out).map fun x =>
      x.reward + x.discount * (1 - x.terminal) * ((maxValue (qTarget x.next)).getD 0)) := by
    unfold dqnTargets
    apply mapM_option
    intro x hx
    obtain ⟨s, hs⟩ := hrow x hx
    rw [hs, maxValue_of_isMax (hV s)]
    rfl
  refine ⟨out, _, h1, hm, by simp [h2], ?_⟩
  intro k exp hk hlast
  obtain ⟨t0, tn, x, _, _, hx, _, _, hn, _, _, hb⟩ := h3 k exp hk
  rw [List.getElem?_map, hx, Option.map_some, hn, maxValue_of_isMax (hV tn.nextState), ← hb hlast V]
  rfl

/-- **C62 (Double DQN).** As for DQN, where `V s` is the target network's value of the online network's greedy
action. -/
theorem double_dqn_targets (q qTarget : F → List K) (V : S → K) (g : S → Nat)
    (hg : ∀ s, greedyAction (q (phi s)) = some (g s)) (hV : ∀ s, (qTarget (phi s))[g s]? = some (V s)) :
    ∃ out ts, batchExperiences phi gamma exps = .ok out ∧ doubleDqnTargets q qTarget out = some ts ∧
      ts.length = exps.length ∧ ∀ (k : Nat) (exp : List (Trans S A K)), exps[k]? = some exp →
        Batch.Spec.TerminalOnlyLast exp → ts[k]? = some (Batch.Spec.backup gamma V exp) := by
  obtain ⟨out, h1, h2, h3⟩ := rows_spec phi gamma hne hexp
  have hrow : ∀ x ∈ rows out, ∃ s, x.next = phi s := by
    intro x hx
    obtain ⟨k, hk⟩ := List.getElem?_of_mem hx
    obtain ⟨exp, he⟩ : ∃ exp, exps[k]? = some exp := by
      have := (List.getElem?_eq_some_iff.mp hk).1
      exact ⟨_, List.getElem?_eq_getElem (h2 ▸ this)⟩
    obtain ⟨t0, tn, x', _, _, hx', _, _, hn, _⟩ := h3 k exp he
    rw [hk] at hx'; cases hx'
    exact ⟨_, hn⟩
  have hm : doubleDqnTargets q qTarget out = some ((rows out).map fun x =>
      x.reward + x.discount * (1 - x.terminal) *
        (((greedyAction (q x.next)).bind fun a => evaluateAction (qTarget x.next) a).getD 0)) := by
    unfold doubleDqnTargets
    apply mapM_option
    intro x hx
    obtain ⟨s, hs⟩ := hrow x hx
    rw [hs, hg s]
    simp only [Option.bind_some, evaluateAction, hV s, Option.map_some, Option.getD_some]
  refine ⟨out, _, h1, hm, by simp [h2], ?_⟩
  intro k exp hk hlast
  obtain ⟨t0, tn, x, _, _, hx, _, _, hn, _, _, hb⟩ := h3 k exp hk
  rw [List.getElem?_map, hx, Option.map_some, hn, hg]
  simp only [Option.bind_some, evaluateAction, hV, Option.getD_some, hb hlast V]

/-- **C62 (SAC).** The bootstrap of row `k` is the smaller of the two target critics at the action drawn for the last
state, minus temperature times its log-probability. -/
theorem sac_targets (temperature : K) (sample : Nat → F → Act) (logProb : F → Act → K) (q1 q2 : F → Act → K) :
    ∃ out, batchExperiences phi gamma exps = .ok out ∧
      (sacTargets temperature sample logProb q1 q2 out).length = exps.length ∧
      ∀ (k : Nat) (exp : List (Trans S A K)), exps[k]? = some exp → Batch.Spec.TerminalOnlyLast exp →
        (sacTargets temperature sample logProb q1 q2 out)[k]? = some (Batch.Spec.backup gamma (fun s =>
          min (q1 (phi s) (sample k (phi s))) (q2 (phi s) (sample k (phi s)))
            - temperature * logProb (phi s) (sample k (phi s))) exp) := by
  obtain ⟨out, h1, h2, h3⟩ := rows_spec phi gamma hne hexp
  refine ⟨out, h1, by simp [sacTargets, h2], ?_⟩
  intro k exp hk hlast
  obtain ⟨t0, tn, x, _, _, hx, _, _, hn, _, _, hb⟩ := h3 k exp hk
  unfold sacTargets
  rw [List.getElem?_map, List.getElem?_zipIdx, hx, ← hb hlast, ← hn]
  simp

/-- **C61, C62 (TD3 targets).** The bootstrap of row `k` is the smaller of the two target critics at the smoothed
action of the target policy for the last state, and nothing is bootstrapped from terminal states. -/
theorem td3_targets (sample : Nat → F → Act) (smooth : Nat → Act → Act) (q1 q2 : F → Act → K) :
    ∃ out, batchExperiences phi gamma exps = .ok out ∧ (td3Targets sample smooth q1 q2 out).length = exps.length ∧
      ∀ (k : Nat) (exp : List (Trans S A K)), exps[k]? = some exp → Batch.Spec.TerminalOnlyLast exp →
        (td3Targets sample smooth q1 q2 out)[k]? = some (Batch.Spec.backup gamma (fun s =>
          min (q1 (phi s) (smooth k (sample k (phi s)))) (q2 (phi s) (smooth k (sample k (phi s))))) exp) := by
  obtain ⟨out, h1, h2, h3⟩ := rows_spec phi gamma hne hexp
  refine ⟨out, h1, by simp [td3Targets, h2], ?_⟩
  intro k exp hk hlast
  obtain ⟨t0, tn, x, _, _, hx, _, _, hn, _, _, hb⟩ := h3 k exp hk
  unfold td3Targets
  rw [List.getElem?_map, List.getElem?_zipIdx, hx, ← hb hlast, ← hn]
  simp

/-- **C62 (DDPG, partial).** For experiences of one transition, and for experiences that end in a terminal state, the
target is the backup.  What is missing: longer experiences, see `ddpg_target_wrong_discount`. -/
theorem ddpg_targets_partial (sample : Nat → F → Act) (qTarget : F → Act → K) :
    ∃ out, batchExperiences phi gamma exps = .ok out ∧ (ddpgTargets gamma sample qTarget out).length = exps.length ∧
      ∀ (k : Nat) (exp : List (Trans S A K)), exps[k]? = some exp → Batch.Spec.TerminalOnlyLast exp →
        (exp.length = 1 ∨ ∃ t ∈ exp, t.terminal = true) →
        (ddpgTargets gamma sample qTarget out)[k]? = some (Batch.Spec.backup gamma (fun s =>
          qTarget (phi s) (sample k (phi s))) exp) := by
  obtain ⟨out, h1, h2, h3⟩ := rows_spec phi gamma hne hexp
  refine ⟨out, h1, by simp [ddpgTargets, h2], ?_⟩
  intro k exp hk hlast hcase
  obtain ⟨t0, tn, x, _, _, hx, _, _, hn, hd, ht, hb⟩ := h3 k exp hk
  unfold ddpgTargets
  rw [List.getElem?_map, List.getElem?_zipIdx, hx, ← hb hlast, ← hn]
  rcases hcase with h | h
  · rw [h, pow_one] at hd
    rw [hd]
    simp
  · rw [if_pos h] at ht
    simp [ht]

/-- **C62 (IQN).** Each quantile target is the backup of one quantile of the action that is greedy for the last
state. -/
theorem iqn_targets (tilde : Nat → F → List K) (prime : Nat → F → Nat → List K) (g : Nat → S → Nat)
    (hg : ∀ k s, greedyAction (tilde k (phi s)) = some (g k s)) :
    ∃ out ts, batchExperiences phi gamma exps = .ok out ∧ iqnTargets tilde prime out = some ts ∧
      ts.length = exps.length ∧ ∀ (k : Nat) (exp : List (Trans S A K)), exps[k]? = some exp →
        Batch.Spec.TerminalOnlyLast exp → ∃ (row : List K) (tn : Trans S A K), exp.getLast? = some tn ∧ ts[k]? = some row ∧
          row.length = (prime k (phi tn.nextState) (g k tn.nextState)).length ∧
          ∀ (j : Nat) (zj : K), (prime k (phi tn.nextState) (g k tn.nextState))[j]? = some zj →
            row[j]? = some (Batch.Spec.backup gamma (fun _ => zj) exp) := by
  obtain ⟨out, h1, h2, h3⟩ := rows_spec phi gamma hne hexp
  have hm : iqnTargets tilde prime out = some ((rows out).zipIdx.map fun x =>
      (prime x.2 x.1.next ((greedyAction (tilde x.2 x.1.next)).getD 0)).map fun q =>
        x.1.reward + x.1.discount * (1 - x.1.terminal) * q) := by
    unfold iqnTargets
    apply mapM_option
    intro x hx
    obtain ⟨k, hk⟩ := List.getElem?_of_mem hx
    rw [List.getElem?_zipIdx] at hk
    obtain ⟨y, hy, hyx⟩ := Option.map_eq_some_iff.mp hk
    obtain ⟨exp, he⟩ : ∃ exp, exps[k]? = some exp := by
      have := (List.getElem?_eq_some_iff.mp hy).1
      exact ⟨_, List.getElem?_eq_getElem (h2 ▸ this)⟩
    obtain ⟨t0, tn, x', _, _, hx', _, _, hn, _⟩ := h3 k exp he
    rw [hy] at hx'; cases hx'
    rw [← hyx]
    dsimp only
    rw [hn, hg]
    rfl
  refine ⟨out, _, h1, hm, by simp [h2], ?_⟩
  intro k exp hk hlast
  obtain ⟨t0, tn, x, _, hl, hx, _, _, hn, _, _, hb⟩ := h3 k exp hk
  refine ⟨_, tn, hl, by rw [List.getElem?_map, List.getElem?_zipIdx, hx]; rfl, ?_, ?_⟩
  · dsimp only
    rw [hn]
    simp only [Nat.zero_add, hg, Option.getD_some, List.length_map]
  · intro j zj hj
    dsimp only
    rw [hn]
    simp only [Nat.zero_add, hg, Option.getD_some]
    rw [List.getElem?_map, hj, Option.map_some, ← hb hlast (fun _ => zj)]

end C62

/-- **C62 fails for DDPG with n-step experiences.** Two transitions without reward, `gamma = 1/2` and a target critic that says 8
everywhere: the two-step target is 2, DDPG computes 4. -/
theorem ddpg_target_wrong_discount :
    ∃ (exp : List (Trans Unit Unit ℚ)), Batch.Spec.TerminalOnlyLast exp ∧
      ∃ out, batchExperiences (fun s => s) (1 / 2) [exp] = .ok out ∧
        ddpgTargets (1 / 2) (fun _ _ => ()) (fun _ _ => 8) out = [4] ∧
        Batch.Spec.backup (1 / 2) (fun _ => 8) exp = 2 := by
  refine ⟨[⟨(), (), 0, (), none, false⟩, ⟨(), (), 0, (), none, false⟩], ?_, ⟨[()], [()], [0], [()], [0], [1 / 4], none⟩, ?_, ?_, ?_⟩
  · intro t ht
    simp at ht
    simp [ht]
  · unfold batchExperiences
    simp [Batch.first, Batch.last, Batch.reward, Batch.boolToR, List.mapM_cons, pure, Except.pure, bind, Except.bind]
    norm_num [List.range_succ]
  · simp [ddpgTargets, rows, List.zipIdx]
    norm_num
  · simp [Batch.Spec.backup]
    norm_num

/-- The targets computed from any choice of distributions for the next states. -/
theorem categorical_targets_of [FloorRing K] (phi : S → F) (gamma : K) {exps : List (List (Trans S A K))} (hne : exps ≠ [])
    (hexp : ∀ e ∈ exps, e ≠ []) {n : Nat} (hn : 2 ≤ n) {vMin δ : K} (hδ : 0 < δ) {z : List K}
    (hz : Categorical.Spec.Grid z n vMin δ) {next : F → Option (List K)} {pg : F → List K} (hpg1 : ∀ f, next f = some (pg f))
    (hlen : ∀ f, (pg f).length = n ∧ (pg f).sum = 1 ∧ ∀ a ∈ pg f, 0 ≤ a) :
    ∃ out ds, batchExperiences phi gamma exps = .ok out ∧ categoricalTargetsOf z next out = some (.ok ds) ∧
      ds.length = exps.length ∧ ∀ (k : Nat) (exp : List (Trans S A K)), exps[k]? = some exp →
        Batch.Spec.TerminalOnlyLast exp → ∃ d : List K, ds[k]? = some d ∧ d.length = n ∧ d.sum = 1 ∧ (∀ a ∈ d, 0 ≤ a) ∧
          ((∀ zj ∈ z, vMin ≤ Batch.Spec.backup gamma (fun _ => zj) exp ∧
              Batch.Spec.backup gamma (fun _ => zj) exp ≤ vMin + ((n : K) - 1) * δ) →
            Categorical.Spec.mean z d = Batch.Spec.backup gamma (fun s => Categorical.Spec.mean z (pg (phi s))) exp) ∧
          ∃ tn, exp.getLast? = some tn ∧
            d = Categorical.Spec.projected n vMin δ (z.map fun zj => Batch.Spec.backup gamma (fun _ => zj) exp)
              (pg (phi tn.nextState)) := by
  obtain ⟨out, h1, h2, h3⟩ := rows_spec phi gamma hne hexp
  have hzl : z.length = n := by rw [hz]; simp
  have hmapM : ((rows out).mapM fun x => next x.next) = some ((rows out).map fun x => pg x.next) :=
    mapM_option _ fun x _ => hpg1 x.next
  have hy : ∀ r ∈ (rows out).map fun x => Categorical.targetAtoms x.reward x.terminal x.discount z, r.length = n := by
    intro r hr
    obtain ⟨x, _, rfl⟩ := List.mem_map.mp hr
    rw [Categorical.targetAtoms, List.length_map, hzl]
  have hp : ∀ r ∈ (rows out).map fun x => pg x.next, r.length = n := by
    intro r hr
    obtain ⟨x, _, rfl⟩ := List.mem_map.mp hr
    exact (hlen _).1
  obtain ⟨ds, e1, e2, e3⟩ := Categorical.categorical_projection_preserves hn hδ hz hy hp (by simp)
  have e4 := Categorical.categorical_projection_eq hn hδ hz hy hp (by simp)
  rw [e1] at e4
  replace e4 : ds = _ := Except.ok.inj e4
  rw [List.length_map, h2] at e2
  refine ⟨out, ds, h1, ?_, e2, ?_⟩
  · unfold categoricalTargetsOf
    rw [hmapM, Option.map_some, e1]
  · intro k exp hk hlast
    obtain ⟨t0, tn, x, _, htn, hx, _, _, hnx, _, _, hb⟩ := h3 k exp hk
    have hklt : k < exps.length := (List.getElem?_eq_some_iff.mp hk).1
    have hkr : k < (rows out).length := by rw [h2]; exact hklt
    have hxk : (rows out)[k] = x := by
      rw [List.getElem?_eq_getElem hkr] at hx
      exact Option.some.inj hx
    obtain ⟨q1, q2, q3, q4⟩ := e3 k (by simpa using hkr) (by simpa using hkr) (by omega)
    simp only [List.getElem_map, hxk, Categorical.targetAtoms] at q2 q3 q4
    obtain ⟨l1, l2, l3⟩ := hlen x.next
    have hatom : ∀ zj, x.reward + (1 - x.terminal) * x.discount * zj = Batch.Spec.backup gamma (fun _ => zj) exp := by
      intro zj
      rw [← hb hlast (fun _ => zj)]
      ring
    refine ⟨ds[k]'(by omega), List.getElem?_eq_getElem (by omega), q1, ?_, q2 l3, ?_, tn, htn, ?_⟩
    · have := q3
      unfold Categorical.Spec.mass at this
      rw [this, l2]
    · intro hin
      rw [q4 (by
        intro a ha
        obtain ⟨zj, hzj, rfl⟩ := List.mem_map.mp ha
        rw [hatom]
        exact hin zj hzj)]
      rw [← hb hlast, ← hnx]
      -- the mean of the shifted atoms
      have hlin : ∀ (z p : List K), z.length = p.length →
          Categorical.Spec.mean (z.map fun zj => x.reward + (1 - x.terminal) * x.discount * zj) p
            = x.reward * p.sum + x.discount * (1 - x.terminal) * Categorical.Spec.mean z p := by
        intro z
        induction z with
        | nil =>
          intro p hp
          cases p with
          | nil => simp [Categorical.Spec.mean]
          | cons a p => simp at hp
        | cons a z ih =>
          intro p hp
          cases p with
          | nil => simp at hp
          | cons b p =>
            have := ih p (by simpa using hp)
            simp only [Categorical.Spec.mean, List.map_cons, List.zipWith_cons_cons, List.sum_cons] at this ⊢
            rw [this]
            ring
      rw [hlin z _ (by rw [hzl, l1]), l2]
      ring
    · simp only [e4, List.getElem_zipWith, List.getElem_map, hxk, Categorical.targetAtoms, hatom, hnx]

omit [IsStrictOrderedRing K] in
theorem mean_eq_zipWith (z p : List K) : (List.zipWith (· * ·) p z).sum = Categorical.Spec.mean z p := by
  unfold Categorical.Spec.mean
  rw [List.zipWith_comm]
  simp only [mul_comm]

/-- **C62 (Categorical DQN).** Let the atoms of the support form a grid, let every row of probabilities of the target network
have mass one, and let the shifted atoms of an experience stay inside the support.  Then the target distribution of the experience
has mass one, and its mean is the `n`-step backup of `V`, the largest mean of the target network's
distributions. -/
theorem categorical_targets [FloorRing K] (phi : S → F) (gamma : K) {exps : List (List (Trans S A K))} (hne : exps ≠ [])
    (hexp : ∀ e ∈ exps, e ≠ []) {n : Nat} (hn : 2 ≤ n) {vMin δ : K} (hδ : 0 < δ) {z : List K}
    (hz : Categorical.Spec.Grid z n vMin δ) (qDist : F → List (List K)) (hq : ∀ f, qDist f ≠ [])
    (hlen : ∀ f, ∀ p ∈ qDist f, p.length = n ∧ p.sum = 1 ∧ ∀ a ∈ p, 0 ≤ a) (V : S → K)
    (hV : ∀ s, Spec.IsMax ((qDist (phi s)).map fun p => Categorical.Spec.mean z p) (V s)) :
    ∃ out ds, batchExperiences phi gamma exps = .ok out ∧ categoricalTargets z qDist out = some (.ok ds) ∧
      ds.length = exps.length ∧ ∀ (k : Nat) (exp : List (Trans S A K)), exps[k]? = some exp →
        Batch.Spec.TerminalOnlyLast exp → ∃ d : List K, ds[k]? = some d ∧ d.length = n ∧ d.sum = 1 ∧ (∀ a ∈ d, 0 ≤ a) ∧
          ((∀ zj ∈ z, vMin ≤ Batch.Spec.backup gamma (fun _ => zj) exp ∧
              Batch.Spec.backup gamma (fun _ => zj) exp ≤ vMin + ((n : K) - 1) * δ) →
            Categorical.Spec.mean z d = Batch.Spec.backup gamma V exp) := by
  have hgreedy : ∀ f, ∃ p, maxAsDistribution (qDist f) z = some p ∧ p ∈ qDist f ∧
      ∀ p' ∈ qDist f, Categorical.Spec.mean z p' ≤ Categorical.Spec.mean z p := by
    intro f
    obtain ⟨g, p, _, hp1, hp2, _, hp3⟩ := greedy_distributional (hq f) z
    exact ⟨p, hp2, List.mem_of_getElem? hp1, fun p' hp' => by rw [← mean_eq_zipWith, ← mean_eq_zipWith]; exact hp3 p' hp'⟩
  choose pg hpg1 hpg2 hpg3 using hgreedy
  obtain ⟨out, ds, h1, h2, h3, h4⟩ := categorical_targets_of phi gamma hne hexp hn hδ hz hpg1 fun f => hlen f _ (hpg2 f)
  refine ⟨out, ds, h1, h2, h3, fun k exp hk hlast => ?_⟩
  obtain ⟨d, d1, d2, d3, d4, d5, _⟩ := h4 k exp hk hlast
  refine ⟨d, d1, d2, d3, d4, fun hin => ?_⟩
  have hVeq : (fun s => Categorical.Spec.mean z (pg (phi s))) = V := by
    funext s
    obtain ⟨m1, m2⟩ := hV s
    apply le_antisymm
    · exact m2 _ (List.mem_map_of_mem (f := fun p => Categorical.Spec.mean z p) (hpg2 (phi s)))
    · obtain ⟨p', hp', he⟩ := List.mem_map.mp m1
      rw [← he]
      exact hpg3 _ p' hp'
  rw [← hVeq]
  exact d5 hin

/-- **C62 (Categorical Double DQN).** As `categorical_targets`, except that the value of a state is the mean of the target
network's distribution of the action `g s` with the largest mean in the online network. -/
theorem categorical_double_targets [FloorRing K] (phi : S → F) (gamma : K) {exps : List (List (Trans S A K))} (hne : exps ≠ [])
    (hexp : ∀ e ∈ exps, e ≠ []) {n : Nat} (hn : 2 ≤ n) {vMin δ : K} (hδ : 0 < δ) {z : List K}
    (hz : Categorical.Spec.Grid z n vMin δ) (qDist qDistTarget : F → List (List K)) (hq : ∀ f, qDist f ≠ [])
    (hqt : ∀ f, (qDistTarget f).length = (qDist f).length)
    (hlen : ∀ f, ∀ p ∈ qDistTarget f, p.length = n ∧ p.sum = 1 ∧ ∀ a ∈ p, 0 ≤ a) :
    ∃ g : F → Nat, (∀ f, ∃ p, (qDist f)[g f]? = some p ∧
        ∀ p' ∈ qDist f, Categorical.Spec.mean z p' ≤ Categorical.Spec.mean z p) ∧
      ∃ out ds, batchExperiences phi gamma exps = .ok out ∧
        categoricalDoubleTargets z qDist qDistTarget out = some (.ok ds) ∧
        ds.length = exps.length ∧ ∀ (k : Nat) (exp : List (Trans S A K)), exps[k]? = some exp →
          Batch.Spec.TerminalOnlyLast exp → ∃ d : List K, ds[k]? = some d ∧ d.length = n ∧ d.sum = 1 ∧ (∀ a ∈ d, 0 ≤ a) ∧
            ((∀ zj ∈ z, vMin ≤ Batch.Spec.backup gamma (fun _ => zj) exp ∧
                Batch.Spec.backup gamma (fun _ => zj) exp ≤ vMin + ((n : K) - 1) * δ) →
              ∀ V : S → K, (∀ s, ((qDistTarget (phi s))[g (phi s)]?).map (Categorical.Spec.mean z) = some (V s)) →
                Categorical.Spec.mean z d = Batch.Spec.backup gamma V exp) := by
  have hgreedy : ∀ f, ∃ g pt, greedyAction (distQ (qDist f) z) = some g ∧ (qDistTarget f)[g]? = some pt ∧
      ∃ p, (qDist f)[g]? = some p ∧ ∀ p' ∈ qDist f, Categorical.Spec.mean z p' ≤ Categorical.Spec.mean z p := by
    intro f
    obtain ⟨g, p, hg, hp1, _, _, hp3⟩ := greedy_distributional (hq f) z
    have hlt : g < (qDistTarget f).length := by rw [hqt]; exact (List.getElem?_eq_some_iff.mp hp1).1
    refine ⟨g, _, hg, List.getElem?_eq_getElem hlt, p, hp1,
      fun p' hp' => by rw [← mean_eq_zipWith, ← mean_eq_zipWith]; exact hp3 p' hp'⟩
  choose g pg hg hpg hsp using hgreedy
  refine ⟨g, hsp, ?_⟩
  obtain ⟨out, ds, h1, h2, h3, h4⟩ := categorical_targets_of phi gamma hne hexp hn hδ hz
    (next := fun f => (greedyAction (distQ (qDist f) z)).bind fun a => (qDistTarget f)[a]?) (pg := pg)
    (fun f => by simp [hg, hpg]) fun f => hlen f _ (List.mem_of_getElem? (hpg f))
  refine ⟨out, ds, h1, h2, h3, fun k exp hk hlast => ?_⟩
  obtain ⟨d, d1, d2, d3, d4, d5, _⟩ := h4 k exp hk hlast
  refine ⟨d, d1, d2, d3, d4, fun hin V hV => ?_⟩
  have hVeq : (fun s => Categorical.Spec.mean z (pg (phi s))) = V := by
    funext s
    have := hV s
    rw [hpg] at this
    exact Option.some.inj this
  rw [← hVeq]
  exact d5 hin

/-! ## C72 -/

section C72
variable (phi : S → F) (gamma : K) {exps : List (List (Trans S Nat K))} (hne : exps ≠ []) (hexp : ∀ e ∈ exps, e ≠ [])
include hne hexp

/-- **C72 (partial).** Let `V` be the largest action value of the target network, and let the actions taken be among the actions.
AL's target is the backup of `V` minus `alpha` times the gap `V s - Q(s, a)` of the action taken in the
first state.  PAL's target is the larger of that and the backup minus `alpha` times the gap of
the same action in the last state; so for `alpha ≥ 0` it lies between AL's target and the backup.

What is missing: on terminal transitions PAL's target still looks at the last state,
see `pal_target_uses_terminal_state`. -/
theorem advantage_learning_partial (alpha : K) (halpha : 0 ≤ alpha) (qTarget : F → List K) (V : S → K)
    (hV : ∀ s, Spec.IsMax (qTarget (phi s)) (V s)) (Q : S → Nat → K) (m : Nat)
    (hQ : ∀ s a, a < m → (qTarget (phi s))[a]? = some (Q s a)) (hact : ∀ e ∈ exps, ∀ t ∈ e, t.action < m) :
    ∃ out al pal, batchExperiences phi gamma exps = .ok out ∧ alTargets alpha qTarget out = some al ∧
      palTargets alpha qTarget out = some pal ∧ al.length = exps.length ∧ pal.length = exps.length ∧
      ∀ (k : Nat) (exp : List (Trans S Nat K)), exps[k]? = some exp → Batch.Spec.TerminalOnlyLast exp →
        ∃ (t0 tn : Trans S Nat K) (x y : K), exp.head? = some t0 ∧ exp.getLast? = some tn ∧
          al[k]? = some x ∧ pal[k]? = some y ∧
          x = Batch.Spec.backup gamma V exp - alpha * (V t0.state - Q t0.state t0.action) ∧
          y = max x (Batch.Spec.backup gamma V exp - alpha * (V tn.nextState - Q tn.nextState t0.action)) ∧
          x ≤ y ∧ y ≤ Batch.Spec.backup gamma V exp := by
  obtain ⟨out, h1, h2, h3⟩ := rows_spec phi gamma hne hexp
  have hadv : ∀ s a, a < m → advantage (qTarget (phi s)) a = some (Q s a - V s) := by
    intro s a ha
    unfold advantage evaluateAction
    rw [maxValue_of_isMax (hV s), hQ s a ha]
    rfl
  have hrow : ∀ x ∈ rows out, ∃ s0 sn, x.state = phi s0 ∧ x.next = phi sn ∧ x.action < m := by
    intro x hx
    obtain ⟨k, hk⟩ := List.getElem?_of_mem hx
    obtain ⟨exp, he⟩ : ∃ exp, exps[k]? = some exp := by
      have := (List.getElem?_eq_some_iff.mp hk).1
      exact ⟨_, List.getElem?_eq_getElem (h2 ▸ this)⟩
    obtain ⟨t0, tn, x', hh, _, hx', hs, ha, hn, _⟩ := h3 k exp he
    rw [hk] at hx'; cases hx'
    exact ⟨_, _, hs, hn, by
      rw [ha]
      exact hact exp (List.mem_of_getElem? he) t0 (List.mem_of_mem_head? hh)⟩
  have hal : alTargets alpha qTarget out = some ((rows out).map fun x =>
      x.reward + x.discount * (1 - x.terminal) * ((maxValue (qTarget x.next)).getD 0)
        + alpha * ((advantage (qTarget x.state) x.action).getD 0)) := by
    unfold alTargets
    apply mapM_option
    intro x hx
    obtain ⟨s0, sn, e1, e2, e3⟩ := hrow x hx
    rw [e1, e2, maxValue_of_isMax (hV sn), hadv s0 _ e3]
    rfl
  have hpal : palTargets alpha qTarget out = some ((rows out).map fun x =>
      x.reward + x.discount * (1 - x.terminal) * ((maxValue (qTarget x.next)).getD 0)
        + alpha * max ((advantage (qTarget x.state) x.action).getD 0) ((advantage (qTarget x.next) x.action).getD 0)) := by
    unfold palTargets
    apply mapM_option
    intro x hx
    obtain ⟨s0, sn, e1, e2, e3⟩ := hrow x hx
    rw [e1, e2, maxValue_of_isMax (hV sn), hadv s0 _ e3, hadv sn _ e3]
    rfl
  refine ⟨out, _, _, h1, hal, hpal, by simp [h2], by simp [h2], ?_⟩
  intro k exp hk hlast
  obtain ⟨t0, tn, x, hh, hl, hx, hs, ha, hn, _, _, hb⟩ := h3 k exp hk
  have ham : t0.action < m := hact exp (List.mem_of_getElem? hk) t0 (List.mem_of_mem_head? hh)
  have hmem : ∀ s a, a < m → Q s a ≤ V s := fun s a h => (hV s).2 _ (List.mem_of_getElem? (hQ s a h))
  have hax : Batch.Spec.backup gamma V exp + alpha * (Q t0.state t0.action - V t0.state)
      = Batch.Spec.backup gamma V exp - alpha * (V t0.state - Q t0.state t0.action) := by ring
  have hay : Batch.Spec.backup gamma V exp + alpha * (Q tn.nextState t0.action - V tn.nextState)
      = Batch.Spec.backup gamma V exp - alpha * (V tn.nextState - Q tn.nextState t0.action) := by ring
  refine ⟨t0, tn, Batch.Spec.backup gamma V exp + alpha * (Q t0.state t0.action - V t0.state),
    Batch.Spec.backup gamma V exp + alpha * max (Q t0.state t0.action - V t0.state)
      (Q tn.nextState t0.action - V tn.nextState), hh, hl, ?_, ?_, hax, ?_, ?_, ?_⟩
  · rw [List.getElem?_map, hx, Option.map_some, hn, hs, ha, maxValue_of_isMax (hV _), hadv _ _ ham, ← hb hlast V]
    rfl
  · rw [List.getElem?_map, hx, Option.map_some, hn, hs, ha, maxValue_of_isMax (hV _), hadv _ _ ham, hadv _ _ ham,
      ← hb hlast V]
    rfl
  · rw [← hay, mul_max_of_nonneg _ _ halpha, max_add_add_left]
  · have := mul_le_mul_of_nonneg_left (le_max_left (Q t0.state t0.action - V t0.state)
      (Q tn.nextState t0.action - V tn.nextState)) halpha
    linarith
  · have h5 : max (Q t0.state t0.action - V t0.state) (Q tn.nextState t0.action - V tn.nextState) ≤ 0 :=
      max_le (sub_nonpos.mpr (hmem _ _ ham)) (sub_nonpos.mpr (hmem _ _ ham))
    have := mul_nonpos_of_nonneg_of_nonpos halpha h5
    linarith

end C72

/-- **C72 fails for PAL on terminal transitions.** The same terminal transition, once into state 1 and once into state 2, gets
different targets, because the advantage of the action in the terminal state is used. -/
theorem pal_target_uses_terminal_state :
    ∃ (qTarget : Nat → List ℚ) (mk : Nat → Trans Nat Nat ℚ), (∀ s, (mk s).terminal = true) ∧
      (∀ s, (mk s).reward = (mk 0).reward ∧ (mk s).state = (mk 0).state ∧ (mk s).action = (mk 0).action) ∧
      ∃ out1 out2, batchExperiences id (1 / 2) [[mk 1]] = .ok out1 ∧ batchExperiences id (1 / 2) [[mk 2]] = .ok out2 ∧
        palTargets (1 / 2) qTarget out1 = some [0] ∧ palTargets (1 / 2) qTarget out2 = some [-1] := by
  refine ⟨fun s => if s = 0 then [0, 2] else if s = 1 then [5, 5] else [1, 6],
    fun s => ⟨0, 0, 0, s, none, true⟩, fun _ => rfl, fun _ => ⟨rfl, rfl, rfl⟩,
    ⟨[0], [0], [0], [1], [1], [1 / 2], none⟩, ⟨[0], [0], [0], [2], [1], [1 / 2], none⟩, ?_, ?_, ?_, ?_⟩
  · unfold batchExperiences
    simp [Batch.first, Batch.last, Batch.reward, Batch.boolToR, List.mapM_cons, pure, Except.pure, bind, Except.bind]
  · unfold batchExperiences
    simp [Batch.first, Batch.last, Batch.reward, Batch.boolToR, List.mapM_cons, pure, Except.pure, bind, Except.bind]
  · decide +kernel
  · decide +kernel

/-! ## C73 -/

/-- **C73 (target).** DPP's target is the target network's value of the action taken, minus the operator at the first state, plus
the backup of the operator. -/
theorem dpp_targets (phi : S → F) (gamma : K) {exps : List (List (Trans S Nat K))} (hne : exps ≠ [])
    (hexp : ∀ e ∈ exps, e ≠ []) (L : F → K) (qTarget : F → List K) (Q : S → Nat → K) (m : Nat)
    (hQ : ∀ s a, a < m → (qTarget (phi s))[a]? = some (Q s a)) (hact : ∀ e ∈ exps, ∀ t ∈ e, t.action < m) :
    ∃ out ts, batchExperiences phi gamma exps = .ok out ∧ dppTargets L qTarget out = some ts ∧
      ts.length = exps.length ∧ ∀ (k : Nat) (exp : List (Trans S Nat K)), exps[k]? = some exp →
        Batch.Spec.TerminalOnlyLast exp → ∃ t0 : Trans S Nat K, exp.head? = some t0 ∧
          ts[k]? = some (Q t0.state t0.action - L (phi t0.state) + Batch.Spec.backup gamma (fun s => L (phi s)) exp) := by
  obtain ⟨out, h1, h2, h3⟩ := rows_spec phi gamma hne hexp
  have hm : dppTargets L qTarget out = some ((rows out).map fun x =>
      ((evaluateAction (qTarget x.state) x.action).getD 0) + (x.reward + x.discount * (1 - x.terminal) * L x.next)
        - L x.state) := by
    unfold dppTargets
    apply mapM_option
    intro x hx
    obtain ⟨k, hk⟩ := List.getElem?_of_mem hx
    obtain ⟨exp, he⟩ : ∃ exp, exps[k]? = some exp := by
      have := (List.getElem?_eq_some_iff.mp hk).1
      exact ⟨_, List.getElem?_eq_getElem (h2 ▸ this)⟩
    obtain ⟨t0, tn, x', hh, _, hx', hs, ha, hn, _⟩ := h3 k exp he
    rw [hk] at hx'; cases hx'
    unfold evaluateAction
    rw [hs, ha, hQ _ _ (hact exp (List.mem_of_getElem? he) t0 (List.mem_of_mem_head? hh))]
    rfl
  refine ⟨out, _, h1, hm, by simp [h2], ?_⟩
  intro k exp hk hlast
  obtain ⟨t0, tn, x, hh, hl, hx, hs, ha, hn, _, _, hb⟩ := h3 k exp hk
  refine ⟨t0, hh, ?_⟩
  unfold evaluateAction
  rw [List.getElem?_map, hx, Option.map_some, hs, ha, hn,
    hQ _ _ (hact exp (List.mem_of_getElem? hk) t0 (List.mem_of_mem_head? hh)), ← hb hlast (fun s => L (phi s))]
  simp only [Option.getD_some, Option.some.injEq]
  ring

/-- **C73 (operators).** For `eta > 0` the softmax operator never exceeds the maximum `m` of the values; the log-sum-exp
operator is at least `m` and at most `m + log n / eta`. -/
theorem dpp_operators {n : Nat} (q : Fin n → ℝ) (i0 : Fin n) (hm : ∀ i, q i ≤ q i0) {eta : ℝ} (heta : 0 < eta) :
    expectation eta q ≤ q i0 ∧ q i0 ≤ logSumExpOp eta q ∧ logSumExpOp eta q ≤ q i0 + Real.log n / eta := by
  have hn : 0 < n := i0.pos
  have hn' : (0 : ℝ) < n := by exact_mod_cast hn
  obtain ⟨lo, hlo⟩ : ∃ lo, ∀ i, lo ≤ q i := by
    obtain ⟨j, _, hj⟩ := Finset.exists_min_image Finset.univ q ⟨i0, Finset.mem_univ _⟩
    exact ⟨q j, fun i => hj i (Finset.mem_univ i)⟩
  refine ⟨(expectation_between hn eta q lo (q i0) fun i => ⟨hlo i, hm i⟩).2, ?_, ?_⟩
  · unfold logSumExpOp
    rw [le_div_iff₀ heta]
    calc q i0 * eta = Real.log (Real.exp (eta * q i0)) := by rw [Real.log_exp]; ring
      _ ≤ _ := Real.log_le_log (Real.exp_pos _)
        (Finset.single_le_sum (f := fun i => Real.exp (eta * q i)) (fun i _ => (Real.exp_pos _).le) (Finset.mem_univ i0))
  · unfold logSumExpOp
    have hsum : ∑ i, Real.exp (eta * q i) ≤ n * Real.exp (eta * q i0) := by
      calc ∑ i, Real.exp (eta * q i) ≤ ∑ _i : Fin n, Real.exp (eta * q i0) :=
            Finset.sum_le_sum fun i _ => Real.exp_le_exp.mpr (mul_le_mul_of_nonneg_left (hm i) heta.le)
        _ = n * Real.exp (eta * q i0) := by simp
    have hpos : 0 < ∑ i, Real.exp (eta * q i) := Finset.sum_pos (fun _ _ => Real.exp_pos _) ⟨i0, Finset.mem_univ _⟩
    have hlog := Real.log_le_log hpos hsum
    rw [Real.log_mul hn'.ne' (Real.exp_pos _).ne', Real.log_exp] at hlog
    rw [div_le_iff₀ heta, add_mul, div_mul_cancel₀ _ heta.ne']
    linarith

/-! ## C63 -/

theorem smoothL1_nonneg (y t : ℝ) : 0 ≤ smoothL1 y t := by
  unfold smoothL1
  split
  · positivity
  · rename_i h
    linarith [not_lt.mp h]

theorem smoothL1_eq_zero (y t : ℝ) : smoothL1 y t = 0 ↔ y = t := by
  unfold smoothL1
  constructor
  · intro h
    split at h
    · have : (y - t) ^ 2 = 0 := by linarith
      exact sub_eq_zero.mp (pow_eq_zero_iff (two_ne_zero)|>.mp this)
    · rename_i h1
      linarith [not_lt.mp h1]
  · rintro rfl
    simp

theorem smoothL1_le (y t : ℝ) : smoothL1 y t ≤ (y - t) ^ 2 / 2 := by
  unfold smoothL1
  split
  · exact le_refl _
  · nlinarith [sq_abs (y - t), sq_nonneg (|y - t| - 1)]

theorem smoothL1_quadratic (d h t : ℝ) :
    |smoothL1 (d + h) t - smoothL1 d t - h * max (-1) (min 1 (d - t))| ≤ h ^ 2 := by
  generalize hx : d - t = x
  have e1 : d + h - t = x + h := by rw [← hx]; ring
  unfold smoothL1
  rw [e1, hx, abs_le]
  rcases le_total x (-1) with h1 | h1
  · rw [min_eq_right (by linarith), max_eq_left h1, abs_of_neg (by linarith : x < 0), if_neg (show ¬ (-x < 1) by linarith)]
    rcases abs_cases (x + h) with ⟨h2, h3⟩ | ⟨h2, h3⟩ <;> rw [h2] <;> split <;> constructor <;> nlinarith
  · rcases le_total 1 x with h4 | h4
    · rw [min_eq_left h4, max_eq_right (by linarith), abs_of_pos (by linarith : 0 < x), if_neg (show ¬ (x < 1) by linarith)]
      rcases abs_cases (x + h) with ⟨h2, h3⟩ | ⟨h2, h3⟩ <;> rw [h2] <;> split <;> constructor <;> nlinarith
    · rw [min_eq_right h4, max_eq_right h1]
      have : (if |x| < 1 then x ^ 2 / 2 else |x| - 1 / 2) = x ^ 2 / 2 := by
        split
        · rfl
        · rename_i hn
          have := le_antisymm (abs_le.mpr ⟨h1, h4⟩) (not_lt.mp hn)
          rw [← sq_abs, this]; norm_num
      rw [this]
      rcases abs_cases (x + h) with ⟨h2, h3⟩ | ⟨h2, h3⟩ <;> rw [h2] <;> split <;> constructor <;> nlinarith

theorem quantileHuber_quadratic (tau : ℝ) (h0 : 0 < tau) (h1 : tau < 1) (y t h : ℝ) :
    |quantileHuber (y + h) t tau - quantileHuber y t tau -
      h * (|tau - (if t < y then 1 else 0)| * max (-1) (min 1 (y - t)))| ≤ 2 * h ^ 2 := by
  have hw : ∀ z : ℝ, 0 ≤ |tau - (if t < z then 1 else 0)| ∧ |tau - (if t < z then 1 else 0)| ≤ 1 := by
    intro z
    refine ⟨abs_nonneg _, ?_⟩
    split <;> rw [abs_le] <;> constructor <;> linarith
  unfold quantileHuber
  by_cases hs : (t < y + h ↔ t < y)
  · have : (if t < y + h then (1 : ℝ) else 0) = if t < y then 1 else 0 := by simp only [hs]
    rw [this]
    have hq := smoothL1_quadratic y h t
    have e : |tau - (if t < y then 1 else 0)| * smoothL1 (y + h) t - |tau - (if t < y then 1 else 0)| * smoothL1 y t -
        h * (|tau - (if t < y then 1 else 0)| * max (-1) (min 1 (y - t))) =
        |tau - (if t < y then 1 else 0)| * (smoothL1 (y + h) t - smoothL1 y t - h * max (-1) (min 1 (y - t))) := by ring
    rw [e, abs_mul, abs_abs]
    nlinarith [hw y, abs_nonneg (smoothL1 (y + h) t - smoothL1 y t - h * max (-1) (min 1 (y - t)))]
  · have hd : |y - t| ≤ |h| ∧ |y + h - t| ≤ |h| := by
      by_cases hy : t < y
      · have : y + h ≤ t := by
          by_contra hc
          exact hs ⟨fun _ => hy, fun _ => not_le.mp hc⟩
        rw [abs_of_neg (by linarith : h < 0)]
        constructor <;> rw [abs_le] <;> constructor <;> linarith
      · have : t < y + h := by
          by_contra hc
          exact hs ⟨fun h => absurd h hc, fun h => absurd h hy⟩
        rw [abs_of_pos (by linarith : 0 < h)]
        constructor <;> rw [abs_le] <;> constructor <;> linarith
    have hc : |max (-1) (min 1 (y - t))| ≤ |y - t| := by
      rcases abs_cases (y - t) with ⟨h2, h3⟩ | ⟨h2, h3⟩
      · rw [h2, max_eq_right (le_min (by norm_num) (by linarith)), abs_of_nonneg (le_min (by norm_num) h3)]
        exact min_le_right _ _
      · rw [h2, min_eq_right (by linarith), abs_of_nonpos (max_le (by norm_num) h3.le)]
        have := le_max_right (-1) (y - t)
        linarith
    have sq1 : (y - t) ^ 2 ≤ h ^ 2 := sq_le_sq.mpr hd.1
    have sq2 : (y + h - t) ^ 2 ≤ h ^ 2 := sq_le_sq.mpr hd.2
    have b1 := smoothL1_le y t
    have b2 := smoothL1_le (y + h) t
    have n1 := smoothL1_nonneg y t
    have n2 := smoothL1_nonneg (y + h) t
    have w1 := hw y
    have w2 := hw (y + h)
    have b3 : |h * (|tau - (if t < y then 1 else 0)| * max (-1) (min 1 (y - t)))| ≤ h ^ 2 := by
      rw [abs_mul, abs_mul, abs_abs, ← sq_abs h, pow_two]
      refine mul_le_mul_of_nonneg_left ?_ (abs_nonneg _)
      calc _ ≤ 1 * |y - t| := mul_le_mul w1.2 hc (abs_nonneg _) (by norm_num)
        _ ≤ |h| := by rw [one_mul]; exact hd.1
    have p1 : 0 ≤ |tau - (if t < y then 1 else 0)| * smoothL1 y t := mul_nonneg w1.1 n1
    have p2 : 0 ≤ |tau - (if t < y + h then 1 else 0)| * smoothL1 (y + h) t := mul_nonneg w2.1 n2
    have q1 : |tau - (if t < y then 1 else 0)| * smoothL1 y t ≤ h ^ 2 / 2 := by
      calc _ ≤ 1 * smoothL1 y t := mul_le_mul_of_nonneg_right w1.2 n1
        _ ≤ h ^ 2 / 2 := by linarith
    have q2 : |tau - (if t < y + h then 1 else 0)| * smoothL1 (y + h) t ≤ h ^ 2 / 2 := by
      calc _ ≤ 1 * smoothL1 (y + h) t := mul_le_mul_of_nonneg_right w2.2 n2
        _ ≤ h ^ 2 / 2 := by linarith
    rw [abs_le] at b3 ⊢
    constructor <;> linarith [b3.1, b3.2]

theorem quantileHuber_deriv (tau : ℝ) (h0 : 0 < tau) (h1 : tau < 1) (y t : ℝ) :
    HasDerivAt (fun z => quantileHuber z t tau) (|tau - (if t < y then 1 else 0)| * max (-1) (min 1 (y - t))) y := by
  rw [hasDerivAt_iff_isLittleO_nhds_zero]
  refine (Asymptotics.IsBigO.of_bound 2 (Filter.Eventually.of_forall fun h => ?_)).trans_isLittleO
    (Asymptotics.isLittleO_pow_id (one_lt_two))
  rw [Real.norm_eq_abs, Real.norm_eq_abs, abs_of_nonneg (sq_nonneg h), smul_eq_mul]
  exact quantileHuber_quadratic tau h0 h1 y t h

/-- **C63.** For `tau` strictly between 0 and 1 the loss is never negative and is zero exactly when prediction and target
agree; overestimating by `d` costs `(1 - tau) / tau` times as much as underestimating by `d`; the loss is differentiable everywhere and its gradient
is the error clipped to `[-1, 1]`, times `1 - tau` above the target and `tau` below. -/
theorem quantile_huber (tau : ℝ) (h0 : 0 < tau) (h1 : tau < 1) :
    (∀ y t, 0 ≤ quantileHuber y t tau) ∧ (∀ y t, quantileHuber y t tau = 0 ↔ y = t) ∧
    (∀ t d, 0 < d → quantileHuber (t + d) t tau = (1 - tau) / tau * quantileHuber (t - d) t tau) ∧
    (∀ y t, HasDerivAt (fun z => quantileHuber z t tau)
      ((if t < y then 1 - tau else tau) * max (-1) (min 1 (y - t))) y) := by
  have hpos : ∀ y t : ℝ, 0 < |tau - (if t < y then 1 else 0)| := by
    intro y t
    split
    · rw [abs_pos]; intro h; linarith
    · rw [abs_pos]; intro h; linarith
  refine ⟨fun y t => mul_nonneg (abs_nonneg _) (smoothL1_nonneg y t), fun y t => ?_, fun t d hd => ?_, fun y t => ?_⟩
  · unfold quantileHuber
    rw [mul_eq_zero, smoothL1_eq_zero]
    constructor
    · rintro (h | h)
      · exact absurd h (hpos y t).ne'
      · exact h
    · exact Or.inr
  · unfold quantileHuber
    have hs : smoothL1 (t + d) t = smoothL1 (t - d) t := by
      unfold smoothL1
      have e1 : t + d - t = d := by ring
      have e2 : t - d - t = -d := by ring
      rw [e1, e2, abs_neg, neg_sq]
    rw [if_pos (by linarith), if_neg (by linarith), hs, sub_zero, abs_of_pos h0, abs_of_neg (by linarith)]
    field_simp
    ring
  · have hd := quantileHuber_deriv tau h0 h1 y t
    have hw : |tau - (if t < y then 1 else 0)| = if t < y then 1 - tau else tau := by
      split
      · rw [abs_of_neg (by linarith)]; ring
      · rw [sub_zero, abs_of_pos h0]
    rwa [hw] at hd

/-! ## C61 -/

/-- **C61.** Starting with fresh counters, `k` calls of `update` make `k` critic updates and `k / delay` policy updates.  The
`j`-th call (counted from one) updates the critics and, exactly if `delay` divides `j`, then the policy and then
the target networks. -/
theorem td3_delayed_updates {delay : Nat} (hd : 0 < delay) (k : Nat) :
    ∃ s, Td3.updates delay k ⟨0, 0, []⟩ = .ok s ∧ s.qUpdates = k ∧ s.policyUpdates = k / delay ∧
      s.log.count .critics = k ∧ s.log.count .policy = k / delay ∧ s.log.count .syncTargets = k / delay ∧
      s.log = (List.range k).flatMap fun j =>
        if delay ∣ j + 1 then [.critics, .policy, .syncTargets] else [.critics] := by
  induction k with
  | zero => exact ⟨_, rfl, rfl, by simp, rfl, by simp, by simp, rfl⟩
  | succ k ih =>
    obtain ⟨s, h1, h2, h3, h4, h5, h6, h7⟩ := ih
    unfold Td3.updates
    rw [h1]
    simp only [Td3.update, if_neg hd.ne', h2]
    rw [List.range_succ, List.flatMap_append, ← h7]
    by_cases hdiv : delay ∣ k + 1
    · rw [if_pos (Nat.mod_eq_zero_of_dvd hdiv)]
      have hq : (k + 1) / delay = k / delay + 1 := Nat.succ_div_of_dvd hdiv
      refine ⟨_, rfl, rfl, ?_, ?_, ?_, ?_, ?_⟩
      · simp only [h3, hq]
      · simp [List.count_append, h4]
      · simp [List.count_append, h5, hq]
      · simp [List.count_append, h6, hq]
      · simp [hdiv]
    · rw [if_neg (fun h => hdiv (Nat.dvd_of_mod_eq_zero h))]
      have hq : (k + 1) / delay = k / delay := Nat.succ_div_of_not_dvd hdiv
      refine ⟨_, rfl, rfl, ?_, ?_, ?_, ?_, ?_⟩
      · simp only [h3, hq]
      · simp [List.count_append, h4]
      · simp [List.count_append, h5, hq]
      · simp [List.count_append, h6, hq]
      · simp [hdiv]

example : ((Td3.updates 2 5 ⟨0, 0, []⟩).map fun s => s.log.count .policy) = .ok 2 := by decide

/-! ## Examples -/

/-- Two experiences, one of two transitions that ends in a terminal state and one of a single transition, meet the hypotheses
of the theorems on targets; the value of state `s` is `s`. -/
example : (dqnTargets (fun s : ℚ => [s - 1, s, s - 2])
      ⟨[0, 7], [0, 1], [11, 3], [2, 8], [1, 0], [1 / 4, 1 / 2], none⟩ = some [11, 7]) ∧
    (∀ s : ℚ, Spec.IsMax [s - 1, s, s - 2] s) ∧
    Batch.Spec.TerminalOnlyLast [(⟨0, 0, 1, 1, none, false⟩ : Trans ℚ Nat ℚ), ⟨1, 0, 5, 2, none, true⟩] := by
  refine ⟨by decide +kernel, fun s => ⟨by simp, fun y hy => ?_⟩, ?_⟩
  · simp only [List.mem_cons, List.not_mem_nil, or_false] at hy
    rcases hy with rfl | rfl | rfl <;> linarith
  · intro t ht
    simp at ht
    simp [ht]

end Pfrl.Value
