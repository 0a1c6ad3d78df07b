import Verif.Basic
import Mathlib.Algebra.BigOperators.Group.List.Basic
import Mathlib.Tactic.Ring
import Mathlib.Tactic.Abel

/-!
# REINFORCE (C27)

The code weighs the action at step `t` of a `T`-step episode by `r_{t+1} + … + r_{T-1} + r_{T-1}`,
not by `r_t + … + r_{T-1}`: the last reward is appended twice and the first one is dropped.
-/

namespace Pfrl.Returns

set_option linter.unusedSectionVars false

variable {K : Type _} [AddCommGroup K] {α : Type _}

/-! ## Model -/

/-- One step of the environment under training: the log-probability (and entropy) of the action taken,
as a token, then the reward and flags passed to `observe`. -/
structure RStep (K α : Type _) where
  logProb : α
  reward : K
  done : Bool
  reset : Bool

/-- The constructor arguments that matter, `pfrl/agents/reinforce.py:38-83`. -/
structure ReinforceCfg where
  batchsize : Nat
  backwardSeparately : Bool

/-- `pfrl/agents/reinforce.py:77-87`.  The log-probability and entropy sequences are filled and cleared
together, so one list stands for both.  `grad` is the gradient accumulated since the last `zero_grad`,
as a list of terms `R * ∇ log_prob` (the common factor `-1/batchsize` and the entropy bonus left out);
`steps` records the gradient used by each `optimizer.step()`. -/
structure Reinforce (K α : Type _) where
  rewardSeqs : List (List K)
  logProbSeqs : List (List α)
  nBackward : Nat
  grad : List (K × α)
  steps : List (List (K × α))

/-- A new agent, `pfrl/agents/reinforce.py:77-87`. -/
def Reinforce.new : Reinforce K α := ⟨[[]], [[]], 0, [], []⟩

/-- `np.cumsum(xs)`. -/
def cumsumFrom (acc : K) : List K → List K
  | [] => []
  | x :: xs => (acc + x) :: cumsumFrom (acc + x) xs

/-- `np.cumsum(list(reversed(r_seq[1:])))[::-1]`, `pfrl/agents/reinforce.py:186`. -/
def returnsOf (rSeq : List K) : List K := (cumsumFrom 0 (rSeq.drop 1).reverse).reverse

/-- The loop over the episodes in `accumulate_grad`, `pfrl/agents/reinforce.py:181-189`. -/
def lossTerms : List (List K × List α) → Except PyErr (List (K × α))
  | [] => .ok []
  | (r, lp) :: rest =>
    if r.length = lp.length + 1 then
      match lossTerms rest with
      | .error e => .error e
      | .ok l => .ok ((returnsOf r).zip lp ++ l)
    else .error .assertionError

/-- `accumulate_grad`, `pfrl/agents/reinforce.py:176-195`.  `torch.stack` of nothing raises. -/
def Reinforce.accumulateGrad (a : Reinforce K α) : Except PyErr (Reinforce K α) :=
  let grad := if a.nBackward = 0 then [] else a.grad
  match lossTerms (a.rewardSeqs.zip a.logProbSeqs) with
  | .error e => .error e
  | .ok terms =>
    if terms.isEmpty then .error .runtimeError
    else .ok { a with grad := grad ++ terms, rewardSeqs := [[]], logProbSeqs := [[]]
                      nBackward := a.nBackward + 1 }

/-- `batch_update`, `pfrl/agents/reinforce.py:197-207`. -/
def Reinforce.batchUpdate (c : ReinforceCfg) (a : Reinforce K α) : Except PyErr (Reinforce K α) :=
  if a.rewardSeqs.length = c.batchsize ∧ a.logProbSeqs.length = c.batchsize ∧ a.nBackward = 0 then
    match a.accumulateGrad with
    | .error e => .error e
    | .ok a => .ok { a with steps := a.steps ++ [a.grad], nBackward := 0 }
  else .error .assertionError

/-- `update_with_accumulated_grad`, `pfrl/agents/reinforce.py:209-214`. -/
def Reinforce.updateWithAccumulatedGrad (c : ReinforceCfg) (a : Reinforce K α) :
    Except PyErr (Reinforce K α) :=
  if a.nBackward = c.batchsize then .ok { a with steps := a.steps ++ [a.grad], nBackward := 0 }
  else .error .assertionError

/-- `seqs[-1] = f(seqs[-1])`; `IndexError` on an empty list. -/
def modifyLast {β : Type _} (f : β → β) (l : List β) : Except PyErr (List β) :=
  match l.getLast? with
  | none => .error .indexError
  | some x => .ok (l.dropLast ++ [f x])

/-- The part of `_act_train` that matters, `pfrl/agents/reinforce.py:113-115`. -/
def Reinforce.act (a : Reinforce K α) (lp : α) : Except PyErr (Reinforce K α) :=
  match modifyLast (· ++ [lp]) a.logProbSeqs with
  | .error e => .error e
  | .ok l => .ok { a with logProbSeqs := l }

/-- `pfrl/agents/reinforce.py:144-155`: the episode is complete. -/
def Reinforce.episodeDone (c : ReinforceCfg) (a : Reinforce K α) (reward : K) :
    Except PyErr (Reinforce K α) :=
  match modifyLast (· ++ [reward]) a.rewardSeqs with
  | .error e => .error e
  | .ok l =>
    let a := { a with rewardSeqs := l }
    if c.backwardSeparately then
      match a.accumulateGrad with
      | .error e => .error e
      | .ok a => if a.nBackward = c.batchsize then a.updateWithAccumulatedGrad c else .ok a
    else if a.rewardSeqs.length = c.batchsize then a.batchUpdate c
    else .ok { a with rewardSeqs := a.rewardSeqs ++ [[]], logProbSeqs := a.logProbSeqs ++ [[]] }

/-- `pfrl/agents/reinforce.py:135-143`: the episode is thrown away. -/
def Reinforce.throwAway (a : Reinforce K α) : Except PyErr (Reinforce K α) :=
  match modifyLast (fun _ => []) a.rewardSeqs, modifyLast (fun _ => []) a.logProbSeqs with
  | .ok r, .ok l => .ok { a with rewardSeqs := r, logProbSeqs := l }
  | .error e, _ => .error e
  | _, .error e => .error e

/-- `_observe_train`, `pfrl/agents/reinforce.py:129-156`. -/
def Reinforce.observe (c : ReinforceCfg) (a : Reinforce K α) (reward : K) (done reset : Bool) :
    Except PyErr (Reinforce K α) :=
  match modifyLast (· ++ [reward]) a.rewardSeqs with
  | .error e => .error e
  | .ok l =>
    let a := { a with rewardSeqs := l }
    if done || reset then
      if done then a.episodeDone c reward else a.throwAway
    else .ok a

/-- One step of the training loop: act, then observe. -/
def Reinforce.turn (c : ReinforceCfg) (a : Reinforce K α) (s : RStep K α) :
    Except PyErr (Reinforce K α) :=
  match a.act s.logProb with
  | .error e => .error e
  | .ok a => a.observe c s.reward s.done s.reset

/-- A training history. -/
def Reinforce.run (c : ReinforceCfg) (a : Reinforce K α) :
    List (RStep K α) → Except PyErr (Reinforce K α)
  | [] => .ok a
  | s :: rest =>
    match a.turn c s with
    | .error e => .error e
    | .ok a => Reinforce.run c a rest

/-! ## Specification -/

/-- The episode ends with this step. -/
def RStep.ended (s : RStep K α) : Bool := s.done || s.reset

/-- What the property asks for: each action weighted by the rewards from its step on. -/
def Spec.reinforceIntended (ep : List (RStep K α)) : List (K × α) :=
  (List.range ep.length).zip (ep.map RStep.logProb) |>.map fun p =>
    (((ep.drop p.1).map RStep.reward).sum, p.2)

/-- What the code does: each action weighted by the rewards after the one it receives, plus the last
reward of the episode. -/
def Spec.reinforceActual (ep : List (RStep K α)) : List (K × α) :=
  (List.range ep.length).zip (ep.map RStep.logProb) |>.map fun p =>
    (((ep.drop (p.1 + 1)).map RStep.reward).sum + (ep.getLast?.map RStep.reward).getD 0, p.2)

/-- An episode `init ++ [last]`. -/
def Spec.REpisode (e : List (RStep K α) × RStep K α) : Prop :=
  (∀ s ∈ e.1, s.ended = false) ∧ e.2.ended = true

/-! ## Lemmas -/

theorem cumsumFrom_append (acc : K) (l : List K) (x : K) :
    cumsumFrom acc (l ++ [x]) = cumsumFrom acc l ++ [acc + l.sum + x] := by
  induction l generalizing acc with
  | nil => simp [cumsumFrom]
  | cons y l ih =>
    simp only [List.cons_append, cumsumFrom, ih, List.sum_cons]
    simp only [add_assoc]

theorem suffixSums (l : List K) :
    (cumsumFrom 0 l.reverse).reverse = (List.range l.length).map fun i => (l.drop i).sum := by
  induction l with
  | nil => simp [cumsumFrom]
  | cons x l ih =>
    rw [List.reverse_cons, cumsumFrom_append, List.reverse_append, ih, List.length_cons,
      List.range_succ_eq_map, List.map_cons, List.map_map]
    simp only [List.reverse_cons, List.reverse_nil, List.nil_append, List.singleton_append,
      List.drop_zero, List.sum_cons]
    congr 1
    rw [List.sum_reverse]
    abel

/-- The terms contributed by a finished episode. -/
theorem terms_of_episode (init : List (RStep K α)) (last : RStep K α) :
    (returnsOf ((init ++ [last]).map RStep.reward ++ [last.reward])).zip
        ((init ++ [last]).map RStep.logProb) = Spec.reinforceActual (init ++ [last]) := by
  unfold returnsOf Spec.reinforceActual
  rw [suffixSums]
  apply List.ext_getElem
  · simp
  · intro i h1 h2
    simp only [List.length_zip, List.length_map, List.length_range, List.length_drop,
      List.length_append, List.length_singleton] at h1
    simp only [List.getElem_zip, List.getElem_map, List.getElem_range, List.drop_drop]
    congr 1
    rw [List.drop_append_of_le_length (by simp; omega), List.sum_append, List.map_drop,
      Nat.add_comm 1 i]
    simp

theorem lossTerms_spec (eps : List (List (RStep K α) × RStep K α)) :
    lossTerms (eps.map fun e => ((e.1 ++ [e.2]).map RStep.reward ++ [e.2.reward],
        (e.1 ++ [e.2]).map RStep.logProb))
      = .ok (eps.map fun e => Spec.reinforceActual (e.1 ++ [e.2])).flatten := by
  induction eps with
  | nil => rfl
  | cons e eps ih =>
    simp only [List.map_cons, lossTerms]
    rw [if_pos (by simp), ih]
    simp only [List.flatten_cons]
    rw [terms_of_episode]

theorem modifyLast_append {β : Type _} (f : β → β) (l : List β) (x : β) :
    modifyLast f (l ++ [x]) = .ok (l ++ [f x]) := by
  simp [modifyLast]

theorem modifyLast_single {β : Type _} (f : β → β) (x : β) : modifyLast f [x] = .ok [f x] := by
  simp [modifyLast]

theorem actual_ne_nil (init : List (RStep K α)) (last : RStep K α) :
    Spec.reinforceActual (init ++ [last]) ≠ [] := by
  intro h
  have := congrArg List.length h
  simp [Spec.reinforceActual] at this

theorem flatten_actual_not_empty (eps : List (List (RStep K α) × RStep K α)) (h : eps ≠ []) :
    (eps.map fun e => Spec.reinforceActual (e.1 ++ [e.2])).flatten.isEmpty = false := by
  cases eps with
  | nil => exact absurd rfl h
  | cons e eps =>
    rw [List.map_cons, List.flatten_cons, List.isEmpty_eq_false_iff]
    intro hc
    exact actual_ne_nil _ _ (List.append_eq_nil_iff.mp hc).1

/-- The agent between updates: `got` are the complete episodes since the last optimiser step, `cur` the
steps of the current episode. -/
structure RIn (c : ReinforceCfg) (a : Reinforce K α)
    (got : List (List (RStep K α) × RStep K α)) (cur : List (RStep K α)) : Prop where
  lt : got.length < c.batchsize
  together : c.backwardSeparately = false →
    a.rewardSeqs = (got.map fun e => (e.1 ++ [e.2]).map RStep.reward ++ [e.2.reward])
        ++ [cur.map RStep.reward] ∧
      a.logProbSeqs = (got.map fun e => (e.1 ++ [e.2]).map RStep.logProb)
        ++ [cur.map RStep.logProb] ∧ a.nBackward = 0
  separately : c.backwardSeparately = true →
    a.rewardSeqs = [cur.map RStep.reward] ∧ a.logProbSeqs = [cur.map RStep.logProb] ∧
      a.nBackward = got.length ∧
      (got ≠ [] → a.grad = (got.map fun e => Spec.reinforceActual (e.1 ++ [e.2])).flatten)

theorem zip_append_single {β γ : Type _} {f : List (RStep K α) × RStep K α → β}
    {f' : List (RStep K α) × RStep K α → γ} (l : List (List (RStep K α) × RStep K α)) (x : β)
    (y : γ) : ((l.map f ++ [x]).zip (l.map f' ++ [y])) = (l.map fun e => (f e, f' e)) ++ [(x, y)] := by
  induction l with
  | nil => rfl
  | cons e l ih => simp only [List.map_cons, List.cons_append, List.zip_cons_cons, ih]

theorem reinforce_turn_spec (c : ReinforceCfg) {a : Reinforce K α}
    {got : List (List (RStep K α) × RStep K α)} {cur : List (RStep K α)} (h : RIn c a got cur)
    (s : RStep K α) :
    ∃ a', a.turn c s = .ok a' ∧
      ((s.ended = false ∧ RIn c a' got (cur ++ [s]) ∧ a'.steps = a.steps)
      ∨ (s.done = false ∧ s.reset = true ∧ RIn c a' got [] ∧ a'.steps = a.steps)
      ∨ (s.done = true ∧ got.length + 1 < c.batchsize ∧ RIn c a' (got ++ [(cur, s)]) []
          ∧ a'.steps = a.steps)
      ∨ (s.done = true ∧ got.length + 1 = c.batchsize ∧ RIn c a' [] [] ∧
          a'.steps = a.steps ++
            [((got ++ [(cur, s)]).map fun e => Spec.reinforceActual (e.1 ++ [e.2])).flatten])) := by
  have hlt := h.lt
  obtain ⟨lp, r, done, reset⟩ := s
  cases hsep : c.backwardSeparately with
  | false =>
    obtain ⟨h1, h2, h3⟩ := h.together hsep
    unfold Reinforce.turn Reinforce.act
    rw [h2, modifyLast_append]
    simp only [Reinforce.observe, h1, modifyLast_append]
    cases done with
    | false =>
      cases reset with
      | false =>
        refine ⟨_, rfl, Or.inl ⟨rfl, ⟨hlt, fun _ => ⟨by simp, by simp, h3⟩, ?_⟩, rfl⟩⟩
        intro hc; rw [hsep] at hc; cases hc
      | true =>
        simp only [Bool.or_true, if_true, Bool.false_eq_true, if_false, Reinforce.throwAway,
          modifyLast_append]
        refine ⟨_, rfl, Or.inr (Or.inl ⟨by simp, by simp, ⟨hlt, fun _ => ⟨by simp, by simp, h3⟩, ?_⟩,
          rfl⟩)⟩
        intro hc; rw [hsep] at hc; cases hc
    | true =>
      simp only [Bool.true_or, if_true, Reinforce.episodeDone, modifyLast_append, hsep,
        Bool.false_eq_true, if_false]
      have hl : (got.map (fun e => (e.1 ++ [e.2]).map RStep.reward ++ [e.2.reward])
          ++ [cur.map RStep.reward ++ [r] ++ [r]]).length = got.length + 1 := by simp
      rw [hl]
      by_cases hfull : got.length + 1 = c.batchsize
      · simp only [if_pos hfull]
        unfold Reinforce.batchUpdate
        rw [if_pos ⟨by rw [hl]; exact hfull, by simpa using hfull, h3⟩]
        unfold Reinforce.accumulateGrad
        simp only
        rw [zip_append_single]
        have := lossTerms_spec (got ++ [(cur, (⟨lp, r, true, reset⟩ : RStep K α))])
        simp only [List.map_append, List.map_cons, List.map_nil] at this
        simp only [List.map_append, List.map_cons, List.map_nil]
        rw [this]
        have hne := flatten_actual_not_empty (got ++ [(cur, (⟨lp, r, true, reset⟩ : RStep K α))])
          (by simp)
        simp only [List.map_append, List.map_cons, List.map_nil] at hne
        simp only [hne, Bool.false_eq_true, if_false, h3, if_true, List.nil_append]
        refine ⟨_, rfl, Or.inr (Or.inr (Or.inr ⟨trivial, hfull, ⟨by simp; omega, fun _ => ⟨rfl, rfl, rfl⟩, ?_⟩,
          rfl⟩))⟩
        intro hc; rw [hsep] at hc; cases hc
      · simp only [if_neg hfull]
        refine ⟨_, rfl, Or.inr (Or.inr (Or.inl ⟨trivial, by omega, ⟨by simp; omega, fun _ => ⟨by simp, by simp, h3⟩,
          ?_⟩, rfl⟩))⟩
        intro hc; rw [hsep] at hc; cases hc
  | true =>
    obtain ⟨h1, h2, h3, h4⟩ := h.separately hsep
    unfold Reinforce.turn Reinforce.act
    rw [h2]
    simp only [modifyLast_single, Reinforce.observe, h1]
    cases done with
    | false =>
      cases reset with
      | false =>
        refine ⟨_, rfl, Or.inl ⟨rfl, ⟨hlt, ?_, fun _ => ⟨by simp, by simp, h3, h4⟩⟩, rfl⟩⟩
        intro hc; rw [hsep] at hc; cases hc
      | true =>
        simp only [Bool.or_true, if_true, Bool.false_eq_true, if_false, Reinforce.throwAway, modifyLast_single]
        refine ⟨_, rfl, Or.inr (Or.inl ⟨by simp, by simp, ⟨hlt, ?_, fun _ => ⟨by simp, by simp, h3, h4⟩⟩,
          rfl⟩)⟩
        intro hc; rw [hsep] at hc; cases hc
    | true =>
      simp only [Bool.true_or, if_true, Reinforce.episodeDone, modifyLast_single, hsep]
      unfold Reinforce.accumulateGrad
      simp only
      have := lossTerms_spec [(cur, (⟨lp, r, true, reset⟩ : RStep K α))]
      simp only [List.map_append, List.map_cons, List.map_nil] at this
      simp only [List.zip_cons_cons, List.zip_nil_right]
      rw [this]
      have hne := flatten_actual_not_empty [(cur, (⟨lp, r, true, reset⟩ : RStep K α))] (by simp)
      simp only [List.map_cons, List.map_nil] at hne
      simp only [hne, Bool.false_eq_true, if_false]
      have hgrad : (if a.nBackward = 0 then [] else a.grad)
          = (got.map fun e => Spec.reinforceActual (e.1 ++ [e.2])).flatten := by
        by_cases hg : got = []
        · rw [if_pos (by rw [h3, hg]; rfl), hg]; rfl
        · rw [if_neg (by rw [h3]; exact fun hc => hg (List.length_eq_zero_iff.mp hc)), h4 hg]
      rw [hgrad]
      by_cases hfull : got.length + 1 = c.batchsize
      · rw [h3]
        simp only [if_pos hfull, Reinforce.updateWithAccumulatedGrad]
        refine ⟨_, rfl, Or.inr (Or.inr (Or.inr ⟨trivial, hfull, ⟨by simp; omega, ?_, fun _ =>
          ⟨rfl, rfl, rfl, fun hc => absurd rfl hc⟩⟩, by simp⟩))⟩
        intro hc; rw [hsep] at hc; cases hc
      · rw [h3]
        simp only [if_neg hfull]
        refine ⟨_, rfl, Or.inr (Or.inr (Or.inl ⟨trivial, by omega, ⟨by simp; omega, ?_, fun _ =>
          ⟨rfl, rfl, by simp, fun _ => by simp⟩⟩, rfl⟩))⟩
        intro hc; rw [hsep] at hc; cases hc

/-! ## C27 -/

/-- **C27 (partial).** Train a new agent with `batchsize ≥ 1`, with or without `backward_separately`,
on any history.  Training succeeds; the history falls into episodes and an unfinished rest; the
terminated episodes are used in groups of exactly `batchsize`, one optimiser step each, those ended only
by a reset are dropped; and each optimiser step uses for every action of its episodes the coefficient
"rewards of all later steps, plus the last reward".

Missing: that this coefficient is the sum of the rewards from the action's step on; that is false, see
`reinforce_wrong_coefficient`, and `reinforce_coefficient_iff` for exactly when it is true. -/
theorem reinforce_updates_partial (c : ReinforceCfg) (h1 : 1 ≤ c.batchsize)
    (history : List (RStep K α)) :
    ∃ (a : Reinforce K α) (episodes : List (List (RStep K α) × RStep K α))
      (pending : List (RStep K α)) (groups : List (List (List (RStep K α) × RStep K α)))
      (waiting : List (List (RStep K α) × RStep K α)),
      Reinforce.new.run c history = .ok a ∧
      history = (episodes.map fun e => e.1 ++ [e.2]).flatten ++ pending ∧
      (∀ e ∈ episodes, Spec.REpisode e) ∧ (∀ s ∈ pending, s.ended = false) ∧
      episodes.filter (fun e => e.2.done) = groups.flatten ++ waiting ∧
      (∀ g ∈ groups, g.length = c.batchsize) ∧ waiting.length < c.batchsize ∧
      a.steps = groups.map fun g => (g.map fun e => Spec.reinforceActual (e.1 ++ [e.2])).flatten := by
  have key : ∀ (history : List (RStep K α)) (got : List (List (RStep K α) × RStep K α))
      (cur : List (RStep K α)) (a : Reinforce K α), RIn c a got cur → (∀ s ∈ cur, s.ended = false) →
      ∃ (a' : Reinforce K α) (episodes : List (List (RStep K α) × RStep K α))
        (pending : List (RStep K α)) (groups : List (List (List (RStep K α) × RStep K α)))
        (waiting : List (List (RStep K α) × RStep K α)),
        a.run c history = .ok a' ∧
        cur ++ history = (episodes.map fun e => e.1 ++ [e.2]).flatten ++ pending ∧
        (∀ e ∈ episodes, Spec.REpisode e) ∧ (∀ s ∈ pending, s.ended = false) ∧
        got ++ episodes.filter (fun e => e.2.done) = groups.flatten ++ waiting ∧
        (∀ g ∈ groups, g.length = c.batchsize) ∧ waiting.length < c.batchsize ∧
        a'.steps = a.steps ++
          groups.map fun g => (g.map fun e => Spec.reinforceActual (e.1 ++ [e.2])).flatten := by
    intro history
    induction history with
    | nil =>
      intro got cur a h hcur
      exact ⟨a, [], cur, [], got, rfl, by simp, by simp, hcur, by simp, by simp, h.lt, by simp⟩
    | cons s rest ih =>
      intro got cur a h hcur
      obtain ⟨a1, k1, k2⟩ := reinforce_turn_spec c h s
      simp only [Reinforce.run, k1]
      rcases k2 with ⟨j1, j2, j3⟩ | ⟨j0, j1, j2, j3⟩ | ⟨j1, j0, j2, j3⟩ | ⟨j1, j0, j2, j3⟩
      · obtain ⟨a2, ep, pe, gr, wa, l1, l2, l3, l4, l5, l6, l7, l8⟩ := ih got (cur ++ [s]) a1 j2 (by
          intro s' hs'
          rcases List.mem_append.mp hs' with h' | h'
          · exact hcur s' h'
          · rw [List.mem_singleton] at h'; subst h'; exact j1)
        exact ⟨a2, ep, pe, gr, wa, l1, by rw [← l2]; simp, l3, l4, l5, l6, l7, by rw [l8, j3]⟩
      · obtain ⟨a2, ep, pe, gr, wa, l1, l2, l3, l4, l5, l6, l7, l8⟩ := ih got [] a1 j2 (by simp)
        refine ⟨a2, (cur, s) :: ep, pe, gr, wa, l1, ?_, ?_, l4, ?_, l6, l7, by rw [l8, j3]⟩
        · rw [List.nil_append] at l2; simp [l2]
        · intro e he
          rcases List.mem_cons.mp he with rfl | he
          · exact ⟨hcur, by simp [RStep.ended, j1]⟩
          · exact l3 e he
        · rw [← l5, List.filter_cons]; simp [j0]
      · obtain ⟨a2, ep, pe, gr, wa, l1, l2, l3, l4, l5, l6, l7, l8⟩ :=
          ih (got ++ [(cur, s)]) [] a1 j2 (by simp)
        refine ⟨a2, (cur, s) :: ep, pe, gr, wa, l1, ?_, ?_, l4, ?_, l6, l7, by rw [l8, j3]⟩
        · rw [List.nil_append] at l2; simp [l2]
        · intro e he
          rcases List.mem_cons.mp he with rfl | he
          · exact ⟨hcur, by simp [RStep.ended, j1]⟩
          · exact l3 e he
        · rw [← l5, List.filter_cons]; simp [j1]
      · obtain ⟨a2, ep, pe, gr, wa, l1, l2, l3, l4, l5, l6, l7, l8⟩ := ih [] [] a1 j2 (by simp)
        refine ⟨a2, (cur, s) :: ep, pe, (got ++ [(cur, s)]) :: gr, wa, l1, ?_, ?_, l4, ?_, ?_, l7, ?_⟩
        · rw [List.nil_append] at l2; simp [l2]
        · intro e he
          rcases List.mem_cons.mp he with rfl | he
          · exact ⟨hcur, by simp [RStep.ended, j1]⟩
          · exact l3 e he
        · rw [List.nil_append] at l5
          rw [List.filter_cons]; simp [j1, l5]
        · intro g hg
          rcases List.mem_cons.mp hg with rfl | hg
          · simpa using j0
          · exact l6 g hg
        · rw [l8, j3]; simp
  have h0 : RIn c (Reinforce.new : Reinforce K α) [] [] :=
    ⟨h1, fun _ => ⟨rfl, rfl, rfl⟩, fun _ => ⟨rfl, rfl, rfl, fun hc => absurd rfl hc⟩⟩
  obtain ⟨a, ep, pe, gr, wa, l1, l2, l3, l4, l5, l6, l7, l8⟩ := key history [] [] _ h0 (by simp)
  exact ⟨a, ep, pe, gr, wa, l1, by simpa using l2, l3, l4, by simpa using l5, l6, l7,
    by simpa [Reinforce.new] using l8⟩

/-- The coefficient the code uses for step `i` of an episode is the intended one if and only if the
reward of that step equals the last reward of the episode. -/
theorem reinforce_coefficient_iff (init : List (RStep K α)) (last : RStep K α) (i : Nat)
    (h : i < (init ++ [last]).length)
    (h1 : i < (Spec.reinforceActual (init ++ [last])).length)
    (h2 : i < (Spec.reinforceIntended (init ++ [last])).length) :
    (Spec.reinforceActual (init ++ [last]))[i] = (Spec.reinforceIntended (init ++ [last]))[i]
      ↔ ((init ++ [last])[i]).reward = last.reward := by
  simp only [Spec.reinforceActual, Spec.reinforceIntended, List.getElem_map, List.getElem_zip,
    List.getElem_range, Prod.mk.injEq, and_true, List.getLast?_concat, Option.map_some,
    Option.getD_some]
  rw [List.drop_eq_getElem_cons h, List.map_cons, List.sum_cons, add_comm (List.sum _)]
  rw [add_left_inj]
  exact eq_comm

/-- **C27 is false of the code**: in the two-step episode with rewards 1 and 0 the first action is
weighted by 0, although the rewards from its step on sum to 1. -/
theorem reinforce_wrong_coefficient :
    ∃ a, (Reinforce.new : Reinforce Int Nat).run ⟨1, false⟩
        [⟨0, 1, false, false⟩, ⟨1, 0, true, false⟩] = .ok a ∧
      a.steps = [[(0, 0), (0, 1)]] ∧
      Spec.reinforceIntended ([⟨0, 1, false, false⟩, ⟨1, 0, true, false⟩] : List (RStep Int Nat))
        = [(1, 0), (0, 1)] := by
  refine ⟨⟨[[]], [[]], 0, [(0, 0), (0, 1)], [[(0, 0), (0, 1)]]⟩, ?_, rfl, ?_⟩ <;> rfl

/-- Batches of two episodes with a thrown-away episode in between. -/
example : ((Reinforce.new : Reinforce Int Nat).run ⟨2, true⟩
    [⟨0, 1, false, false⟩, ⟨1, 5, true, false⟩, ⟨2, 7, false, true⟩, ⟨3, 2, true, false⟩,
     ⟨4, 2, false, false⟩]).map (fun a => a.steps) = .ok [[(10, 0), (5, 1), (2, 3)]] := by
  decide +kernel

end Pfrl.Returns
