import Verif.Eval.BatchEpisodes

/-!
# `train_agent` (C42)

The loop looks at its environment, its agent, its hooks and its evaluator only through what their calls return, and
each call may raise.  What they return is given by streams indexed by the number of the step in this run; which
calls raise is given by an arbitrary predicate on the position of a call in the sequence of all calls.
-/

namespace Pfrl.Train

open Pfrl.Eval (Out)

variable {R : Type _}

/-! ## Model -/

inductive Suffix where
  | checkpoint
  | except
  | finish
  deriving DecidableEq, Repr

/-- A call of the training loop on the outside world. -/
inductive Call where
  | reset
  | act
  | step
  | observe (done reset : Bool)
  | hook (i t : Nat)
  | statistics
  | evaluate (t episodes : Nat)
  | save (t : Nat) (suffix : Suffix)
  deriving DecidableEq, Repr

/-- The arguments of `train_agent`, `pfrl/experiments/train_agent.py:24-37`. -/
structure Cfg where
  steps : Nat
  offset : Nat
  maxLen : Option Nat
  /-- `checkpoint_freq`; `None` and 0 both mean no checkpoints -/
  checkpointFreq : Nat
  hooks : Nat
  evaluator : Bool
  evalDuringEpisode : Bool
  deriving DecidableEq, Repr

/-- What the world answers in the `k`-th step of this run: the result of `env.step`; whether
`evaluate_if_necessary` returned a score; whether the evaluator's `max_score` has reached
`successful_score` (never, if that is `None`). -/
structure World (R : Type _) where
  out : Nat → Out R
  scored : Nat → Bool
  reached : Nat → Bool

/-- How an iteration of the loop ends. -/
inductive Flow where
  | next
  | break_
  deriving DecidableEq, Repr

/-- One iteration of the loop as long as no call raises, `train_agent.py:54-101`: the calls it makes, each with
the value of `t` at the time, how it ends, and the new `episode_len` and `episode_idx`.  `k` is the number of
iterations before, so that `t = offset + k` at the beginning. -/
def body (c : Cfg) (w : World R) (k episodeLen episodeIdx : Nat) : List (Nat × Call) × Flow × Nat × Nat :=
  let t := c.offset + k
  let l1 := [(t, Call.act), (t, .step)]
  let o := w.out k
  let t := t + 1
  let episodeLen := episodeLen + 1
  let reset := some episodeLen == c.maxLen || o.needsReset
  let l2 := [(t, Call.observe o.done reset)]
  let l3 := (List.range c.hooks).map fun i => (t, Call.hook i t)
  let episodeEnd := o.done || reset || t == c.steps
  let l4 := if episodeEnd then [(t, Call.statistics)] else []
  let episodeIdx := if episodeEnd then episodeIdx + 1 else episodeIdx
  let evaluates := c.evaluator && (episodeEnd || c.evalDuringEpisode)
  let l5 := if evaluates then
      (t, Call.evaluate t episodeIdx) :: (if w.scored k then [(t, Call.statistics)] else [])
    else []
  let calls := l1 ++ l2 ++ l3 ++ l4 ++ l5
  if evaluates && w.reached k then (calls, .break_, episodeLen, episodeIdx)
  else if episodeEnd && t == c.steps then (calls, .break_, episodeLen, episodeIdx)
  else
    let l6 := if episodeEnd then [(t, Call.reset)] else []
    let l7 := if c.checkpointFreq ≠ 0 ∧ t % c.checkpointFreq = 0 then [(t, Call.save t .checkpoint)] else []
    (calls ++ l6 ++ l7, .next, if episodeEnd then 0 else episodeLen, episodeIdx)

/-- `while t < steps`, `train_agent.py:53-101`, as long as no call raises: the calls, and the number of
iterations made in all.  The loop makes at most `steps - offset` iterations; the fuel is that number. -/
def loop (c : Cfg) (w : World R) : Nat → Nat → Nat → Nat → List (Nat × Call) × Nat
  | 0, k, _, _ => ([], k)
  | fuel + 1, k, episodeLen, episodeIdx =>
    if c.offset + k < c.steps then
      let b := body c w k episodeLen episodeIdx
      match b.2.1 with
      | .break_ => (b.1, k + 1)
      | .next =>
        let r := loop c w fuel (k + 1) b.2.2.1 b.2.2.2
        (b.1 ++ r.1, r.2)
    else ([], k)

/-- Making calls until one raises: the calls made, and the value of `t` at the one that raised. -/
def attempt (raises : Nat → Bool) : Nat → List (Nat × Call) → List Call × Option Nat
  | _, [] => ([], none)
  | pos, (t, c) :: cs =>
    if raises pos then ([c], some t)
    else (c :: (attempt raises (pos + 1) cs).1, (attempt raises (pos + 1) cs).2)

/-- What a run did, and whether it ended by an exception. -/
structure Run where
  calls : List Call
  raised : Bool
  deriving DecidableEq, Repr

/-- `train_agent`, `train_agent.py:24-111`.  `raises p` says whether the `p`-th call of the run raises.  The
first `env.reset()` and the last save are outside the `try`.  Saving in the `except` clause is taken not to
raise again.  An exception can be raised by a call; a `KeyboardInterrupt` between two calls is treated as one in
the next call. -/
def trainAgent (c : Cfg) (w : World R) (raises : Nat → Bool) : Run :=
  if raises 0 then ⟨[.reset], true⟩
  else
    let r := loop c w (c.steps - c.offset) 0 0 0
    match attempt raises 1 r.1 with
    | (calls, some t) => ⟨[.reset] ++ calls ++ [.save t .except], true⟩
    | (calls, none) =>
      ⟨[.reset] ++ calls ++ [.save (c.offset + r.2) .finish], raises (1 + calls.length)⟩

/-! ## Specification -/

/-- Does the `k`-th step end an episode of the environment? -/
def Spec.ends (maxLen : Option Nat) (o : Nat → Out R) (k : Nat) : Bool :=
  Eval.Batch.Spec.start maxLen o (k + 1) == k + 1

/-- The calls of an agent and its environment in the `k`-th step: `done` says that the environment says so, `reset`
that the episode is cut by the length limit or on the request of the environment. -/
def Spec.interaction (maxLen : Option Nat) (o : Nat → Out R) (k : Nat) : List Call :=
  [.act, .step, .observe (o k).done
    (decide (maxLen = some (k + 1 - Eval.Batch.Spec.start maxLen o k)) || (o k).needsReset)]

/-- Is this a call on the environment, or on the agent other than for statistics or saving? -/
def Spec.isInteraction : Call → Bool
  | .reset => true
  | .act => true
  | .step => true
  | .observe _ _ => true
  | _ => false

/-- The hook calls in a list of calls, as pairs (hook, step). -/
def Spec.hookCalls : List Call → List (Nat × Nat)
  | [] => []
  | .hook i t :: l => (i, t) :: Spec.hookCalls l
  | _ :: l => Spec.hookCalls l

/-- The steps at which a list of calls saves the agent with this suffix. -/
def Spec.saves (s : Suffix) : List Call → List Nat
  | [] => []
  | .save t s' :: l => if s' = s then t :: Spec.saves s l else Spec.saves s l
  | _ :: l => Spec.saves s l

/-- The steps at which a list of calls asks for an evaluation. -/
def Spec.evaluations : List Call → List Nat
  | [] => []
  | .evaluate t _ :: l => t :: Spec.evaluations l
  | _ :: l => Spec.evaluations l

/-! ## Lemmas -/

/-- The calls of the `k`-th step, in closed form. -/
def stepCalls (c : Cfg) (w : World R) (idx : Nat → Nat) (k : Nat) (last : Bool) : List Call :=
  Spec.interaction c.maxLen w.out k ++
    (List.range c.hooks).map (fun i => Call.hook i (c.offset + k + 1)) ++
    (if Spec.ends c.maxLen w.out k || c.offset + k + 1 == c.steps then [Call.statistics] else []) ++
    (if c.evaluator && ((Spec.ends c.maxLen w.out k || c.offset + k + 1 == c.steps) || c.evalDuringEpisode) then
      Call.evaluate (c.offset + k + 1) (idx (k + 1)) :: (if w.scored k then [Call.statistics] else [])
    else []) ++
    (if last then []
    else (if Spec.ends c.maxLen w.out k then [Call.reset] else []) ++
      (if c.checkpointFreq ≠ 0 ∧ (c.offset + k + 1) % c.checkpointFreq = 0 then
        [Call.save (c.offset + k + 1) .checkpoint] else []))

/-- Is an evaluation asked for after step `k`? -/
def evaluates (c : Cfg) (w : World R) (k : Nat) : Bool :=
  c.evaluator && ((Spec.ends c.maxLen w.out k || c.offset + k + 1 == c.steps) || c.evalDuringEpisode)

/-- Does the run stop after step `k`? -/
def stops (c : Cfg) (w : World R) (k : Nat) : Bool :=
  (evaluates c w k && w.reached k) || c.offset + k + 1 == c.steps

/-- `episode_idx` after `k` steps. -/
def episodeIdx (c : Cfg) (w : World R) : Nat → Nat
  | 0 => 0
  | k + 1 => if Spec.ends c.maxLen w.out k || c.offset + k + 1 == c.steps then episodeIdx c w k + 1
    else episodeIdx c w k

/-- The value of `t` at the calls of an iteration. -/
def tOf (c : Cfg) (k : Nat) : Call → Nat
  | .act => c.offset + k
  | .step => c.offset + k
  | _ => c.offset + k + 1

theorem ends_eq (maxLen : Option Nat) (o : Nat → Out R) (k : Nat) :
    Spec.ends maxLen o k = ((o k).done || (some (k - Eval.Batch.Spec.start maxLen o k + 1) == maxLen
      || (o k).needsReset)) := by
  unfold Spec.ends
  rw [Eval.Batch.start_eq_iff, Eval.Batch.ended]
  have : (some (k - Eval.Batch.Spec.start maxLen o k + 1) == maxLen) =
      decide (some (k - Eval.Batch.Spec.start maxLen o k + 1) = maxLen) := by
    rw [Bool.eq_iff_iff, beq_iff_eq, decide_eq_true_eq]
  rw [this]
  cases decide (some (k - Eval.Batch.Spec.start maxLen o k + 1) = maxLen) <;> cases (o k).needsReset <;>
    cases (o k).done <;> rfl

theorem body_calls (c : Cfg) (w : World R) (k : Nat) :
    body c w k (k - Eval.Batch.Spec.start c.maxLen w.out k) (episodeIdx c w k) =
      ((stepCalls c w (episodeIdx c w) k (stops c w k)).map (fun x => (tOf c k x, x)),
        if stops c w k then Flow.break_ else .next,
        if stops c w k then k - Eval.Batch.Spec.start c.maxLen w.out k + 1
          else k + 1 - Eval.Batch.Spec.start c.maxLen w.out (k + 1),
        episodeIdx c w (k + 1)) := by
  have hle := Eval.Batch.start_le c.maxLen w.out k
  have hends := ends_eq c.maxLen w.out k
  have hsucc : k + 1 - Eval.Batch.Spec.start c.maxLen w.out (k + 1) =
      if Spec.ends c.maxLen w.out k then 0 else k - Eval.Batch.Spec.start c.maxLen w.out k + 1 := by
    have h1 := Eval.Batch.start_succ c.maxLen w.out k
    have h2 := Eval.Batch.start_eq_iff c.maxLen w.out k
    rw [h1]
    unfold Spec.ends
    rw [h2]
    split
    · simp
    · omega
  have hobs : (decide (c.maxLen = some (k + 1 - Eval.Batch.Spec.start c.maxLen w.out k)) || (w.out k).needsReset)
      = (some (k - Eval.Batch.Spec.start c.maxLen w.out k + 1) == c.maxLen || (w.out k).needsReset) := by
    have h3 : k + 1 - Eval.Batch.Spec.start c.maxLen w.out k = k - Eval.Batch.Spec.start c.maxLen w.out k + 1 := by
      omega
    rw [h3]
    congr 1
    rw [Bool.eq_iff_iff, beq_iff_eq, decide_eq_true_eq]
    exact eq_comm
  unfold body
  simp only [Nat.add_assoc c.offset k 1] at *
  simp only [← hobs]
  rw [← hobs] at hends
  have hend : ((w.out k).done || (decide (c.maxLen = some (k + 1 - Eval.Batch.Spec.start c.maxLen w.out k))
      || (w.out k).needsReset) || c.offset + (k + 1) == c.steps)
      = (Spec.ends c.maxLen w.out k || c.offset + (k + 1) == c.steps) := by rw [hends]
  simp only [hend]
  have hidx : (if (Spec.ends c.maxLen w.out k || c.offset + (k + 1) == c.steps) = true then episodeIdx c w k + 1
      else episodeIdx c w k) = episodeIdx c w (k + 1) := by
    rw [episodeIdx]; rfl
  simp only [hidx]
  have hev : (c.evaluator && (Spec.ends c.maxLen w.out k || c.offset + (k + 1) == c.steps || c.evalDuringEpisode))
      = evaluates c w k := rfl
  simp only [hev]
  have hmap : ∀ l : List Call, (∀ x ∈ l, tOf c k x = c.offset + (k + 1)) →
      l.map (fun x => (tOf c k x, x)) = l.map fun x => (c.offset + (k + 1), x) := by
    intro l hl
    apply List.map_congr_left
    intro x hx
    rw [hl x hx]
  by_cases hs : stops c w k = true
  · have hs' : (evaluates c w k && w.reached k) = true ∨
        ((Spec.ends c.maxLen w.out k || c.offset + (k + 1) == c.steps) &&
          (c.offset + (k + 1) == c.steps)) = true := by
      unfold stops at hs
      rw [Bool.or_eq_true] at hs
      rcases hs with h | h
      · exact .inl h
      · right
        have h' : (c.offset + (k + 1) == c.steps) = true := h
        rw [h']; simp
    have hcalls : [(c.offset + k, Call.act), (c.offset + k, Call.step)] ++
        [(c.offset + (k + 1), Call.observe (w.out k).done
          (decide (c.maxLen = some (k + 1 - Eval.Batch.Spec.start c.maxLen w.out k)) || (w.out k).needsReset))] ++
        List.map (fun i => (c.offset + (k + 1), Call.hook i (c.offset + (k + 1)))) (List.range c.hooks) ++
        (if (Spec.ends c.maxLen w.out k || c.offset + (k + 1) == c.steps) = true then
          [(c.offset + (k + 1), Call.statistics)] else []) ++
        (if evaluates c w k = true then
          (c.offset + (k + 1), Call.evaluate (c.offset + (k + 1)) (episodeIdx c w (k + 1))) ::
            (if w.scored k = true then [(c.offset + (k + 1), Call.statistics)] else [])
        else []) = (stepCalls c w (episodeIdx c w) k true).map (fun x => (tOf c k x, x)) := by
      unfold stepCalls Spec.interaction
      simp only [if_true, List.append_nil, List.map_append, List.map_map]
      have e1 : (if evaluates c w k = true then
          (c.offset + (k + 1), Call.evaluate (c.offset + (k + 1)) (episodeIdx c w (k + 1))) ::
            (if w.scored k = true then [(c.offset + (k + 1), Call.statistics)] else [])
        else []) = List.map (fun x => (tOf c k x, x)) (if evaluates c w k = true then
          Call.evaluate (c.offset + k + 1) (episodeIdx c w (k + 1)) ::
            (if w.scored k = true then [Call.statistics] else []) else []) := by
        split
        · split <;> rfl
        · rfl
      have e2 : (if (Spec.ends c.maxLen w.out k || c.offset + (k + 1) == c.steps) = true then
          [(c.offset + (k + 1), Call.statistics)] else []) = List.map (fun x => (tOf c k x, x))
          (if (Spec.ends c.maxLen w.out k || c.offset + k + 1 == c.steps) = true then [Call.statistics] else []) := by
        change (if (Spec.ends c.maxLen w.out k || c.offset + k + 1 == c.steps) = true then _ else _) = _
        split <;> rfl
      rw [e1, e2]
      rfl
    rw [hs, if_pos rfl, if_pos rfl]
    rcases hs' with h | h
    · rw [if_pos h, hcalls]
    · by_cases h' : (evaluates c w k && w.reached k) = true
      · rw [if_pos h', hcalls]
      · rw [if_neg h', if_pos h, hcalls]
  · have hs1 : ¬ (evaluates c w k && w.reached k) = true := fun h => hs (by unfold stops; rw [h]; rfl)
    have hs2 : (c.offset + (k + 1) == c.steps) = false := by
      rw [← Bool.not_eq_true]
      intro h
      apply hs
      unfold stops
      have h' : (c.offset + k + 1 == c.steps) = true := h
      rw [h']; simp
    rw [Bool.not_eq_true] at hs
    rw [if_neg hs1]
    simp only [hs2, Bool.and_false, Bool.or_false, Bool.false_eq_true, if_false, hs, hsucc]
    congr 1
    unfold stepCalls Spec.interaction
    have hs2' : (c.offset + k + 1 == c.steps) = false := hs2
    simp only [hs2', Bool.or_false, Bool.false_eq_true, if_false, List.map_append, List.map_map]
    have e1 : (if evaluates c w k = true then
          (c.offset + (k + 1), Call.evaluate (c.offset + (k + 1)) (episodeIdx c w (k + 1))) ::
            (if w.scored k = true then [(c.offset + (k + 1), Call.statistics)] else [])
        else []) = List.map (fun x => (tOf c k x, x))
          (if (c.evaluator && (Spec.ends c.maxLen w.out k || c.evalDuringEpisode)) = true then
          Call.evaluate (c.offset + k + 1) (episodeIdx c w (k + 1)) ::
            (if w.scored k = true then [Call.statistics] else []) else []) := by
      have : evaluates c w k = (c.evaluator && (Spec.ends c.maxLen w.out k || c.evalDuringEpisode)) := by
        unfold evaluates; rw [hs2']; simp
      rw [this]
      split
      · split <;> rfl
      · rfl
    have e2 : (if Spec.ends c.maxLen w.out k = true then
          [(c.offset + (k + 1), Call.statistics)] else []) = List.map (fun x => (tOf c k x, x))
          (if Spec.ends c.maxLen w.out k = true then [Call.statistics] else []) := by
      split <;> rfl
    have e3 : (if Spec.ends c.maxLen w.out k = true then
          [(c.offset + (k + 1), Call.reset)] else []) = List.map (fun x => (tOf c k x, x))
          (if Spec.ends c.maxLen w.out k = true then [Call.reset] else []) := by
      split <;> rfl
    have e4 : (if c.checkpointFreq ≠ 0 ∧ (c.offset + (k + 1)) % c.checkpointFreq = 0 then
          [(c.offset + (k + 1), Call.save (c.offset + (k + 1)) .checkpoint)] else []) =
          List.map (fun x => (tOf c k x, x))
          (if c.checkpointFreq ≠ 0 ∧ (c.offset + k + 1) % c.checkpointFreq = 0 then
            [Call.save (c.offset + k + 1) .checkpoint] else []) := by
      change (if c.checkpointFreq ≠ 0 ∧ (c.offset + k + 1) % c.checkpointFreq = 0 then _ else _) = _
      split <;> rfl
    rw [e1, e2, e3, e4]
    simp only [List.append_assoc]
    rfl

/-- The run of the loop in closed form: it makes `K` iterations, and stops at the first step that calls for
it. -/
theorem loop_calls (c : Cfg) (w : World R) : ∀ (fuel k : Nat), c.steps - (c.offset + k) ≤ fuel →
    ∃ K, k ≤ K ∧ (loop c w fuel k (k - Eval.Batch.Spec.start c.maxLen w.out k) (episodeIdx c w k)).2 = K ∧
      (loop c w fuel k (k - Eval.Batch.Spec.start c.maxLen w.out k) (episodeIdx c w k)).1 =
        (List.range' k (K - k)).flatMap (fun j =>
          (stepCalls c w (episodeIdx c w) j (stops c w j)).map fun x => (tOf c j x, x)) ∧
      (∀ j, k ≤ j → j + 1 < K → stops c w j = false) ∧
      (k < K → stops c w (K - 1) = true) ∧ (K = k ↔ c.steps ≤ c.offset + k) ∧
      (k < K → c.offset + K ≤ c.steps)
  | 0, k, hf => by
    refine ⟨k, le_refl _, rfl, by simp [loop], by intro j h1 h2; omega, by omega, ?_, by omega⟩
    simp; omega
  | fuel + 1, k, hf => by
    unfold loop
    by_cases hlt : c.offset + k < c.steps
    · rw [if_pos hlt]
      simp only [body_calls]
      by_cases hs : stops c w k = true
      · simp only [hs, if_true]
        refine ⟨k + 1, by omega, rfl, ?_, by intro j h1 h2; omega, fun _ => hs, ?_, fun _ => by omega⟩
        · rw [Nat.add_sub_cancel_left]
          simp [hs]
        · constructor <;> intro <;> omega
      · rw [Bool.not_eq_true] at hs
        simp only [hs, Bool.false_eq_true, if_false]
        have hne : c.offset + k + 1 ≠ c.steps := by
          intro h
          unfold stops at hs
          rw [h] at hs
          simp at hs
        obtain ⟨K, h1, h2, h3, h4, h5, h6, h7⟩ := loop_calls c w fuel (k + 1) (by omega)
        have hK : k + 1 < K := by
          rcases Nat.lt_or_ge (k + 1) K with h | h
          · exact h
          · have : K = k + 1 := by omega
            have := h6.mp this
            omega
        refine ⟨K, by omega, h2, ?_, ?_, fun _ => h5 hK, ?_, fun _ => h7 hK⟩
        · rw [h3]
          have hc : K - k = (K - (k + 1)) + 1 := by omega
          rw [hc, List.range'_succ, List.flatMap_cons, hs]
        · intro j hj1 hj2
          rcases Nat.lt_or_ge k j with h | h
          · exact h4 j h hj2
          · have : j = k := by omega
            subst this; exact hs
        · constructor <;> intro <;> omega
    · rw [if_neg hlt]
      refine ⟨k, le_refl _, rfl, by simp, by intro j h1 h2; omega, by omega, ?_, by omega⟩
      simp; omega

/-! Properties of `attempt`. -/

theorem attempt_none {raises : Nat → Bool} : ∀ {pos : Nat} {l : List (Nat × Call)},
    (∀ j, j < l.length → raises (pos + j) = false) → attempt raises pos l = (l.map Prod.snd, none)
  | _, [], _ => rfl
  | pos, (t, c) :: cs, h => by
    unfold attempt
    have h0 := h 0 (by simp)
    rw [Nat.add_zero] at h0
    rw [h0, attempt_none (pos := pos + 1) (l := cs) (fun j hj => by
      have := h (j + 1) (by simp; omega)
      rw [← this]; congr 1; omega)]
    rfl

theorem attempt_some {raises : Nat → Bool} : ∀ {pos : Nat} {l : List (Nat × Call)} (j : Nat),
    j < l.length → raises (pos + j) = true → (∀ i, i < j → raises (pos + i) = false) →
    attempt raises pos l = ((l.take (j + 1)).map Prod.snd, (l[j]?).map Prod.fst)
  | _, [], j, h, _, _ => by simp at h
  | pos, (t, c) :: cs, 0, _, h, _ => by
    unfold attempt
    rw [Nat.add_zero] at h
    rw [h]
    simp
  | pos, (t, c) :: cs, j + 1, hj, h, hlt => by
    unfold attempt
    have h0 := hlt 0 (by omega)
    rw [Nat.add_zero] at h0
    rw [h0, attempt_some (pos := pos + 1) (l := cs) j (by simpa using hj) (by rw [← h]; congr 1; omega)
      (fun i hi => by rw [← hlt (i + 1) (by omega)]; congr 1; omega)]
    simp

theorem first_raise (raises : Nat → Bool) (pos n : Nat) :
    (∀ j, j < n → raises (pos + j) = false) ∨
    ∃ j, j < n ∧ raises (pos + j) = true ∧ ∀ i, i < j → raises (pos + i) = false := by
  induction n with
  | zero => left; intro j hj; omega
  | succ n ih =>
    rcases ih with h | ⟨j, h1, h2, h3⟩
    · by_cases hn : raises (pos + n) = true
      · exact .inr ⟨n, by omega, hn, h⟩
      · left
        intro j hj
        rcases Nat.lt_or_ge j n with h' | h'
        · exact h j h'
        · have : j = n := by omega
          subst this; simpa using hn
    · exact .inr ⟨j, by omega, h2, h3⟩

/-! Observations of the calls of a step. -/

theorem hookCalls_append (l l' : List Call) :
    Spec.hookCalls (l ++ l') = Spec.hookCalls l ++ Spec.hookCalls l' := by
  induction l with
  | nil => rfl
  | cons x l ih => cases x <;> simp [Spec.hookCalls, ih]

theorem saves_append (s : Suffix) (l l' : List Call) :
    Spec.saves s (l ++ l') = Spec.saves s l ++ Spec.saves s l' := by
  induction l with
  | nil => rfl
  | cons x l ih =>
    cases x with
    | save t s' => simp only [List.cons_append, Spec.saves]; split <;> simp [ih]
    | _ => simpa [Spec.saves] using ih

theorem evaluations_append (l l' : List Call) :
    Spec.evaluations (l ++ l') = Spec.evaluations l ++ Spec.evaluations l' := by
  induction l with
  | nil => rfl
  | cons x l ih => cases x <;> simp [Spec.evaluations, ih]

theorem flatMap_hom {α β γ : Type _} (h : List β → List γ) (h0 : h [] = [])
    (happ : ∀ l l', h (l ++ l') = h l ++ h l') (f : α → List β) (l : List α) :
    h (l.flatMap f) = l.flatMap fun a => h (f a) := by
  induction l with
  | nil => exact h0
  | cons a l ih => rw [List.flatMap_cons, List.flatMap_cons, happ, ih]

theorem hookCalls_map (n t : Nat) : Spec.hookCalls ((List.range n).map fun i => Call.hook i t) =
    (List.range n).map fun i => (i, t) := by
  generalize List.range n = l
  induction l with
  | nil => rfl
  | cons i l ih => simp only [List.map_cons, Spec.hookCalls, ih]

theorem stepCalls_hooks (c : Cfg) (w : World R) (idx : Nat → Nat) (k : Nat) (last : Bool) :
    Spec.hookCalls (stepCalls c w idx k last) = (List.range c.hooks).map fun i => (i, c.offset + k + 1) := by
  unfold stepCalls Spec.interaction
  simp only [hookCalls_append, hookCalls_map]
  have e1 : Spec.hookCalls (if (Spec.ends c.maxLen w.out k || c.offset + k + 1 == c.steps) = true then
      [Call.statistics] else []) = [] := by split <;> rfl
  have e2 : Spec.hookCalls (if (c.evaluator && ((Spec.ends c.maxLen w.out k || c.offset + k + 1 == c.steps)
      || c.evalDuringEpisode)) = true then
      Call.evaluate (c.offset + k + 1) (idx (k + 1)) :: (if w.scored k = true then [Call.statistics] else [])
    else []) = [] := by split <;> (try split) <;> rfl
  have e3 : Spec.hookCalls (if last = true then []
    else (if Spec.ends c.maxLen w.out k = true then [Call.reset] else []) ++
      (if c.checkpointFreq ≠ 0 ∧ (c.offset + k + 1) % c.checkpointFreq = 0 then
        [Call.save (c.offset + k + 1) .checkpoint] else [])) = [] := by
    split
    · rfl
    · split <;> split <;> rfl
  rw [e1, e2, e3]
  simp [Spec.hookCalls]

theorem filter_hooks (n t : Nat) : ((List.range n).map fun i => Call.hook i t).filter Spec.isInteraction = [] := by
  rw [List.filter_eq_nil_iff]
  intro x hx
  obtain ⟨i, _, rfl⟩ := List.mem_map.mp hx
  simp [Spec.isInteraction]

theorem stepCalls_interaction (c : Cfg) (w : World R) (idx : Nat → Nat) (k : Nat) (last : Bool) :
    (stepCalls c w idx k last).filter Spec.isInteraction = Spec.interaction c.maxLen w.out k ++
      (if Spec.ends c.maxLen w.out k && !last then [Call.reset] else []) := by
  unfold stepCalls
  simp only [List.filter_append, filter_hooks]
  have e0 : (Spec.interaction c.maxLen w.out k).filter Spec.isInteraction
      = Spec.interaction c.maxLen w.out k := rfl
  have e1 : (if (Spec.ends c.maxLen w.out k || c.offset + k + 1 == c.steps) = true then
      [Call.statistics] else []).filter Spec.isInteraction = [] := by split <;> rfl
  have e2 : (if (c.evaluator && ((Spec.ends c.maxLen w.out k || c.offset + k + 1 == c.steps)
      || c.evalDuringEpisode)) = true then
      Call.evaluate (c.offset + k + 1) (idx (k + 1)) :: (if w.scored k = true then [Call.statistics] else [])
    else []).filter Spec.isInteraction = [] := by split <;> (try split) <;> rfl
  have e3 : (if last = true then []
    else (if Spec.ends c.maxLen w.out k = true then [Call.reset] else []) ++
      (if c.checkpointFreq ≠ 0 ∧ (c.offset + k + 1) % c.checkpointFreq = 0 then
        [Call.save (c.offset + k + 1) .checkpoint] else [])).filter Spec.isInteraction =
      if Spec.ends c.maxLen w.out k && !last then [Call.reset] else [] := by
    cases last with
    | true => simp
    | false =>
      simp only [Bool.false_eq_true, if_false, Bool.not_false, Bool.and_true]
      split <;> split <;> rfl
  rw [e0, e1, e2, e3]
  simp

theorem saves_hooks (s : Suffix) (n t : Nat) : Spec.saves s ((List.range n).map fun i => Call.hook i t) = [] := by
  generalize List.range n = l
  induction l with
  | nil => rfl
  | cons i l ih => simpa [Spec.saves] using ih

theorem stepCalls_saves (c : Cfg) (w : World R) (idx : Nat → Nat) (k : Nat) (last : Bool) (s : Suffix) :
    Spec.saves s (stepCalls c w idx k last) =
      if last = false ∧ s = .checkpoint ∧ c.checkpointFreq ≠ 0 ∧ (c.offset + k + 1) % c.checkpointFreq = 0 then
        [c.offset + k + 1] else [] := by
  unfold stepCalls
  simp only [saves_append, saves_hooks]
  have e0 : Spec.saves s (Spec.interaction c.maxLen w.out k) = [] := rfl
  have e1 : Spec.saves s (if (Spec.ends c.maxLen w.out k || c.offset + k + 1 == c.steps) = true then
      [Call.statistics] else []) = [] := by split <;> rfl
  have e2 : Spec.saves s (if (c.evaluator && ((Spec.ends c.maxLen w.out k || c.offset + k + 1 == c.steps)
      || c.evalDuringEpisode)) = true then
      Call.evaluate (c.offset + k + 1) (idx (k + 1)) :: (if w.scored k = true then [Call.statistics] else [])
    else []) = [] := by split <;> (try split) <;> rfl
  have e3 : Spec.saves s (if last = true then []
    else (if Spec.ends c.maxLen w.out k = true then [Call.reset] else []) ++
      (if c.checkpointFreq ≠ 0 ∧ (c.offset + k + 1) % c.checkpointFreq = 0 then
        [Call.save (c.offset + k + 1) .checkpoint] else [])) =
      if last = false ∧ s = .checkpoint ∧ c.checkpointFreq ≠ 0 ∧ (c.offset + k + 1) % c.checkpointFreq = 0 then
        [c.offset + k + 1] else [] := by
    cases last with
    | true => simp [Spec.saves]
    | false =>
      simp only [Bool.false_eq_true, if_false, true_and, saves_append]
      have e4 : Spec.saves s (if Spec.ends c.maxLen w.out k = true then [Call.reset] else []) = [] := by
        split <;> rfl
      rw [e4, List.nil_append]
      by_cases hc : c.checkpointFreq ≠ 0 ∧ (c.offset + k + 1) % c.checkpointFreq = 0
      · rw [if_pos hc]
        by_cases hs : s = .checkpoint
        · rw [if_pos ⟨hs, hc⟩]; subst hs; simp [Spec.saves]
        · rw [if_neg (fun h => hs h.1)]
          simp only [Spec.saves]
          rw [if_neg (fun h => hs h.symm)]
      · rw [if_neg hc, if_neg (fun h => hc h.2)]; rfl
  rw [e0, e1, e2, e3]
  simp

theorem evaluations_hooks (n t : Nat) : Spec.evaluations ((List.range n).map fun i => Call.hook i t) = [] := by
  generalize List.range n = l
  induction l with
  | nil => rfl
  | cons i l ih => simpa [Spec.evaluations] using ih

theorem stepCalls_evaluations (c : Cfg) (w : World R) (idx : Nat → Nat) (k : Nat) (last : Bool) :
    Spec.evaluations (stepCalls c w idx k last) = if evaluates c w k then [c.offset + k + 1] else [] := by
  unfold stepCalls
  simp only [evaluations_append, evaluations_hooks]
  have e0 : Spec.evaluations (Spec.interaction c.maxLen w.out k) = [] := rfl
  have e1 : Spec.evaluations (if (Spec.ends c.maxLen w.out k || c.offset + k + 1 == c.steps) = true then
      [Call.statistics] else []) = [] := by split <;> rfl
  have e2 : Spec.evaluations (if (c.evaluator && ((Spec.ends c.maxLen w.out k || c.offset + k + 1 == c.steps)
      || c.evalDuringEpisode)) = true then
      Call.evaluate (c.offset + k + 1) (idx (k + 1)) :: (if w.scored k = true then [Call.statistics] else [])
    else []) = if evaluates c w k then [c.offset + k + 1] else [] := by
    unfold evaluates
    split <;> (try split) <;> rfl
  have e3 : Spec.evaluations (if last = true then []
    else (if Spec.ends c.maxLen w.out k = true then [Call.reset] else []) ++
      (if c.checkpointFreq ≠ 0 ∧ (c.offset + k + 1) % c.checkpointFreq = 0 then
        [Call.save (c.offset + k + 1) .checkpoint] else [])) = [] := by
    split
    · rfl
    · split <;> split <;> rfl
  rw [e0, e1, e2, e3]
  simp

/-- The annotation of each call is the offset plus the number of environment steps completed. -/
def Good (n : Nat) (l : List (Nat × Call)) : Prop :=
  ∀ j x, l[j]? = some x → x.1 = n + ((l.take j).map Prod.snd).count .step

theorem Good.append {n : Nat} {l l' : List (Nat × Call)} (h : Good n l)
    (h' : Good (n + (l.map Prod.snd).count .step) l') : Good n (l ++ l') := by
  intro j x hx
  rcases Nat.lt_or_ge j l.length with hlt | hge
  · rw [List.getElem?_append_left hlt] at hx
    rw [List.take_append_of_le_length (by omega)]
    exact h j x hx
  · rw [List.getElem?_append_right hge] at hx
    rw [h' _ x hx, List.take_append, List.map_append, List.count_append,
      List.take_of_length_le (l := l) hge]
    omega

theorem good_stepCalls (c : Cfg) (w : World R) (idx : Nat → Nat) (k : Nat) (last : Bool) :
    Good (c.offset + k) ((stepCalls c w idx k last).map fun x => (tOf c k x, x)) ∧
    (stepCalls c w idx k last).count .step = 1 := by
  -- after the first two calls there is no other step
  obtain ⟨rest, hrest, hno⟩ : ∃ rest, stepCalls c w idx k last = Call.act :: Call.step :: rest ∧
      ∀ x ∈ rest, x ≠ .act ∧ x ≠ .step := by
    refine ⟨(stepCalls c w idx k last).drop 2, rfl, ?_⟩
    intro x hx
    unfold stepCalls Spec.interaction at hx
    simp only [List.cons_append, List.drop_succ_cons, List.drop_zero] at hx
    simp only [List.mem_append, List.mem_map, List.nil_append, List.mem_cons] at hx
    rcases hx with hx | ((⟨i, _, rfl⟩ | hx) | hx) | hx
    · subst hx; simp
    · simp
    · split at hx
      · simp at hx; subst hx; simp
      · cases hx
    · split at hx
      · rcases List.mem_cons.mp hx with rfl | hx
        · simp
        · split at hx <;> simp at hx
          subst hx; simp
      · simp at hx
    · split at hx
      · simp at hx
      · rcases List.mem_append.mp hx with hx | hx
        · split at hx <;> simp at hx
          subst hx; simp
        · split at hx <;> simp at hx
          subst hx; simp
  rw [hrest]
  have hcount : rest.count .step = 0 := List.count_eq_zero.mpr fun h => (hno _ h).2 rfl
  have hcount' : ∀ j, (rest.take j).count .step = 0 := fun j =>
    List.count_eq_zero.mpr fun h => (hno _ (List.mem_of_mem_take h)).2 rfl
  constructor
  · intro j x hx
    rcases j with _ | _ | j
    · simp [tOf] at hx; subst hx; simp
    · simp [tOf] at hx; subst hx; simp
    · simp only [List.map_cons, List.getElem?_cons_succ, List.getElem?_map] at hx
      obtain ⟨y, hy, rfl⟩ := Option.map_eq_some_iff.mp hx
      have hy' := hno y (List.mem_of_getElem? hy)
      have ht : tOf c k y = c.offset + k + 1 := by
        cases y <;> simp_all [tOf]
      simp only [ht, List.map_cons, List.take_succ_cons, List.map_take, List.map_map]
      have : List.map (Prod.snd ∘ fun x => (tOf c k x, x)) rest = rest := by
        rw [show (Prod.snd ∘ fun x => (tOf c k x, x)) = id from rfl, List.map_id]
      rw [this]
      have h1 : (Call.act :: Call.step :: List.take j rest).count .step = 1 := by
        rw [List.count_cons_of_ne (by simp), List.count_cons_self, hcount' j]
      rw [h1]
  · rw [List.count_cons_of_ne (by simp), List.count_cons_self, hcount]

theorem good_blocks (c : Cfg) (w : World R) (idx : Nat → Nat) (last : Nat → Bool) : ∀ (n k : Nat),
    Good (c.offset + k) ((List.range' k n).flatMap fun j =>
      (stepCalls c w idx j (last j)).map fun x => (tOf c j x, x))
  | 0, k => by intro j x h; simp at h
  | n + 1, k => by
    rw [List.range'_succ, List.flatMap_cons]
    obtain ⟨h1, h2⟩ := good_stepCalls c w idx k (last k)
    refine h1.append ?_
    have : List.map Prod.snd ((stepCalls c w idx k (last k)).map fun x => (tOf c k x, x)) =
        stepCalls c w idx k (last k) := by
      rw [List.map_map]; exact List.map_id _
    rw [this, h2, Nat.add_assoc]
    exact good_blocks c w idx last n (k + 1)

/-- The undisturbed run, in closed form. -/
theorem undisturbed (c : Cfg) (w : World R) : ∃ K,
    (loop c w (c.steps - c.offset) 0 0 0).2 = K ∧
    (loop c w (c.steps - c.offset) 0 0 0).1 = (List.range' 0 K).flatMap (fun j =>
      (stepCalls c w (episodeIdx c w) j (decide (j + 1 = K))).map fun x => (tOf c j x, x)) ∧
    (trainAgent c w fun _ => false) = ⟨[.reset] ++ (List.range K).flatMap (fun j =>
      stepCalls c w (episodeIdx c w) j (decide (j + 1 = K))) ++ [.save (c.offset + K) .finish], false⟩ ∧
    (∀ j, j + 1 < K → stops c w j = false) ∧ (0 < K → stops c w (K - 1) = true) ∧
    (K = 0 ↔ c.steps ≤ c.offset) ∧ (0 < K → c.offset + K ≤ c.steps) := by
  obtain ⟨K, h1, h2, h3, h4, h5, h6, h7⟩ := loop_calls c w (c.steps - c.offset) 0 (by omega)
  have h0 : 0 - Eval.Batch.Spec.start c.maxLen w.out 0 = 0 := by simp
  rw [h0] at h2 h3
  simp only [episodeIdx, Nat.sub_zero] at h2 h3
  have h3' : (loop c w (c.steps - c.offset) 0 0 0).1 = (List.range' 0 K).flatMap (fun j =>
      (stepCalls c w (episodeIdx c w) j (decide (j + 1 = K))).map fun x => (tOf c j x, x)) := by
    rw [h3]
    apply List.flatMap_congr
    intro j hj
    rw [List.mem_range'_1] at hj
    by_cases hjK : j + 1 = K
    · have := h5 (by omega)
      rw [show K - 1 = j by omega] at this
      rw [this]
      simp [hjK]
    · rw [h4 j (by omega) (by omega)]
      simp [hjK]
  refine ⟨K, h2, h3', ?_, fun j hj => h4 j (by omega) hj, h5, by simpa using h6, h7⟩
  unfold trainAgent
  simp only [Bool.false_eq_true, if_false]
  rw [attempt_none (fun _ _ => rfl), h3', h2]
  simp only [List.map_flatMap, List.map_map, List.range_eq_range']
  congr 3
  apply List.flatMap_congr
  intro j _
  exact List.map_id _

/-! ## C42 -/

/-- **C42 (steps).** If no call raises, a run of `train_agent` makes `K` steps, where `offset + K ≤ steps`
(`K = 0` if already `steps ≤ offset`).  It makes fewer than `steps - offset` only if the evaluator's best score
reached the success score at an evaluation asked for after its last step; and that never happened before.  The
environment and the agent are called exactly so: the environment is reset at the beginning and after each step
that ends an episode (by `done`, by the length limit, or on request), but not after the last step; and in
each step the agent acts, the environment steps, and the agent observes the result. -/
theorem train_agent_steps (c : Cfg) (w : World R) : ∃ K,
    ((trainAgent c w fun _ => false).raised = false ∧
      ((trainAgent c w fun _ => false).calls.filter Spec.isInteraction) =
      .reset :: (List.range K).flatMap fun k => Spec.interaction c.maxLen w.out k ++
        (if Spec.ends c.maxLen w.out k && decide (k + 1 < K) then [Call.reset] else [])) ∧
    (trainAgent c w fun _ => false).calls.count .step = K ∧
    (K = 0 ↔ c.steps ≤ c.offset) ∧ (0 < K → c.offset + K ≤ c.steps) ∧
    (∀ k, k + 1 < K → c.offset + k + 1 ∈ Spec.evaluations (trainAgent c w fun _ => false).calls →
      w.reached k = false) ∧
    (0 < K → c.offset + K < c.steps →
      c.offset + K ∈ Spec.evaluations (trainAgent c w fun _ => false).calls ∧ w.reached (K - 1) = true) := by
  obtain ⟨K, _, _, hrun, h4, h5, h6, h7⟩ := undisturbed c w
  have hmem : ∀ k, k < K → (c.offset + k + 1 ∈ Spec.evaluations (trainAgent c w fun _ => false).calls ↔
      evaluates c w k = true) := by
    intro k hk
    rw [hrun]
    simp only [evaluations_append, List.mem_append]
    rw [flatMap_hom Spec.evaluations rfl evaluations_append]
    simp only [stepCalls_evaluations]
    simp only [Spec.evaluations, List.not_mem_nil, false_or, or_false, List.mem_flatMap, List.mem_range]
    constructor
    · rintro ⟨j, _, hj⟩
      split at hj
      · next he =>
        simp only [List.mem_singleton] at hj
        have : j = k := by omega
        subst this; exact he
      · simp at hj
    · intro he
      exact ⟨k, hk, by rw [if_pos he]; simp⟩
  refine ⟨K, ⟨by rw [hrun], ?_⟩, ?_, h6, h7, ?_, ?_⟩
  · rw [hrun]
    simp only [List.filter_append]
    rw [flatMap_hom (List.filter Spec.isInteraction) rfl (fun _ _ => List.filter_append _ _)]
    simp only [stepCalls_interaction]
    have e1 : List.filter Spec.isInteraction [Call.save (c.offset + K) .finish] = [] := rfl
    rw [e1, List.append_nil]
    change Call.reset :: _ = _
    congr 1
    apply List.flatMap_congr
    intro k hk
    have hk := List.mem_range.mp hk
    have : (!decide (k + 1 = K)) = decide (k + 1 < K) := by
      rw [Bool.eq_iff_iff]
      simp; omega
    rw [this]
  · rw [hrun]
    simp only [List.count_append]
    have hb : ∀ n, ((List.range n).flatMap fun j => stepCalls c w (episodeIdx c w) j (decide (j + 1 = K))).count .step
        = n := by
      intro n
      induction n with
      | zero => rfl
      | succ n ih =>
        rw [List.range_succ, List.flatMap_append, List.count_append, ih, List.flatMap_singleton,
          (good_stepCalls c w _ n _).2]
    rw [hb]
    have e1 : List.count Call.step [Call.reset] = 0 := rfl
    have e2 : List.count Call.step [Call.save (c.offset + K) .finish] = 0 := by
      rw [List.count_eq_zero]; simp
    omega
  · intro k hk hev
    have he := (hmem k (by omega)).mp hev
    have hs := h4 k hk
    unfold stops at hs
    rw [he] at hs
    simp at hs
    exact hs.1
  · intro hK hlt
    have hs := h5 hK
    have hk1 : c.offset + (K - 1) + 1 = c.offset + K := by omega
    unfold stops at hs
    rw [hk1] at hs
    have hne : (c.offset + K == c.steps) = false := by simp; omega
    rw [hne] at hs
    simp at hs
    refine ⟨?_, hs.2⟩
    rw [← hk1]
    exact (hmem (K - 1) (by omega)).mpr hs.1

/-- **C42 (hooks, evaluations, checkpoints, final save).** If no call raises: every hook is called exactly once
per step, in order, with the step number; evaluations are asked for exactly after the steps that end an
episode or the run (after every step with `eval_during_episode`); the agent is saved as checkpoint exactly
at the multiples of `checkpoint_freq` before the last step; it is saved once as `_finish`, with the number of the last
step, by the last call of all, and never as `_except`. -/
theorem train_agent_saves (c : Cfg) (w : World R) : ∃ K,
    (trainAgent c w fun _ => false).calls.count .step = K ∧
    Spec.hookCalls (trainAgent c w fun _ => false).calls =
      ((List.range K).flatMap fun k => (List.range c.hooks).map fun i => (i, c.offset + k + 1)) ∧
    Spec.evaluations (trainAgent c w fun _ => false).calls =
      ((List.range K).filter fun k => c.evaluator && (Spec.ends c.maxLen w.out k || c.offset + k + 1 == c.steps
        || c.evalDuringEpisode)).map (fun k => c.offset + k + 1) ∧
    Spec.saves .checkpoint (trainAgent c w fun _ => false).calls =
      ((List.range (K - 1)).map fun k => c.offset + k + 1).filter (fun t =>
        decide (c.checkpointFreq ≠ 0) && decide (c.checkpointFreq ∣ t)) ∧
    Spec.saves .except (trainAgent c w fun _ => false).calls = [] ∧
    Spec.saves .finish (trainAgent c w fun _ => false).calls = [c.offset + K] ∧
    (trainAgent c w fun _ => false).calls.getLast? = some (.save (c.offset + K) .finish) := by
  obtain ⟨K0, _, hcount, _⟩ := train_agent_steps c w
  obtain ⟨K, _, _, hrun, h4, h5, h6, h7⟩ := undisturbed c w
  have hK : K0 = K := by
    rw [← hcount, hrun]
    simp only [List.count_append]
    have hb : ∀ n, ((List.range n).flatMap fun j => stepCalls c w (episodeIdx c w) j (decide (j + 1 = K))).count .step
        = n := by
      intro n
      induction n with
      | zero => rfl
      | succ n ih =>
        rw [List.range_succ, List.flatMap_append, List.count_append, ih, List.flatMap_singleton,
          (good_stepCalls c w _ n _).2]
    rw [hb]
    have e1 : List.count Call.step [Call.reset] = 0 := rfl
    have e2 : List.count Call.step [Call.save (c.offset + K) .finish] = 0 := by
      rw [List.count_eq_zero]; simp
    omega
  subst hK
  refine ⟨K0, hcount, ?_, ?_, ?_, ?_, ?_, ?_⟩
  · rw [hrun]
    simp only [hookCalls_append]
    rw [flatMap_hom Spec.hookCalls rfl hookCalls_append]
    simp only [stepCalls_hooks]
    simp [Spec.hookCalls]
  · rw [hrun]
    simp only [evaluations_append]
    rw [flatMap_hom Spec.evaluations rfl evaluations_append]
    simp only [stepCalls_evaluations]
    simp only [Spec.evaluations, List.nil_append, List.append_nil]
    generalize List.range K0 = l
    induction l with
    | nil => rfl
    | cons k l ih =>
      rw [List.flatMap_cons, ih]
      have : evaluates c w k = (c.evaluator && (Spec.ends c.maxLen w.out k || c.offset + k + 1 == c.steps
        || c.evalDuringEpisode)) := rfl
      by_cases he : evaluates c w k = true
      · rw [List.filter_cons_of_pos (by rw [← this]; exact he), if_pos he]; rfl
      · rw [List.filter_cons_of_neg (by rw [← this]; exact he), if_neg he]; rfl
  · rw [hrun]
    simp only [saves_append]
    rw [flatMap_hom (Spec.saves .checkpoint) rfl (saves_append _)]
    simp only [stepCalls_saves]
    simp only [Spec.saves, List.nil_append, reduceCtorEq, if_false, List.append_nil, true_and,
      decide_eq_false_iff_not]
    have hb : ∀ n, n ≤ K0 → ((List.range n).flatMap fun j => if ¬ (j + 1 = K0) ∧ c.checkpointFreq ≠ 0 ∧
        (c.offset + j + 1) % c.checkpointFreq = 0 then [c.offset + j + 1] else []) =
        ((List.range (min n (K0 - 1))).map fun k => c.offset + k + 1).filter (fun t =>
          decide (c.checkpointFreq ≠ 0) && decide (c.checkpointFreq ∣ t)) := by
      intro n
      induction n with
      | zero => intro _; simp
      | succ n ih =>
        intro hn
        rw [List.range_succ, List.flatMap_append, ih (by omega), List.flatMap_singleton]
        by_cases hl : n + 1 = K0
        · have e1 : min (n + 1) (K0 - 1) = min n (K0 - 1) := by omega
          rw [e1, if_neg (fun h => h.1 hl), List.append_nil]
        · have e1 : min (n + 1) (K0 - 1) = min n (K0 - 1) + 1 := by omega
          have e2 : min n (K0 - 1) = n := by omega
          rw [e1, e2, List.range_succ, List.map_append, List.filter_append]
          congr 1
          by_cases hc : c.checkpointFreq ≠ 0 ∧ (c.offset + n + 1) % c.checkpointFreq = 0
          · rw [if_pos ⟨hl, hc⟩]
            simp [hc.1, Nat.dvd_of_mod_eq_zero hc.2]
          · rw [if_neg (fun h => hc h.2)]
            simp only [List.map_cons, List.map_nil]
            rw [List.filter_cons_of_neg]
            · rfl
            · simp only [Bool.and_eq_true, decide_eq_true_eq]
              exact fun h => hc ⟨h.1, Nat.mod_eq_zero_of_dvd h.2⟩
    rw [hb K0 (le_refl _), Nat.min_eq_right (by omega)]
  · rw [hrun]
    simp only [saves_append]
    rw [flatMap_hom (Spec.saves .except) rfl (saves_append _)]
    simp only [stepCalls_saves]
    simp [Spec.saves]
  · rw [hrun]
    simp only [saves_append]
    rw [flatMap_hom (Spec.saves .finish) rfl (saves_append _)]
    simp only [stepCalls_saves]
    simp only [Spec.saves, reduceCtorEq, false_and, and_false, if_false, if_true, List.nil_append]
    rw [List.flatMap_eq_nil_iff.mpr (fun _ _ => rfl)]; rfl
  · rw [hrun]; exact List.getLast?_concat

/-- **C42 (exceptions).** If calls may raise, let `p` be the position of the first call of the undisturbed run
that raises.  Then the run makes exactly the calls of the undisturbed run up to and including that one; and,
unless it is the very first reset or the final save, it then saves the agent as `_except`, once, with the number of
the environment steps completed (counted from the offset) — and never as `_finish`; in every case it raises. -/
theorem train_agent_exception (c : Cfg) (w : World R) (raises : Nat → Bool) {p : Nat}
    (hp : p < (trainAgent c w fun _ => false).calls.length) (hr : raises p = true)
    (hfirst : ∀ q, q < p → raises q = false) :
    let plan := (trainAgent c w fun _ => false).calls
    (trainAgent c w raises).raised = true ∧
    (trainAgent c w raises).calls =
      (if p = 0 ∨ p + 1 = plan.length then plan.take (p + 1)
      else plan.take (p + 1) ++ [.save (c.offset + (plan.take p).count .step) .except]) ∧
    (p + 1 < plan.length → Spec.saves .finish (trainAgent c w raises).calls = []) := by
  intro plan
  obtain ⟨K, hl2, hl1, hrun, _⟩ := undisturbed c w
  have hplan : plan = [.reset] ++ (loop c w (c.steps - c.offset) 0 0 0).1.map Prod.snd ++
      [.save (c.offset + K) .finish] := by
    have : plan = (trainAgent c w fun _ => false).calls := rfl
    rw [this]
    unfold trainAgent
    simp only [Bool.false_eq_true, if_false]
    rw [attempt_none (fun _ _ => rfl), hl2]
  have hgood : Good c.offset (loop c w (c.steps - c.offset) 0 0 0).1 := by
    rw [hl1]
    exact good_blocks c w (episodeIdx c w) (fun j => decide (j + 1 = K)) K 0
  have hnofin : Spec.saves .finish ((loop c w (c.steps - c.offset) 0 0 0).1.map Prod.snd) = [] := by
    rw [hl1]
    simp only [List.map_flatMap, List.map_map]
    rw [flatMap_hom (Spec.saves .finish) rfl (saves_append _)]
    rw [List.flatMap_eq_nil_iff]
    intro j _
    have : List.map (Prod.snd ∘ fun x => (tOf c j x, x)) (stepCalls c w (episodeIdx c w) j (decide (j + 1 = K))) =
        stepCalls c w (episodeIdx c w) j (decide (j + 1 = K)) := List.map_id _
    rw [this, stepCalls_saves]
    simp
  have hplanlen : plan.length = (loop c w (c.steps - c.offset) 0 0 0).1.length + 2 := by
    rw [hplan]; simp
  change p < plan.length at hp
  rcases Nat.eq_zero_or_pos p with h0 | hpos
  · subst h0
    have hrun0 : trainAgent c w raises = ⟨[.reset], true⟩ := by
      unfold trainAgent; rw [if_pos hr]
    rw [hrun0, if_pos (.inl rfl)]
    refine ⟨rfl, ?_, fun _ => rfl⟩
    rw [hplan]; rfl
  · have hr0 : raises 0 = false := hfirst 0 hpos
    generalize hL : (loop c w (c.steps - c.offset) 0 0 0).1 = L at hplan hgood hnofin hplanlen
    rcases Nat.lt_or_ge (p - 1) L.length with hlt | hge
    · -- a call inside the `try`
      have hatt := attempt_some (raises := raises) (pos := 1) (l := L) (p - 1) hlt
        (by rw [← hr]; congr 1; omega) (fun i hi => hfirst _ (by omega))
      obtain ⟨x, hx⟩ : ∃ x, L[p - 1]? = some x := ⟨_, List.getElem?_eq_getElem hlt⟩
      rw [hx] at hatt
      have hp1 : p - 1 + 1 = p := by omega
      rw [hp1] at hatt
      have hrun1 : trainAgent c w raises =
          ⟨[.reset] ++ (L.take p).map Prod.snd ++ [.save x.1 .except], true⟩ := by
        unfold trainAgent
        rw [hr0]
        simp only [Bool.false_eq_true, if_false, hL]
        rw [hatt]; rfl
      have htake : plan.take (p + 1) = [.reset] ++ (L.take p).map Prod.snd := by
        rw [hplan, List.append_assoc, List.singleton_append, List.take_succ_cons,
          List.take_append_of_le_length (by simp; omega), List.map_take]
        rfl
      have htake' : plan.take p = [.reset] ++ (L.take (p - 1)).map Prod.snd := by
        obtain ⟨q, rfl⟩ : ∃ q, p = q + 1 := ⟨p - 1, by omega⟩
        rw [hplan, List.append_assoc, List.singleton_append, List.take_succ_cons,
          List.take_append_of_le_length (by simp; omega), List.map_take]
        rfl
      have hx1 := hgood (p - 1) x hx
      rw [hrun1, if_neg (by omega), htake, htake', hx1]
      refine ⟨rfl, ?_, fun _ => ?_⟩
      · have : ([Call.reset] ++ List.map Prod.snd (List.take (p - 1) L)).count .step =
            (List.map Prod.snd (List.take (p - 1) L)).count .step := by
          rw [List.singleton_append, List.count_cons_of_ne (by simp)]
        rw [this]
      · simp only [saves_append]
        have h1 : Spec.saves .finish ((L.take p).map Prod.snd) = [] := by
          have h2 : Spec.saves .finish (L.map Prod.snd) = Spec.saves .finish ((L.take p).map Prod.snd) ++
              Spec.saves .finish ((L.drop p).map Prod.snd) := by
            rw [← saves_append, ← List.map_append, List.take_append_drop]
          rw [hnofin] at h2
          exact (List.append_eq_nil_iff.mp h2.symm).1
        rw [h1]
        rfl
    · -- the final save
      have hpe : p + 1 = plan.length := by omega
      have hatt := attempt_none (raises := raises) (pos := 1) (l := L) (fun j hj => hfirst _ (by omega))
      have hrun1 : trainAgent c w raises = ⟨plan, true⟩ := by
        unfold trainAgent
        rw [hr0]
        simp only [Bool.false_eq_true, if_false, hL, hl2]
        rw [hatt]
        simp only [hplan]
        congr 1
        rw [List.length_map]
        rw [← hr]
        congr 1
        omega
      rw [hrun1, if_pos (.inr hpe), List.take_of_length_le (by omega)]
      exact ⟨rfl, rfl, fun h => by omega⟩

/-- If no call of the undisturbed run raises, the run is the undisturbed one. -/
theorem train_agent_no_exception (c : Cfg) (w : World R) (raises : Nat → Bool)
    (h : ∀ p, p < (trainAgent c w fun _ => false).calls.length → raises p = false) :
    trainAgent c w raises = trainAgent c w fun _ => false := by
  obtain ⟨K, hl2, hl1, hrun, _⟩ := undisturbed c w
  have hplan : (trainAgent c w fun _ => false).calls =
      [.reset] ++ (loop c w (c.steps - c.offset) 0 0 0).1.map Prod.snd ++
      [.save (c.offset + K) .finish] := by
    unfold trainAgent
    simp only [Bool.false_eq_true, if_false]
    rw [attempt_none (fun _ _ => rfl), hl2]
  have hlen : (trainAgent c w fun _ => false).calls.length =
      (loop c w (c.steps - c.offset) 0 0 0).1.length + 2 := by rw [hplan]; simp
  rw [hlen] at h
  unfold trainAgent
  rw [h 0 (by omega)]
  simp only [Bool.false_eq_true, if_false]
  rw [attempt_none (fun j hj => h _ (by omega)), attempt_none (fun _ _ => rfl)]
  simp only [List.length_map]
  rw [h _ (by omega)]

/-- Five steps from offset 2, episodes of at most 2 steps, one hook, checkpoints every 3 steps. -/
def exampleCfg : Cfg := ⟨7, 2, some 2, 3, 1, false, false⟩

def exampleWorld : World Int := ⟨fun k => ⟨1, decide (k = 2), false⟩, fun _ => false, fun _ => false⟩

example : (trainAgent exampleCfg exampleWorld fun _ => false).calls =
    [.reset,
      .act, .step, .observe false false, .hook 0 3, .save 3 .checkpoint,
      .act, .step, .observe false true, .hook 0 4, .statistics, .reset,
      .act, .step, .observe true false, .hook 0 5, .statistics, .reset,
      .act, .step, .observe false false, .hook 0 6, .save 6 .checkpoint,
      .act, .step, .observe false true, .hook 0 7, .statistics, .save 7 .finish] := by decide

/-- The hook of the second step raises. -/
example : trainAgent exampleCfg exampleWorld (fun p => p == 9) =
    ⟨[.reset, .act, .step, .observe false false, .hook 0 3, .save 3 .checkpoint,
      .act, .step, .observe false true, .hook 0 4, .save 4 .except], true⟩ := by decide

end Pfrl.Train
