import Mathlib.Order.Lattice
import Mathlib.Order.BoundedOrder.Basic
import Mathlib.Algebra.BigOperators.Group.List.Basic
import Mathlib.Data.Fintype.Basic
import Mathlib.Order.Fin.Basic

/-!
# Environment wrappers (C48, C49, C65, C69)

The wrapped environment (the game) is a state machine; its random generator is part of its state.  A wrapper is
modelled by its calls on the game.
-/

namespace Pfrl.Envs.Wrap

variable {S A O R : Type _}

/-! ## Model -/

/-- What `step` returns: observation, reward, `done`, and `info.get("needs_reset", False)`. -/
structure Out (O R : Type _) where
  obs : O
  reward : R
  done : Bool
  needsReset : Bool
  deriving DecidableEq, Repr

/-- Does the episode end with this step? -/
def Out.ended (o : Out O R) : Bool := o.done || o.needsReset

/-- The wrapped environment, `pfrl/env.py:4-21`. -/
structure Game (S A O R : Type _) where
  step : S → A → S × Out O R
  reset : S → S × O

/-- A call on an environment. -/
inductive Op (A : Type _) where
  | step (a : A)
  | reset
  deriving DecidableEq, Repr

/-- What a call returns. -/
inductive Ret (O R : Type _) where
  | stepped (o : Out O R)
  | obs (o : O)
  /-- `AssertionError` -/
  | refused
  deriving DecidableEq, Repr

/-- A call on the wrapped game: the state before, the call and the state after. -/
structure Rec (S A O R : Type _) where
  before : S
  call : Op A
  after : S
  ret : Ret O R
  deriving DecidableEq, Repr

/-- Making a call on the game. -/
def Game.call (g : Game S A O R) (s : S) : Op A → Rec S A O R
  | .step a => ⟨s, .step a, (g.step s a).1, .stepped (g.step s a).2⟩
  | .reset => ⟨s, .reset, (g.reset s).1, .obs (g.reset s).2⟩

/-! ### `ContinuingTimeLimit` -/

/-- One call on `ContinuingTimeLimit`, `pfrl/wrappers/continuing_time_limit.py:27-41`: the calls made on the game,
`_elapsed_steps` (`none` is `None`) afterwards, and what is returned. -/
def TimeLimit.call (g : Game S A O R) (maxSteps : Nat) (s : S) (elapsed : Option Nat) :
    Op A → List (Rec S A O R) × Option Nat × Ret O R
  | .step a =>
    match elapsed with
    | none => ([], none, .refused)
    | some e =>
      let out := (g.step s a).2
      ([g.call s (.step a)], some (e + 1),
        .stepped ⟨out.obs, out.reward, out.done, if maxSteps ≤ e + 1 then true else out.needsReset⟩)
  | .reset => ([g.call s .reset], some 0, .obs (g.reset s).2)

/-- The state of the game after these calls. -/
def finalState (s : S) : List (Rec S A O R) → S
  | [] => s
  | r :: rs => finalState r.after rs

/-- A sequence of calls: for each, the calls on the game and what is returned. -/
def TimeLimit.run (g : Game S A O R) (maxSteps : Nat) : S → Option Nat → List (Op A) →
    List (List (Rec S A O R) × Ret O R)
  | _, _, [] => []
  | s, e, op :: ops =>
    let c := TimeLimit.call g maxSteps s e op
    (c.1, c.2.2) :: TimeLimit.run g maxSteps (finalState s c.1) c.2.1 ops

/-! ### `EpisodicLifeEnv` -/

/-- `lives` and `needs_real_reset`, `pfrl/wrappers/atari_wrappers.py:84-86`. -/
structure Life where
  lives : Int
  needsRealReset : Bool
  deriving DecidableEq, Repr

/-- `EpisodicLifeEnv.step` and `reset`, `atari_wrappers.py:88-115`.  `lives` reads `env.unwrapped.ale.lives()`;
`noop` is the action 0. -/
def Life.call (g : Game S A O R) (lives : S → Int) (noop : A) (s : S) (l : Life) :
    Op A → Rec S A O R × Life × Ret O R
  | .step a =>
    let r := g.call s (.step a)
    let out := (g.step s a).2
    let n := lives r.after
    let done := if n < l.lives ∧ n > 0 then true else out.done
    (r, ⟨n, out.done || out.needsReset⟩, .stepped ⟨out.obs, out.reward, done, out.needsReset⟩)
  | .reset =>
    if l.needsRealReset then
      let r := g.call s .reset
      (r, ⟨lives r.after, l.needsRealReset⟩, .obs (g.reset s).2)
    else
      let r := g.call s (.step noop)
      (r, ⟨lives r.after, l.needsRealReset⟩, .obs (g.step s noop).2.obs)

/-- A sequence of calls: for each, the call on the game and what is returned. -/
def Life.run (g : Game S A O R) (lives : S → Int) (noop : A) : S → Life → List (Op A) →
    List (Rec S A O R × Ret O R)
  | _, _, [] => []
  | s, l, op :: ops =>
    let c := Life.call g lives noop s l op
    (c.1, c.2.2) :: Life.run g lives noop c.1.after c.2.1 ops

/-- The state after the constructor, `atari_wrappers.py:84-86`. -/
def Life.init : Life := ⟨0, true⟩

/-! ### `MaxAndSkipEnv` -/

/-- The loop of `MaxAndSkipEnv.step`, `atari_wrappers.py:130-138`, from iteration `i` with `fuel` iterations to go:
the calls made on the game, and `_obs_buffer`. -/
def skipLoop (g : Game S A O R) (a : A) (skip : Nat) : Nat → Nat → S → O × O → List (Rec S A O R × Out O R) × (O × O)
  | 0, _, _, buf => ([], buf)
  | fuel + 1, i, s, buf =>
    let out := (g.step s a).2
    let buf := if i + 2 = skip then (out.obs, buf.2) else buf
    let buf := if i + 1 = skip then (buf.1, out.obs) else buf
    if out.ended then ([(g.call s (.step a), out)], buf)
    else
      let r := skipLoop g a skip fuel (i + 1) (g.step s a).1 buf
      ((g.call s (.step a), out) :: r.1, r.2)

/-- `MaxAndSkipEnv.step`, `atari_wrappers.py:126-143`.  `none`: without iterations (`skip = 0`) the variable `info` is
unbound and the call raises.  `⊔` is the elementwise maximum of two frames. -/
def maxAndSkip [Max O] [AddMonoid R] (g : Game S A O R) (skip : Nat) (s : S) (buf : O × O) (a : A) :
    Option (List (Rec S A O R) × (O × O) × Out O R) :=
  let l := skipLoop g a skip skip 0 s buf
  match l.1.getLast? with
  | none => none
  | some last => some (l.1.map Prod.fst, l.2,
      ⟨max l.2.1 l.2.2, (l.1.map fun p => p.2.reward).sum, last.2.done, last.2.needsReset⟩)

/-! ### `NoopResetEnv` -/

/-- The loop of `NoopResetEnv.reset`, `atari_wrappers.py:47-50`. -/
def noopLoop (g : Game S A O R) (noop : A) : Nat → S → List (Rec S A O R)
  | 0, _ => []
  | n + 1, s =>
    let r := g.call s (.step noop)
    if (g.step s noop).2.ended then
      let r2 := g.call r.after .reset
      r :: r2 :: noopLoop g noop n r2.after
    else r :: noopLoop g noop n r.after

/-- The observation returned by a call. -/
def Ret.obs? : Ret O R → Option O
  | .stepped o => some o.obs
  | .obs o => some o
  | .refused => none

/-- `NoopResetEnv.reset`, `atari_wrappers.py:35-51`, with `noops` drawn: the calls on the game and the observation
returned (that of the last call; `None` if `noops` is 0, which the assertion excludes). -/
def noopReset (g : Game S A O R) (noop : A) (noops : Nat) (s : S) : Option (List (Rec S A O R) × Option O) :=
  if noops = 0 then none
  else
    let r := g.call s .reset
    let l := noopLoop g noop noops r.after
    some (r :: l, l.getLast?.bind fun r => r.ret.obs?)

/-! ### `FireResetEnv` -/

/-- A step and, if it ends the episode, a reset: `atari_wrappers.py:66-68` and `69-71`. -/
def stepAndRestart (g : Game S A O R) (a : A) (s : S) : List (Rec S A O R) :=
  if (g.step s a).2.ended then [g.call s (.step a), g.call (g.step s a).1 .reset]
  else [g.call s (.step a)]

/-- `FireResetEnv.reset`, `atari_wrappers.py:64-72`: the calls on the game and the observation returned, which is
that of the second step. -/
def fireReset (g : Game S A O R) (fire second : A) (s : S) : List (Rec S A O R) × O :=
  let r := g.call s .reset
  let l1 := stepAndRestart g fire r.after
  let s2 := finalState r.after l1
  (r :: l1 ++ stepAndRestart g second s2, (g.step s2 second).2.obs)

/-! ## Specification -/

/-- These are calls on the game, one after the other, starting in state `s`. -/
def Spec.Chain (g : Game S A O R) : S → List (Rec S A O R) → Prop
  | _, [] => True
  | s, r :: rs => r = g.call s r.call ∧ Spec.Chain g r.after rs

/-- The number of steps since the last reset (`none`: there was no reset). -/
def Spec.sinceReset (ops : List (Op A)) : Option Nat :=
  ops.foldl (fun e op => match op with
    | .step _ => e.map (· + 1)
    | .reset => some 0) none

/-- Has this call ended the episode? -/
def Spec.Ended (r : Rec S A O R) : Prop := ∃ o, r.ret = .stepped o ∧ (o.done = true ∨ o.needsReset = true)

/-! ## C48 -/

theorem chain_single (g : Game S A O R) (s : S) (op : Op A) : Spec.Chain g s [g.call s op] := by
  cases op <;> exact ⟨rfl, trivial⟩

theorem chain_append {g : Game S A O R} : ∀ {s : S} {l l' : List (Rec S A O R)},
    Spec.Chain g s l → Spec.Chain g (finalState s l) l' → Spec.Chain g s (l ++ l')
  | _, [], _, _, h => h
  | _, _ :: _, _, h, h' => ⟨h.1, chain_append h.2 h'⟩

theorem finalState_append : ∀ (s : S) (l l' : List (Rec S A O R)),
    finalState s (l ++ l') = finalState (finalState s l) l'
  | _, [], _ => rfl
  | _, r :: l, l' => finalState_append r.after l l'

/-- The value of `_elapsed_steps` and what it means for the next call. -/
theorem timeLimit_run (g : Game S A O R) (maxSteps : Nat) : ∀ (ops before : List (Op A)) (s : S) (e : Option Nat),
    e = Spec.sinceReset before →
    (TimeLimit.run g maxSteps s e ops).length = ops.length ∧
    Spec.Chain g s ((TimeLimit.run g maxSteps s e ops).flatMap Prod.fst) ∧
    ∀ (k : Nat) (op : Op A) (c : List (Rec S A O R) × Ret O R), ops[k]? = some op →
      (TimeLimit.run g maxSteps s e ops)[k]? = some c →
      (∀ a, op = .step a → Spec.sinceReset (before ++ ops.take k) = none → c = ([], .refused)) ∧
      (∀ a j, op = .step a → Spec.sinceReset (before ++ ops.take k) = some j →
        ∃ r out, c.1 = [r] ∧ r.call = .step a ∧ r.ret = .stepped out ∧
          c.2 = .stepped ⟨out.obs, out.reward, out.done, out.needsReset || decide (j + 1 ≥ maxSteps)⟩) ∧
      (op = .reset → ∃ r o, c = ([r], .obs o) ∧ r.call = .reset ∧ r.ret = .obs o)
  | [], _, _, _, _ => ⟨rfl, trivial, by simp⟩
  | op :: ops, before, s, e, he => by
    have hsince : Spec.sinceReset (before ++ [op]) = match op with
        | .step _ => (Spec.sinceReset before).map (· + 1)
        | .reset => some 0 := by
      unfold Spec.sinceReset
      rw [List.foldl_append]
      cases op <;> rfl
    have hnext : (TimeLimit.call g maxSteps s e op).2.1 = Spec.sinceReset (before ++ [op]) := by
      rw [hsince]
      cases op with
      | step a =>
        unfold TimeLimit.call
        cases e with
        | none => rw [← he]; rfl
        | some e => rw [← he]; rfl
      | reset => rfl
    obtain ⟨h1, h2, h3⟩ := timeLimit_run g maxSteps ops (before ++ [op])
      (finalState s (TimeLimit.call g maxSteps s e op).1) _ hnext
    have hchain : Spec.Chain g s (TimeLimit.call g maxSteps s e op).1 := by
      cases op with
      | step a =>
        unfold TimeLimit.call
        cases e with
        | none => trivial
        | some e => exact chain_single g s _
      | reset => exact chain_single g s _
    unfold TimeLimit.run
    refine ⟨by simp [h1], chain_append hchain h2, ?_⟩
    intro k op' c hop hc
    cases k with
    | succ k =>
      simp only [List.getElem?_cons_succ] at hop hc
      have := h3 k op' c hop hc
      simpa using this
    | zero =>
      simp only [List.getElem?_cons_zero, Option.some.injEq] at hop hc
      subst hop; subst hc
      simp only [List.take_zero, List.append_nil, ← he]
      refine ⟨?_, ?_, ?_⟩
      · rintro a rfl hn
        subst hn
        rfl
      · rintro a j rfl hj
        subst hj
        refine ⟨_, _, rfl, rfl, rfl, ?_⟩
        simp only [TimeLimit.call]
        by_cases hm : maxSteps ≤ j + 1
        · rw [if_pos hm, decide_eq_true hm, Bool.or_true]
        · rw [if_neg hm, decide_eq_false hm, Bool.or_false]
      · rintro rfl
        exact ⟨_, _, rfl, rfl, rfl⟩

/-- **C48.** Along any history of calls on `ContinuingTimeLimit`: a step before the first reset is refused and does
not touch the environment; every other call makes the same call on the environment; a reset returns what the
environment returns; and a step returns the observation, reward and `done` of the environment, and
`needs_reset` exactly if the environment asks for it or this is at least the `max_episode_steps`-th step since the last
reset. -/
theorem continuing_time_limit (g : Game S A O R) (maxSteps : Nat) (s : S) (ops : List (Op A)) :
    (TimeLimit.run g maxSteps s none ops).length = ops.length ∧
    Spec.Chain g s ((TimeLimit.run g maxSteps s none ops).flatMap Prod.fst) ∧
    ∀ (k : Nat) (op : Op A) (c : List (Rec S A O R) × Ret O R), ops[k]? = some op →
      (TimeLimit.run g maxSteps s none ops)[k]? = some c →
      (∀ a, op = .step a → Spec.sinceReset (ops.take k) = none → c = ([], .refused)) ∧
      (∀ a j, op = .step a → Spec.sinceReset (ops.take k) = some j →
        ∃ r out, c.1 = [r] ∧ r.call = .step a ∧ r.ret = .stepped out ∧
          c.2 = .stepped ⟨out.obs, out.reward, out.done, out.needsReset || decide (j + 1 ≥ maxSteps)⟩) ∧
      (op = .reset → ∃ r o, c = ([r], .obs o) ∧ r.call = .reset ∧ r.ret = .obs o) := by
  obtain ⟨h1, h2, h3⟩ := timeLimit_run g maxSteps ops [] s none rfl
  exact ⟨h1, h2, fun k op c hop hc => by simpa using h3 k op c hop hc⟩

/-- A game that counts its steps. -/
def counting : Game Nat Nat Nat Int := ⟨fun s a => (s + 1, ⟨s + 1, a, false, false⟩), fun _ => (0, 0)⟩

example : (TimeLimit.run counting 2 5 none [.step 7, .reset, .step 1, .step 2, .step 3, .reset, .step 4]).map
      Prod.snd =
    [.refused, .obs 0, .stepped ⟨1, 1, false, false⟩, .stepped ⟨2, 2, false, true⟩, .stepped ⟨3, 3, false, true⟩,
      .obs 0, .stepped ⟨1, 4, false, false⟩] := by decide

/-! ## C49 -/

/-- Has there been no step yet, or did the last step end the game? -/
def Spec.LastStepEnded (recs : List (Rec S A O R × Ret O R)) (ops : List (Op A)) : Prop :=
  (∀ a, Op.step a ∉ ops) ∨ ∃ (j : Nat) (a : A) (c : Rec S A O R × Ret O R), ops[j]? = some (.step a) ∧
    recs[j]? = some c ∧ Spec.Ended c.1 ∧ ∀ i b, j < i → ops[i]? ≠ some (.step b)

theorem life_run (g : Game S A O R) (lives : S → Int) (noop : A) :
    ∀ (ops : List (Op A)) (s : S) (l : Life) (before : List (Op A)) (recs : List (Rec S A O R × Ret O R)),
    recs.length = before.length →
    (l.needsRealReset = true ↔ Spec.LastStepEnded recs before) →
    (before ≠ [] → l.lives = lives s) →
    Spec.Chain g s ((Life.run g lives noop s l ops).map Prod.fst) ∧
    (Life.run g lives noop s l ops).length = ops.length ∧
    ∀ (k : Nat) (op : Op A) (c : Rec S A O R × Ret O R), ops[k]? = some op →
      (Life.run g lives noop s l ops)[k]? = some c →
      (∀ a, op = .step a → (before ≠ [] ∨ 0 < k) → ∃ out, c.1.call = .step a ∧ c.1.ret = .stepped out ∧
        c.2 = .stepped ⟨out.obs, out.reward,
          out.done || decide (0 < lives c.1.after ∧ lives c.1.after < lives c.1.before), out.needsReset⟩) ∧
      (op = .reset → c.1.ret.obs? = c.2.obs? ∧ (c.1.call = .reset ∨ c.1.call = .step noop) ∧
        (c.1.call = .reset ↔ Spec.LastStepEnded (recs ++ (Life.run g lives noop s l ops).take k)
          (before ++ ops.take k)))
  | [], _, _, _, _, _, _, _ => ⟨trivial, rfl, by simp⟩
  | op :: ops, s, l, before, recs, hlen, hreal, hlives => by
    have hcall : (Life.call g lives noop s l op).1 = g.call s (Life.call g lives noop s l op).1.call := by
      cases op with
      | step a => rfl
      | reset => unfold Life.call; simp only; split <;> rfl
    have hlives' : (Life.call g lives noop s l op).2.1.lives = lives (Life.call g lives noop s l op).1.after := by
      cases op with
      | step a => rfl
      | reset => unfold Life.call; simp only; split <;> rfl
    have hreal' : (Life.call g lives noop s l op).2.1.needsRealReset = true ↔ Spec.LastStepEnded
        (recs ++ [((Life.call g lives noop s l op).1, (Life.call g lives noop s l op).2.2)]) (before ++ [op]) := by
      cases op with
      | step a =>
        have hno : ¬ ∀ b, Op.step b ∉ before ++ [Op.step a] := fun h => h a (by simp)
        have hE : (Life.call g lives noop s l (.step a)).2.1.needsRealReset = true ↔
            Spec.Ended (Life.call g lives noop s l (.step a)).1 := by
          simp only [Life.call, Bool.or_eq_true]
          exact ⟨fun h => ⟨_, rfl, h⟩, fun ⟨o, ho, h⟩ => by cases ho; exact h⟩
        rw [hE]
        constructor
        · intro h
          refine .inr ⟨before.length, a, (_, (Life.call g lives noop s l (.step a)).2.2), ?_, ?_, h, ?_⟩
          · simp
          · rw [← hlen]; simp
          · intro i b hi
            rw [List.getElem?_eq_none (by simp; omega)]
            simp
        · rintro (h | ⟨j, b, c, h1, h2, h3, h4⟩)
          · exact absurd h hno
          · have hj : j = before.length := by
              have hjl := (List.getElem?_eq_some_iff.mp h1).1
              simp at hjl
              by_contra hne
              exact h4 before.length a (by omega) (by simp)
            subst hj
            rw [← hlen] at h2
            simp at h2
            rw [← h2] at h3
            exact h3
      | reset =>
        have hsame : (Life.call g lives noop s l .reset).2.1.needsRealReset = l.needsRealReset := by
          unfold Life.call; simp only; split <;> rfl
        rw [hsame, hreal]
        constructor
        · rintro (h | ⟨j, b, c, h1, h2, h3, h4⟩)
          · left; intro b hb
            rcases List.mem_append.mp hb with hb | hb
            · exact h b hb
            · simp at hb
          · refine .inr ⟨j, b, c, ?_, ?_, h3, ?_⟩
            · rw [List.getElem?_append_left (List.getElem?_eq_some_iff.mp h1).1]; exact h1
            · rw [List.getElem?_append_left (List.getElem?_eq_some_iff.mp h2).1]; exact h2
            · intro i b' hi hb'
              rcases Nat.lt_or_ge i before.length with hlt | hge
              · rw [List.getElem?_append_left hlt] at hb'
                exact h4 i b' hi hb'
              · rw [List.getElem?_append_right hge] at hb'
                have := List.mem_of_getElem? hb'
                simp at this
        · rintro (h | ⟨j, b, c, h1, h2, h3, h4⟩)
          · left; intro b hb; exact h b (by simp [hb])
          · have hj : j < before.length := by
              by_contra hge
              rw [List.getElem?_append_right (by omega)] at h1
              have := List.mem_of_getElem? h1
              simp at this
            refine .inr ⟨j, b, c, ?_, ?_, h3, ?_⟩
            · rwa [List.getElem?_append_left hj] at h1
            · rwa [List.getElem?_append_left (by omega)] at h2
            · intro i b' hi hb'
              refine h4 i b' hi ?_
              rw [List.getElem?_append_left (List.getElem?_eq_some_iff.mp hb').1]
              exact hb'
    obtain ⟨h1, h2, h3⟩ := life_run g lives noop ops (Life.call g lives noop s l op).1.after
      (Life.call g lives noop s l op).2.1 (before ++ [op])
      (recs ++ [((Life.call g lives noop s l op).1, (Life.call g lives noop s l op).2.2)])
      (by simp [hlen]) hreal' (fun _ => hlives')
    unfold Life.run
    refine ⟨⟨hcall, h1⟩, by simp [h2], ?_⟩
    intro k op' c hop hc
    cases k with
    | succ k =>
      simp only [List.getElem?_cons_succ] at hop hc
      obtain ⟨h4, h5⟩ := h3 k op' c hop hc
      refine ⟨fun a ha _ => h4 a ha (.inl (by simp)), fun ha => ?_⟩
      have := h5 ha
      simpa using this
    | zero =>
      simp only [List.getElem?_cons_zero, Option.some.injEq] at hop hc
      subst hop; subst hc
      refine ⟨?_, ?_⟩
      · rintro a rfl hne
        have hl := hlives (hne.resolve_right (by omega))
        refine ⟨_, rfl, rfl, ?_⟩
        simp only [Life.call, hl, Game.call]
        by_cases hlt : lives (g.step s a).1 < lives s ∧ lives (g.step s a).1 > 0
        · rw [if_pos hlt, decide_eq_true ⟨hlt.2, hlt.1⟩, Bool.or_true]
        · rw [if_neg hlt, decide_eq_false (fun h => hlt ⟨h.2, h.1⟩), Bool.or_false]
      · rintro rfl
        simp only [List.take_zero, List.append_nil]
        rw [← hreal]
        unfold Life.call
        simp only
        by_cases hr : l.needsRealReset = true
        · rw [if_pos hr]
          exact ⟨rfl, .inl rfl, fun _ => hr, fun _ => rfl⟩
        · rw [if_neg hr]
          exact ⟨rfl, .inr rfl, ⟨fun h => (nomatch h), fun h => absurd h hr⟩⟩

/-- **C49 (partial).** Along any history of calls on `EpisodicLifeEnv`, every call makes one call on the game.  A step
makes the same step and returns what the game returns, except that (from the second call on) `done` is also
reported when the life count decreases to a positive number.  A reset either resets the game or makes a no-op step, and
returns the observation of that call; it resets the game exactly if there has been no step yet or the last step ended
the game or asked for a reset.

What is missing: that is not quite "when the game is over", because the no-op step made by a reset may end the game
too; see `episodic_life_misses_game_over`. -/
theorem episodic_life_partial (g : Game S A O R) (lives : S → Int) (noop : A) (s : S) (ops : List (Op A)) :
    Spec.Chain g s ((Life.run g lives noop s Life.init ops).map Prod.fst) ∧
    (Life.run g lives noop s Life.init ops).length = ops.length ∧
    ∀ (k : Nat) (op : Op A) (c : Rec S A O R × Ret O R), ops[k]? = some op →
      (Life.run g lives noop s Life.init ops)[k]? = some c →
      (∀ a, op = .step a → 0 < k → ∃ out, c.1.call = .step a ∧ c.1.ret = .stepped out ∧
        c.2 = .stepped ⟨out.obs, out.reward,
          out.done || decide (0 < lives c.1.after ∧ lives c.1.after < lives c.1.before), out.needsReset⟩) ∧
      (op = .reset → c.1.ret.obs? = c.2.obs? ∧ (c.1.call = .reset ∨ c.1.call = .step noop) ∧
        (c.1.call = .reset ↔ Spec.LastStepEnded ((Life.run g lives noop s Life.init ops).take k)
          (ops.take k))) := by
  obtain ⟨h1, h2, h3⟩ := life_run g lives noop ops s Life.init [] [] rfl
    (by simp [Life.init, Spec.LastStepEnded]) (by simp)
  refine ⟨h1, h2, fun k op c hop hc => ?_⟩
  obtain ⟨h4, h5⟩ := h3 k op c hop hc
  exact ⟨fun a ha hk => h4 a ha (.inr hk), fun ha => by simpa using h5 ha⟩

/-- A game with states: 0 at start with two lives; any action leads to 1, with one life left; then to 2, the end of
the game. -/
def twoLives : Game Nat Nat Nat Int :=
  ⟨fun s _ => (min (s + 1) 2, ⟨min (s + 1) 2, 0, decide (s + 1 ≥ 2), false⟩), fun _ => (0, 0)⟩

/-- **C49 fails.** If the no-op step made by a reset after the loss of a life ends the game, the wrapper does not
notice: the next reset does not reset the game, although the game is over. -/
theorem episodic_life_misses_game_over :
    (Life.run twoLives (fun s => 2 - s) 0 0 Life.init [.reset, .step 1, .reset, .reset]).map
      (fun c => (c.1.call, c.1.ret)) =
    [(.reset, .obs 0), (.step 1, .stepped ⟨1, 0, false, false⟩),
      (.step 0, .stepped ⟨2, 0, true, false⟩), (.step 0, .stepped ⟨2, 0, true, false⟩)] := by decide

/-- The loss of the first life is reported as `done`. -/
example : ((Life.run twoLives (fun s => 2 - s) 0 0 Life.init [.reset, .step 1]).map Prod.snd) =
    [.obs 0, .stepped ⟨1, 0, true, false⟩] := by decide

/-! ## C65 -/

theorem skipLoop_spec (g : Game S A O R) (a : A) (skip : Nat) : ∀ (fuel i : Nat) (s : S) (buf : O × O),
    i + fuel = skip →
    Spec.Chain g s ((skipLoop g a skip fuel i s buf).1.map Prod.fst) ∧
    (∀ p ∈ (skipLoop g a skip fuel i s buf).1, p.1.call = .step a ∧ p.1.ret = .stepped p.2) ∧
    (skipLoop g a skip fuel i s buf).1.length ≤ fuel ∧
    (0 < fuel → 0 < (skipLoop g a skip fuel i s buf).1.length) ∧
    (∀ (j : Nat) (p : Rec S A O R × Out O R), j + 1 < (skipLoop g a skip fuel i s buf).1.length →
      (skipLoop g a skip fuel i s buf).1[j]? = some p → p.2.ended = false) ∧
    ((skipLoop g a skip fuel i s buf).1.length < fuel →
      ∃ p, (skipLoop g a skip fuel i s buf).1.getLast? = some p ∧ p.2.ended = true) ∧
    (∀ (j : Nat) (p : Rec S A O R × Out O R), i + j + 2 = skip → (skipLoop g a skip fuel i s buf).1[j]? = some p →
      (skipLoop g a skip fuel i s buf).2.1 = p.2.obs) ∧
    (∀ (j : Nat) (p : Rec S A O R × Out O R), i + j + 1 = skip → (skipLoop g a skip fuel i s buf).1[j]? = some p →
      (skipLoop g a skip fuel i s buf).2.2 = p.2.obs) ∧
    (i + 2 > skip → (skipLoop g a skip fuel i s buf).2.1 = buf.1)
  | 0, i, s, buf, h => by simp [skipLoop, Spec.Chain]
  | fuel + 1, i, s, buf, h => by
    have hkeep : ∀ (b : O × O), (if i + 1 = skip then (b.1, (g.step s a).2.obs) else b).1 = b.1 := by
      intro b; split <;> rfl
    unfold skipLoop
    simp only
    generalize hb1 : (if i + 2 = skip then ((g.step s a).2.obs, buf.2) else buf) = b1
    generalize hb2 : (if i + 1 = skip then (b1.1, (g.step s a).2.obs) else b1) = b2
    have hb21 : b2.1 = b1.1 := by rw [← hb2]; exact hkeep b1
    by_cases he : (g.step s a).2.ended = true
    · simp only [he, if_true]
      refine ⟨⟨rfl, trivial⟩, ?_, by simp, by simp, by simp, fun _ => ⟨_, rfl, he⟩, ?_, ?_, ?_⟩
      · intro p hp
        rw [List.mem_singleton.mp hp]
        exact ⟨rfl, rfl⟩
      · intro j p hj hp
        cases j with
        | succ j => simp at hp
        | zero =>
          simp at hp
          subst hp
          rw [hb21, ← hb1, if_pos (by omega)]
      · intro j p hj hp
        cases j with
        | succ j => simp at hp
        | zero =>
          simp at hp
          subst hp
          rw [← hb2, if_pos (by omega)]
      · intro hi
        rw [hb21, ← hb1, if_neg (by omega)]
    · simp only [he]
      obtain ⟨h1, h2, h3, h4, h5, h6, h7, h8, h9⟩ := skipLoop_spec g a skip fuel (i + 1) (g.step s a).1 b2 (by omega)
      refine ⟨⟨rfl, h1⟩, ?_, by simp; exact h3, by simp, ?_, ?_, ?_, ?_, ?_⟩
      · intro p hp
        rcases List.mem_cons.mp hp with hp | hp
        · rw [hp]; exact ⟨rfl, rfl⟩
        · exact h2 p hp
      · intro j p hj hp
        cases j with
        | zero =>
          simp at hp
          subst hp
          simpa using he
        | succ j =>
          exact h5 j p (by simpa using hj) (by simpa using hp)
      · intro hlt
        obtain ⟨p, hp, hpe⟩ := h6 (by simpa using hlt)
        exact ⟨p, by simp [List.getLast?_cons, hp], hpe⟩
      · intro j p hj hp
        cases j with
        | zero =>
          simp at hp
          subst hp
          simp only [Bool.false_eq_true, if_false]
          rw [h9 (by omega), hb21, ← hb1, if_pos (by omega)]
        | succ j =>
          exact h7 j p (by omega) (by simpa using hp)
      · intro j p hj hp
        cases j with
        | zero =>
          simp at hp
          subst hp
          have hf : fuel = 0 := by omega
          subst hf
          simp only [skipLoop, Bool.false_eq_true, if_false]
          rw [← hb2, if_pos (by omega)]
        | succ j =>
          exact h8 j p (by omega) (by simpa using hp)
      · intro hi
        simp only [Bool.false_eq_true, if_false]
        rw [h9 (by omega), hb21, ← hb1, if_neg (by omega)]

/-- **C65 (frame skip, partial).** For `skip ≥ 1`, `MaxAndSkipEnv.step` makes between one and `skip` steps on the
game, all with the given action; it stops early only after a step that ended the episode or asked for a
reset, and at the first such step.  It returns the sum of the rewards of the steps made, and `done` and `needs_reset` of
the last one.  If all `skip ≥ 2` steps were made, the observation is the elementwise maximum of the last two frames;
with `skip = 1` it is the maximum of the frame and of a buffer that is never written.

What is missing: if fewer steps were made, the observation does not show the frames of these steps; see
`max_and_skip_stale_frame`. -/
theorem max_and_skip_partial [Max O] [AddMonoid R] (g : Game S A O R) {skip : Nat} (hskip : 0 < skip) (s : S)
    (buf : O × O) (a : A) :
    ∃ (steps : List (Rec S A O R × Out O R)) (buf' : O × O) (out : Out O R),
      maxAndSkip g skip s buf a = some (steps.map Prod.fst, buf', out) ∧
      Spec.Chain g s (steps.map Prod.fst) ∧ (∀ p ∈ steps, p.1.call = .step a ∧ p.1.ret = .stepped p.2) ∧
      0 < steps.length ∧ steps.length ≤ skip ∧
      (∀ (j : Nat) (p : Rec S A O R × Out O R), j + 1 < steps.length → steps[j]? = some p → p.2.ended = false) ∧
      (∃ last, steps.getLast? = some last ∧ (steps.length < skip → last.2.ended = true) ∧
        out.done = last.2.done ∧ out.needsReset = last.2.needsReset ∧
        (skip = 1 → out.obs = max buf.1 last.2.obs ∧ buf'.1 = buf.1)) ∧
      out.reward = (steps.map fun p => p.2.reward).sum ∧
      (∀ (p q : Rec S A O R × Out O R), steps.length = skip → steps[skip - 2]? = some p → 2 ≤ skip →
        steps[skip - 1]? = some q → out.obs = max p.2.obs q.2.obs) := by
  obtain ⟨h1, h2, h3, h4, h5, h6, h7, h8, h9⟩ := skipLoop_spec g a skip skip 0 s buf (by omega)
  unfold maxAndSkip
  simp only
  generalize skipLoop g a skip skip 0 s buf = l at h1 h2 h3 h4 h5 h6 h7 h8 h9
  obtain ⟨steps, b⟩ := l
  have hpos := h4 hskip
  simp only at h1 h2 h3 h5 h6 h7 h8 h9 hpos ⊢
  obtain ⟨last, hlast⟩ : ∃ last, steps.getLast? = some last := by
    cases hl : steps.getLast? with
    | none => rw [List.getLast?_eq_none_iff] at hl; rw [hl] at hpos; simp at hpos
    | some last => exact ⟨last, rfl⟩
  rw [hlast]
  refine ⟨steps, b, _, rfl, h1, h2, hpos, h3, h5, ⟨last, hlast, ?_, rfl, rfl, ?_⟩, rfl, ?_⟩
  · intro hlt
    obtain ⟨p, hp, hpe⟩ := h6 hlt
    rw [hlast] at hp
    cases hp
    exact hpe
  · intro h1s
    have hlen : steps.length = 1 := by omega
    have hget : steps[0]? = some last := by
      rw [List.getLast?_eq_getElem?, hlen] at hlast
      exact hlast
    refine ⟨?_, h9 (by omega)⟩
    simp only
    rw [h9 (by omega), h8 0 last (by omega) hget]
  · intro p q hlen hp h2s hq
    simp only
    rw [h7 (skip - 2) p (by omega) hp, h8 (skip - 1) q (by omega) hq]

/-- Frames of one pixel; the frame of the `t`-th step is `t`, and after six steps the game asks for a reset. -/
def limited : Game Nat Nat (Fin 256) Int :=
  ⟨fun s _ => (s + 1, ⟨Fin.ofNat 256 (s + 1), 1, false, decide (s + 1 ≥ 6)⟩), fun _ => (0, 0)⟩

/-- **C65 fails.** With `skip = 4`, the time limit of this game cuts the second step of the agent after two frames
(5 and 6), without `done`: the observation returned then is 4, from the frames of the previous step, although it will be
used as the successor state of a transition that is not terminal. -/
theorem max_and_skip_stale_frame :
    (maxAndSkip limited 4 0 (0, 0) 0).map (fun r => (r.2.1, r.2.2)) =
      some ((3, 4), ⟨4, 4, false, false⟩) ∧
    (maxAndSkip limited 4 4 (3, 4) 0).map (fun r => r.2.2) = some ⟨4, 2, false, true⟩ ∧
    (maxAndSkip limited 4 4 (3, 4) 0).map (fun r => r.1.map fun c => c.ret.obs?) =
      some [some 5, some 6] := by decide

theorem noopLoop_spec (g : Game S A O R) (noop : A) : ∀ (n : Nat) (s : S),
    Spec.Chain g s (noopLoop g noop n s) ∧
    ((noopLoop g noop n s).filter fun r => match r.call with
      | .step _ => true
      | .reset => false).length = n ∧
    (∀ r ∈ noopLoop g noop n s, r.call = .step noop ∨ r.call = .reset) ∧
    (∀ (j : Nat) (r : Rec S A O R), (noopLoop g noop n s)[j]? = some r →
      (Spec.Ended r ↔ ∃ r', (noopLoop g noop n s)[j + 1]? = some r' ∧ r'.call = .reset)) ∧
    (0 < n → noopLoop g noop n s ≠ [] ∧ ∃ r, (noopLoop g noop n s)[0]? = some r ∧ r.call = .step noop)
  | 0, s => by simp [noopLoop, Spec.Chain]
  | n + 1, s => by
    have hend : Spec.Ended (g.call s (.step noop)) ↔ (g.step s noop).2.ended = true := by
      unfold Out.ended
      rw [Bool.or_eq_true]
      exact ⟨fun ⟨o, ho, h⟩ => by cases ho; exact h, fun h => ⟨_, rfl, h⟩⟩
    have hnot : ∀ s', ¬ Spec.Ended (g.call (A := A) s' .reset) := fun s' ⟨o, ho, _⟩ => by cases ho
    unfold noopLoop
    simp only
    by_cases he : (g.step s noop).2.ended = true
    · rw [if_pos he]
      obtain ⟨h1, h2, h3, h4, h5⟩ := noopLoop_spec g noop n (g.call (g.call s (.step noop)).after .reset).after
      refine ⟨⟨rfl, rfl, h1⟩, ?_, ?_, ?_, fun _ => ⟨by simp, _, rfl, rfl⟩⟩
      · simpa [Game.call] using h2
      · intro r hr
        rcases List.mem_cons.mp hr with hr | hr
        · left; rw [hr]; rfl
        · rcases List.mem_cons.mp hr with hr | hr
          · right; rw [hr]; rfl
          · exact h3 r hr
      · intro j r hr
        match j with
        | 0 =>
          simp at hr
          subst hr
          exact ⟨fun _ => ⟨_, rfl, rfl⟩, fun _ => hend.mpr he⟩
        | 1 =>
          simp at hr
          subst hr
          refine ⟨fun h => absurd h (hnot _), ?_⟩
          rintro ⟨r', hr', hc⟩
          simp only [List.getElem?_cons_succ] at hr'
          rcases Nat.eq_zero_or_pos n with h0 | hpos
          · subst h0; simp [noopLoop] at hr'
          · obtain ⟨r2, h6, h7⟩ := (h5 hpos).2
            rw [hr'] at h6
            cases h6
            rw [hc] at h7; cases h7
        | j + 2 =>
          simp only [List.getElem?_cons_succ] at hr ⊢
          exact h4 j r hr
    · rw [if_neg he]
      obtain ⟨h1, h2, h3, h4, h5⟩ := noopLoop_spec g noop n (g.call s (.step noop)).after
      refine ⟨⟨rfl, h1⟩, ?_, ?_, ?_, fun _ => ⟨by simp, _, rfl, rfl⟩⟩
      · simpa [Game.call] using h2
      · intro r hr
        rcases List.mem_cons.mp hr with hr | hr
        · left; rw [hr]; rfl
        · exact h3 r hr
      · intro j r hr
        match j with
        | 0 =>
          simp at hr
          subst hr
          refine ⟨fun h => absurd (hend.mp h) he, ?_⟩
          rintro ⟨r', hr', hc⟩
          simp only [List.getElem?_cons_succ] at hr'
          rcases Nat.eq_zero_or_pos n with h0 | hpos
          · subst h0; simp [noopLoop] at hr'
          · obtain ⟨r2, h6, h7⟩ := (h5 hpos).2
            rw [hr'] at h6
            cases h6
            rw [hc] at h7; cases h7
        | j + 1 =>
          simp only [List.getElem?_cons_succ] at hr ⊢
          exact h4 j r hr

/-- **C65 (no-op reset).** With `noops ≥ 1` drawn, `NoopResetEnv.reset` resets the game and then makes exactly
`noops` no-op steps; after each of them, and only then, the game is reset again if the step ended the episode or asked
for a reset.  So the episode is running afterwards, and the observation returned is that of the last call. -/
theorem noop_reset (g : Game S A O R) (noop : A) {noops : Nat} (h : 0 < noops) (s : S) :
    ∃ (first : Rec S A O R) (calls : List (Rec S A O R)) (last : Rec S A O R) (o : O),
      noopReset g noop noops s = some (first :: calls, some o) ∧
      Spec.Chain g s (first :: calls) ∧ first.call = .reset ∧
      (calls.filter fun r => match r.call with
        | .step _ => true
        | .reset => false).length = noops ∧
      (∀ r ∈ calls, r.call = .step noop ∨ r.call = .reset) ∧
      (∀ (j : Nat) (r : Rec S A O R), calls[j]? = some r →
        (Spec.Ended r ↔ ∃ r', calls[j + 1]? = some r' ∧ r'.call = .reset)) ∧
      (∃ r, calls[0]? = some r ∧ r.call = .step noop) ∧
      calls.getLast? = some last ∧ ¬ Spec.Ended last ∧ last.ret.obs? = some o := by
  obtain ⟨h1, h2, h3, h4, h5⟩ := noopLoop_spec g noop noops (g.call s .reset).after
  obtain ⟨hne, hfirst⟩ := h5 h
  have hlast := List.getLast?_eq_some_getLast hne
  generalize hL : (noopLoop g noop noops (g.call s .reset).after).getLast hne = last at hlast
  have hchain_ret : ∀ (l : List (Rec S A O R)) (s : S), Spec.Chain g s l → ∀ r ∈ l, ∃ o, r.ret.obs? = some o := by
    intro l
    induction l with
    | nil => intro s _ r hr; cases hr
    | cons x l ih =>
      intro s hc r hr
      rcases List.mem_cons.mp hr with hr | hr
      · subst hr
        rw [hc.1]
        cases r.call <;> exact ⟨_, rfl⟩
      · exact ih _ hc.2 r hr
  obtain ⟨o, ho⟩ := hchain_ret _ _ h1 last (List.mem_of_getLast? hlast)
  refine ⟨g.call s .reset, _, last, o, ?_, ⟨rfl, h1⟩, rfl, h2, h3, h4, hfirst, hlast, ?_, ho⟩
  · unfold noopReset
    rw [if_neg (by omega)]
    simp only [hlast, Option.bind_some, ho]
  · intro hend
    rw [List.getLast?_eq_getElem?] at hlast
    obtain ⟨r', hr', _⟩ := (h4 _ _ hlast).mp hend
    have := (List.getElem?_eq_some_iff.mp hr').1
    omega

example : (noopReset limited 0 7 3).map (fun r => (r.1.map Rec.call, r.2)) =
    some ([.reset, .step 0, .step 0, .step 0, .step 0, .step 0, .step 0, .reset, .step 0], some 1) := by decide

/-! ## C69 -/

theorem stepAndRestart_spec (g : Game S A O R) (a : A) (s : S) : Spec.Chain g s (stepAndRestart g a s) ∧
    ∃ last, (stepAndRestart g a s).getLast? = some last ∧ ¬ Spec.Ended last ∧
      ((g.step s a).2.ended = false → last.ret.obs? = some (g.step s a).2.obs) := by
  unfold stepAndRestart
  by_cases he : (g.step s a).2.ended = true
  · rw [if_pos he]
    refine ⟨⟨rfl, rfl, trivial⟩, _, rfl, ?_, fun h => by rw [he] at h; cases h⟩
    rintro ⟨o, ho, _⟩
    cases ho
  · rw [if_neg he]
    refine ⟨⟨rfl, trivial⟩, _, rfl, ?_, fun _ => rfl⟩
    rintro ⟨o, ho, h⟩
    cases ho
    exact he (by unfold Out.ended; rw [Bool.or_eq_true]; exact h)

/-- **C69 (partial).** `FireResetEnv.reset` resets the game, makes the two steps, and resets again after each of
them that ended the episode, so that the episode is running afterwards.  If the second step did not end the
episode, the observation returned is that of the last call.

What is missing: if the second step ends the episode, the observation returned is the one of the episode that has
ended; see `fire_reset_stale_observation`. -/
theorem fire_reset_partial (g : Game S A O R) (fire second : A) (s : S) :
    Spec.Chain g s (fireReset g fire second s).1 ∧
    ∃ last, (fireReset g fire second s).1.getLast? = some last ∧ ¬ Spec.Ended last ∧
      (last.call ≠ .reset → last.ret.obs? = some (fireReset g fire second s).2) := by
  unfold fireReset
  simp only
  obtain ⟨h1, _⟩ := stepAndRestart_spec g fire (g.call s .reset).after
  obtain ⟨h2, last, hlast, hend, hobs⟩ := stepAndRestart_spec g second
    (finalState (g.call s .reset).after (stepAndRestart g fire (g.call s .reset).after))
  refine ⟨chain_append (l := g.call s .reset :: stepAndRestart g fire (g.call s .reset).after) ⟨rfl, h1⟩ h2,
    last, ?_, hend, ?_⟩
  · rw [List.getLast?_append, hlast]; rfl
  · intro hne
    apply hobs
    generalize finalState (g.call s .reset).after (stepAndRestart g fire (g.call s .reset).after) = s2 at hlast
    rw [← Bool.not_eq_true]
    intro he
    unfold stepAndRestart at hlast
    rw [if_pos he] at hlast
    cases hlast
    exact hne rfl

/-- **C69 fails.** If the second step ends the episode, the game is reset but the observation returned (2) is the last
one of the episode that has ended, not the first one of the new episode (0). -/
theorem fire_reset_stale_observation :
    (fireReset twoLives 1 2 0).2 = 2 ∧
    (fireReset twoLives 1 2 0).1.getLast?.map (fun r => (r.call, r.ret)) = some (.reset, .obs 0) := by decide

end Pfrl.Envs.Wrap
