import Verif.Basic
import Mathlib.Algebra.Order.Ring.Defs
import Mathlib.Algebra.BigOperators.Group.List.Basic
import Mathlib.Order.Lattice
import Mathlib.Tactic.Linarith

/-!
# In-place environment modifiers

Model of `pfrl/utils/env_modifiers.py`: functions that replace `env.step` and `env.reset` by closures around the old
ones.  The modified environment is again an environment, whose state has the closure's variables in addition.
-/

namespace Pfrl.Envs.Modifiers

open Pfrl

variable {S A B O R I : Type _}

/-! ## Model -/

/-- What `step` returns. -/
structure Out (O R I : Type _) where
  obs : O
  reward : R
  done : Bool
  info : I
  deriving DecidableEq, Repr

/-- An environment, `pfrl/env.py:4-21`: its state may change even if `step` raises. -/
structure Env (S A O R I : Type _) where
  step : S → A → S × Except PyErr (Out O R I)
  reset : S → S × O

/-- `make_timestep_limited`, `pfrl/utils/env_modifiers.py:22-39`; the natural number is `t[0]`. -/
def timestepLimited (g : Env S A O R I) (limit : ℕ) : Env (S × ℕ) A O R I where
  step s a :=
    match g.step s.1 a with
    | (s', .error e) => ((s', s.2), .error e)
    | (s', .ok o) => ((s', s.2 + 1), .ok (if s.2 ≥ limit then { o with done := true } else o))
  reset s := (((g.reset s.1).1, 1), (g.reset s.1).2)

/-- `make_action_filtered`, `pfrl/utils/env_modifiers.py:42-48`. -/
def actionFiltered (g : Env S A O R I) (f : B → A) : Env S B O R I where
  step s b := g.step s (f b)
  reset := g.reset

/-- `make_reward_filtered`, `pfrl/utils/env_modifiers.py:51-59`: the filter may have a state of its own. -/
def rewardFiltered {F R' : Type _} (g : Env S A O R I) (f : F → R → F × R') : Env (S × F) A O R' I where
  step s a :=
    match g.step s.1 a with
    | (s', .error e) => ((s', s.2), .error e)
    | (s', .ok o) => ((s', (f s.2 o.reward).1), .ok ⟨o.obs, (f s.2 o.reward).2, o.done, o.info⟩)
  reset s := (((g.reset s.1).1, s.2), (g.reset s.1).2)

/-- `make_reward_clipped`, `pfrl/utils/env_modifiers.py:62-63`; `np.clip` is `minimum(maximum(x, low), high)`. -/
def rewardClipped [LinearOrder R] (g : Env S A O R I) (low high : R) : Env (S × Unit) A O R I :=
  rewardFiltered g fun _ x => ((), min (max x low) high)

/-- The loop of `make_action_repeated`, `pfrl/utils/env_modifiers.py:75-80`: `n` rounds are left, `total` has been
accumulated and `last` holds the loop variables `obs, r, done, info`. -/
def repeatLoop [Add R] (g : Env S A O R I) (a : A) : ℕ → S → R → Option (Out O R I) → S × Except PyErr (Out O R I)
  | 0, s, total, last =>
    (s, match last with
      | none => .error .unboundLocal
      | some o => .ok { o with reward := total })
  | n + 1, s, total, _ =>
    match g.step s a with
    | (s', .error e) => (s', .error e)
    | (s', .ok o) =>
      if o.done then (s', .ok { o with reward := total + o.reward })
      else repeatLoop g a n s' (total + o.reward) (some o)

/-- `make_action_repeated`, `pfrl/utils/env_modifiers.py:66-82`. -/
def actionRepeated [Add R] [Zero R] (g : Env S A O R I) (n : ℕ) : Env S A O R I where
  step s a := repeatLoop g a n s 0 none
  reset := g.reset

/-- A call on an environment. -/
inductive Op (A : Type _) where
  | step (a : A)
  | reset
  deriving DecidableEq, Repr

/-- What a call gives. -/
inductive Res (O R I : Type _) where
  | out (o : Out O R I)
  | raised (e : PyErr)
  | obs (o : O)
  deriving DecidableEq, Repr

/-- One call. -/
def Env.call (g : Env S A O R I) (s : S) : Op A → S × Res O R I
  | .step a => ((g.step s a).1, match (g.step s a).2 with
    | .ok o => .out o
    | .error e => .raised e)
  | .reset => ((g.reset s).1, .obs (g.reset s).2)

/-- A history of calls. -/
def Env.run (g : Env S A O R I) (s : S) : List (Op A) → S × List (Res O R I)
  | [] => (s, [])
  | op :: ops => ((g.run (g.call s op).1 ops).1, (g.call s op).2 :: (g.run (g.call s op).1 ops).2)

/-! ## Specification -/

/-- The number of steps that have returned since the last reset. -/
def Spec.stepsSince (rs : List (Res O R I)) : ℕ :=
  rs.foldl (fun n r => match r with
    | .out _ => n + 1
    | .raised _ => n
    | .obs _ => 0) 0

/-- What a time limit does to the result of one call, if `k` steps have returned since the last reset. -/
def Spec.limit (limit k : ℕ) : Res O R I → Res O R I
  | .out o => .out { o with done := o.done || decide (k + 1 ≥ limit) }
  | r => r

/-- The result of a call with its reward changed by `f`. -/
def Spec.withReward {R' : Type _} (f : R → R') : Res O R I → Res O R' I
  | .out o => .out ⟨o.obs, f o.reward, o.done, o.info⟩
  | .raised e => .raised e
  | .obs o => .obs o

/-- Does this result stop the repetition of an action? -/
def Res.stops : Res O R I → Bool
  | .out o => o.done
  | .raised _ => true
  | .obs _ => false

/-- The results up to and including the first one that stops. -/
def Spec.upToStop : List (Res O R I) → List (Res O R I)
  | [] => []
  | r :: rs => if r.stops then [r] else r :: Spec.upToStop rs

/-- The rewards in a list of results. -/
def Spec.rewards (rs : List (Res O R I)) : List R :=
  rs.filterMap fun r => match r with
    | .out o => some o.reward
    | _ => none

/-! ## Lemmas -/

theorem stepsSince_concat (rs : List (Res O R I)) (r : Res O R I) :
    Spec.stepsSince (rs ++ [r]) = match r with
      | .out _ => Spec.stepsSince rs + 1
      | .raised _ => Spec.stepsSince rs
      | .obs _ => 0 := by
  simp only [Spec.stepsSince, List.foldl_append, List.foldl_cons, List.foldl_nil]

theorem limited_call (g : Env S A O R I) (limit : ℕ) (s : S) (t : ℕ) (op : Op A) (k : ℕ) (ht : t = k + 1) :
    (timestepLimited g limit).call (s, t) op =
      (((g.call s op).1, match (g.call s op).2 with
        | .out _ => t + 1
        | .raised _ => t
        | .obs _ => 1), Spec.limit limit k (g.call s op).2) := by
  subst ht
  cases op with
  | reset => rfl
  | step a =>
    rcases h : g.step s a with ⟨s', e | o⟩
    · simp only [Env.call, timestepLimited, h, Spec.limit]
    · by_cases hl : k + 1 ≥ limit <;> simp [Env.call, timestepLimited, h, Spec.limit, hl]

theorem limited_run (g : Env S A O R I) (limit : ℕ) : ∀ (ops : List (Op A)) (s : S) (t : ℕ)
    (before : List (Res O R I)), t = Spec.stepsSince before + 1 →
    ((timestepLimited g limit).run (s, t) ops).1.1 = (g.run s ops).1 ∧
      ((timestepLimited g limit).run (s, t) ops).2.length = (g.run s ops).2.length ∧
      ∀ i r, (g.run s ops).2[i]? = some r → ((timestepLimited g limit).run (s, t) ops).2[i]? =
        some (Spec.limit limit (Spec.stepsSince (before ++ (g.run s ops).2.take i)) r) := by
  intro ops
  induction ops with
  | nil => intro s t before _; exact ⟨rfl, rfl, fun i r h => by simp [Env.run] at h⟩
  | cons op ops ih =>
    intro s t before ht
    have hc := limited_call g limit s t op (Spec.stepsSince before) ht
    obtain ⟨i1, i2, i3⟩ := ih (g.call s op).1 (match (g.call s op).2 with
        | .out _ => t + 1
        | .raised _ => t
        | .obs _ => 1) (before ++ [(g.call s op).2]) (by
      rw [stepsSince_concat]
      cases (g.call s op).2 <;> simp [ht])
    simp only [Env.run, hc]
    refine ⟨i1, by simp [i2], ?_⟩
    intro i r h
    cases i with
    | zero => simpa using congrArg (Spec.limit limit (Spec.stepsSince before)) (by simpa using h)
    | succ i =>
      have h' : (g.run (g.call s op).1 ops).2[i]? = some r := by simpa using h
      have := i3 i r h'
      simpa [List.append_assoc] using this

theorem run_append (g : Env S A O R I) (s : S) (xs ys : List (Op A)) :
    g.run s (xs ++ ys) = ((g.run (g.run s xs).1 ys).1, (g.run s xs).2 ++ (g.run (g.run s xs).1 ys).2) := by
  induction xs generalizing s with
  | nil => rfl
  | cons x xs ih => simp [Env.run, ih]

/-! ## C95: environment modifiers -/

/-- C95, time limit: in every history of calls on an environment modified by `make_timestep_limited`, the original
environment sees the same calls and ends in the same state; observations, rewards, infos and exceptions are passed on; and
a step is reported as done exactly if it is done in the original environment or it is at least the `limit`-th step since
the last reset. -/
theorem timestep_limited (g : Env S A O R I) (limit : ℕ) (s : S) (ops : List (Op A)) :
    ((timestepLimited g limit).run (s, 1) ops).1.1 = (g.run s ops).1 ∧
      ((timestepLimited g limit).run (s, 1) ops).2.length = (g.run s ops).2.length ∧
      ∀ i r, (g.run s ops).2[i]? = some r → ((timestepLimited g limit).run (s, 1) ops).2[i]? =
        some (Spec.limit limit (Spec.stepsSince ((g.run s ops).2.take i)) r) := by
  simpa using limited_run g limit ops s 1 [] rfl

theorem repeatLoop_spec [AddMonoid R] (g : Env S A O R I) (a : A) : ∀ (n : ℕ) (s : S) (total : R)
    (last : Option (Out O R I)), 0 < n →
    ∃ r, (Spec.upToStop (g.run s (List.replicate n (.step a))).2).getLast? = some r ∧
      (repeatLoop g a n s total last).1 =
        (g.run s (List.replicate (Spec.upToStop (g.run s (List.replicate n (.step a))).2).length (.step a))).1 ∧
      (∀ e, r = .raised e → (repeatLoop g a n s total last).2 = .error e) ∧
      ∀ o, r = .out o → (repeatLoop g a n s total last).2 = .ok { o with
        reward := total + (Spec.rewards (Spec.upToStop (g.run s (List.replicate n (.step a))).2)).sum } := by
  intro n
  induction n with
  | zero => intro _ _ _ h; exact absurd h (by omega)
  | succ n ih =>
    intro s total last _
    rw [List.replicate_succ]
    simp only [Env.run, Spec.upToStop]
    rcases hs : g.step s a with ⟨s', e | o⟩
    · refine ⟨.raised e, ?_⟩
      simp [Env.call, hs, Res.stops, repeatLoop, Env.run]
    · by_cases hd : o.done = true
      · refine ⟨.out o, ?_⟩
        simp [Env.call, hs, Res.stops, repeatLoop, hd, Env.run, Spec.rewards]
      · rcases Nat.eq_zero_or_pos n with hn | hn
        · subst hn
          refine ⟨.out o, ?_⟩
          simp [Env.call, hs, Res.stops, repeatLoop, hd, Env.run, Spec.rewards, Spec.upToStop]
        · obtain ⟨r, h1, h2, h3, h4⟩ := ih s' (total + o.reward) (some o) hn
          refine ⟨r, ?_⟩
          have hc : g.call s (.step a) = (s', .out o) := by simp [Env.call, hs]
          have hst : (Res.out o : Res O R I).stops = false := by simpa [Res.stops] using hd
          have hl : repeatLoop g a (n + 1) s total last = repeatLoop g a n s' (total + o.reward) (some o) := by
            simp [repeatLoop, hs, hd]
          rw [hc, hl]
          simp only [hst, Bool.false_eq_true, if_false, List.length_cons]
          refine ⟨?_, ?_, h3, fun o' ho' => ?_⟩
          · rw [List.getLast?_cons, h1]; rfl
          · rw [h2, List.replicate_succ]
            simp only [Env.run, hc]
          · rw [h4 o' ho']
            simp [Spec.rewards, add_assoc]

/-- C95, action repetition: a step of an environment modified by `make_action_repeated` with `n_times ≥ 1` repeats the action in
the original environment until a step is done or raises, or `n_times` steps have been made; it returns the observation, done
flag and info of the last of these steps with the sum of all their rewards, or raises what that step raised. -/
theorem action_repeated [AddMonoid R] (g : Env S A O R I) (n : ℕ) (hn : 0 < n) (s : S) (a : A) :
    let steps := Spec.upToStop (g.run s (List.replicate n (.step a))).2
    ((actionRepeated g n).step s a).1 = (g.run s (List.replicate steps.length (.step a))).1 ∧
      ∃ r, steps.getLast? = some r ∧
        (∀ e, r = .raised e → ((actionRepeated g n).step s a).2 = .error e) ∧
        ∀ o, r = .out o → ((actionRepeated g n).step s a).2 = .ok { o with reward := (Spec.rewards steps).sum } := by
  intro steps
  obtain ⟨r, h1, h2, h3, h4⟩ := repeatLoop_spec g a n s 0 none hn
  refine ⟨h2, r, h1, h3, fun o ho => ?_⟩
  have := h4 o ho
  rw [zero_add] at this
  exact this

/-- With `n_times = 0` every step raises (`UnboundLocalError`). -/
theorem action_repeated_zero [AddMonoid R] (g : Env S A O R I) (s : S) (a : A) :
    (actionRepeated g 0).step s a = (s, .error .unboundLocal) := rfl

/-- C95, clipping: rewards are clipped into `[low, high]`, rewards inside are unchanged, and nothing else changes. -/
theorem reward_clipped [LinearOrder R] (g : Env S A O R I) (low high : R) (h : low ≤ high) (s : S) (a : A) :
    ((rewardClipped g low high).step (s, ()) a).1.1 = (g.step s a).1 ∧
      ((rewardClipped g low high).reset (s, ())).1.1 = (g.reset s).1 ∧
      ((rewardClipped g low high).reset (s, ())).2 = (g.reset s).2 ∧
      (∀ e, (g.step s a).2 = .error e → ((rewardClipped g low high).step (s, ()) a).2 = .error e) ∧
      ∀ o, (g.step s a).2 = .ok o → ∃ o', ((rewardClipped g low high).step (s, ()) a).2 = .ok o' ∧
        o'.obs = o.obs ∧ o'.done = o.done ∧ o'.info = o.info ∧ low ≤ o'.reward ∧ o'.reward ≤ high ∧
        (low ≤ o.reward → o.reward ≤ high → o'.reward = o.reward) ∧ (o.reward < low → o'.reward = low) ∧
        (high < o.reward → o'.reward = high) := by
  unfold rewardClipped rewardFiltered
  rcases hs : g.step s a with ⟨s', e | o⟩
  · simp [hs]
  · simp only [hs]
    refine ⟨trivial, trivial, trivial, ?_, ?_⟩
    · intro e he; simp at he
    · intro o' ho'
      cases ho'
      refine ⟨_, rfl, rfl, rfl, rfl, le_min (le_max_right _ _) h, min_le_right _ _, ?_, ?_, ?_⟩
      · intro h1 h2; simp [h1, h2]
      · intro h1; simp [h1.le, h]
      · intro h1; simp [h1.le]

/-- The calls with their actions changed by `h`. -/
def Spec.mapAction (h : B → A) : Op B → Op A
  | .step b => .step (h b)
  | .reset => .reset

/-- C95, filters: a filtered action is all the original environment sees, and the filtered reward is all that changes in what
is returned; a stateful filter sees every reward exactly once, in order, and is not reset with the environment. -/
theorem filtered {F R' : Type _} (g : Env S A O R I) (f : F → R → F × R') (h : B → A) (s : S) (c : F)
    (ops : List (Op A)) :
    (∀ bops, (actionFiltered g h).run s bops = g.run s (bops.map (Spec.mapAction h))) ∧
      ((rewardFiltered g f).run (s, c) ops).1.1 = (g.run s ops).1 ∧
      ((rewardFiltered g f).run (s, c) ops).1.2 = (Spec.rewards (g.run s ops).2).foldl (fun c r => (f c r).1) c ∧
      ((rewardFiltered g f).run (s, c) ops).2.length = (g.run s ops).2.length ∧
      ∀ i r, (g.run s ops).2[i]? = some r → ((rewardFiltered g f).run (s, c) ops).2[i]? =
        some (Spec.withReward
          (fun x => (f ((Spec.rewards ((g.run s ops).2.take i)).foldl (fun c r => (f c r).1) c) x).2) r) := by
  refine ⟨fun bops => ?_, ?_⟩
  · induction bops generalizing s with
    | nil => rfl
    | cons b bops ih =>
      cases b with
      | step b => simp only [List.map_cons, Env.run, ih, Spec.mapAction]; rfl
      | reset => simp only [List.map_cons, Env.run, ih, Spec.mapAction]; rfl
  induction ops generalizing s c with
  | nil => exact ⟨rfl, rfl, rfl, fun i r hr => by simp [Env.run] at hr⟩
  | cons op ops ih =>
    have hc : (rewardFiltered g f).call (s, c) op = (((g.call s op).1,
        (Spec.rewards [(g.call s op).2]).foldl (fun c r => (f c r).1) c),
        Spec.withReward (fun x => (f c x).2) (g.call s op).2) := by
      cases op with
      | reset => rfl
      | step a =>
        rcases h : g.step s a with ⟨s', e | o⟩ <;>
          simp [Env.call, rewardFiltered, h, Spec.withReward, Spec.rewards]
    obtain ⟨i1, i2, i3, i4⟩ := ih (g.call s op).1 ((Spec.rewards [(g.call s op).2]).foldl (fun c r => (f c r).1) c)
    have hr : ∀ rs, Spec.rewards ((g.call s op).2 :: rs) = Spec.rewards [(g.call s op).2] ++ Spec.rewards rs := by
      intro rs
      unfold Spec.rewards
      rw [← List.filterMap_append]; rfl
    simp only [Env.run, hc]
    refine ⟨i1, by rw [i2, hr (g.run (g.call s op).1 ops).2, List.foldl_append], by simp [i3], ?_⟩
    intro i r h
    cases i with
    | zero =>
      have h' : (g.call s op).2 = r := by simpa using h
      subst h'
      simp [Spec.rewards]
    | succ i =>
      have h' : (g.run (g.call s op).1 ops).2[i]? = some r := by simpa using h
      have := i4 i r h'
      simp only [List.getElem?_cons_succ, List.take_succ_cons]
      rw [this, hr ((g.run (g.call s op).1 ops).2.take i), List.foldl_append]

/-! ### The order of modifiers -/

theorem repeat_limited_step [AddMonoid R] (g : Env S A O R I) (limit : ℕ) (a : A) : ∀ (n : ℕ) (s : S) (t : ℕ) (total : R)
    (last : Option (Out O R I)) (o : Out O R I), (∀ l, last = some l → t ≤ limit) → 
    (repeatLoop (timestepLimited g limit) a n (s, t) total last).2 = .ok o → o.done = false →
    (repeatLoop (timestepLimited g limit) a n (s, t) total last).1.2 = t + n ∧ t + n ≤ limit := by
  intro n
  induction n with
  | zero =>
    intro s t total last o hl h hd
    cases last with
    | none => simp [repeatLoop] at h
    | some l => exact ⟨rfl, hl l rfl⟩
  | succ n ih =>
    intro s t total last o hl h hd
    unfold repeatLoop at h ⊢
    unfold timestepLimited at h ⊢
    simp only at h ⊢
    rcases hs : g.step s a with ⟨s', e | o'⟩
    · simp [hs] at h
    · simp only [hs] at h ⊢
      by_cases hlim : t ≥ limit
      · simp only [hlim, if_true] at h
        simp only [Except.ok.injEq] at h
        rw [← h] at hd
        simp at hd
      · simp only [hlim, if_false] at h ⊢
        by_cases hd' : o'.done = true
        · simp only [hd', if_true, Except.ok.injEq] at h
          rw [← h] at hd
          simp at hd
        · simp only [hd'] at h ⊢
          obtain ⟨i1, i2⟩ := ih s' (t + 1) (total + o'.reward) (some o') o (fun _ _ => by omega) h hd
          exact ⟨by rw [show t + (n + 1) = t + 1 + n by omega]; exact i1, by omega⟩

/-- C95, limit first: if the environment is limited and then the actions are repeated, the limit counts steps of the original
environment: as long as no decision of an episode has been done, `n_times * decisions` is below the limit. -/
theorem limit_counts_frames [AddMonoid R] (g : Env S A O R I) (limit n : ℕ) (s : S × ℕ) (as : List A) (ha : as ≠ [])
    (h : ∀ r ∈ ((actionRepeated (timestepLimited g limit) n).run s (.reset :: as.map .step)).2.tail,
      ∃ o, r = .out o ∧ o.done = false) :
    n * as.length < limit := by
  have key : ∀ (as : List A) (s : S × ℕ),
      (∀ r ∈ ((actionRepeated (timestepLimited g limit) n).run s (as.map .step)).2, ∃ o, r = .out o ∧ o.done = false) →
      as = [] ∨ s.2 + n * as.length ≤ limit := by
    intro as
    induction as with
    | nil => intro s _; exact Or.inl rfl
    | cons a as ih =>
      intro s h
      right
      simp only [List.map_cons, Env.run, List.mem_cons] at h
      obtain ⟨o, ho, hd⟩ := h _ (Or.inl rfl)
      have hcall : (repeatLoop (timestepLimited g limit) a n s 0 none).2 = .ok o := by
        simp only [Env.call, actionRepeated] at ho
        revert ho
        cases (repeatLoop (timestepLimited g limit) a n s 0 none).2 <;> simp
      obtain ⟨e1, e2⟩ := repeat_limited_step g limit a n s.1 s.2 0 none o (fun _ h => by cases h) hcall hd
      have hi := ih ((actionRepeated (timestepLimited g limit) n).call s (.step a)).1
        (fun r hr => h r (Or.inr hr))
      have e1' : ((actionRepeated (timestepLimited g limit) n).call s (.step a)).1.2 = s.2 + n := e1
      rw [e1'] at hi
      rcases hi with hi | hi
      · subst hi; simpa using e2
      · rw [List.length_cons, Nat.mul_succ]; omega
  have := key as ((actionRepeated (timestepLimited g limit) n).call s .reset).1 (by
    intro r hr
    exact h r (by simpa [Env.run] using hr))
  rcases this with h' | h'
  · exact absurd h' ha
  · have e : ((actionRepeated (timestepLimited g limit) n).call s .reset).1.2 = 1 := rfl
    rw [e] at h'
    omega

/-- C95, limit last: if the actions are repeated and then the environment is limited, the limit counts decisions. -/
theorem limit_counts_decisions [AddMonoid R] (g : Env S A O R I) (limit n : ℕ) (s : S × ℕ) (as : List A) (ha : as ≠ [])
    (h : ∀ r ∈ ((timestepLimited (actionRepeated g n) limit).run s (.reset :: as.map .step)).2.tail,
      ∃ o, r = .out o ∧ o.done = false) :
    as.length < limit := by
  have key : ∀ (as : List A) (s : S × ℕ),
      (∀ r ∈ ((timestepLimited (actionRepeated g n) limit).run s (as.map .step)).2, ∃ o, r = .out o ∧ o.done = false) →
      as = [] ∨ s.2 + as.length ≤ limit := by
    intro as
    induction as with
    | nil => intro s _; exact Or.inl rfl
    | cons a as ih =>
      intro s h
      right
      simp only [List.map_cons, Env.run, List.mem_cons] at h
      obtain ⟨o, ho, hd⟩ := h _ (Or.inl rfl)
      have hi := ih _ (fun r hr => h r (Or.inr hr))
      rcases hs : (actionRepeated g n).step s.1 a with ⟨s', e | o'⟩
      · simp [Env.call, timestepLimited, hs] at ho
      · simp only [Env.call, timestepLimited, hs] at ho hi
        by_cases hlim : s.2 ≥ limit
        · simp only [hlim, if_true] at ho
          cases ho
          simp at hd
        · rw [List.length_cons]
          rcases hi with hi | hi
          · subst hi; simp; omega
          · omega
  have := key as ((timestepLimited (actionRepeated g n) limit).call s .reset).1 (by
    intro r hr
    exact h r (by simpa [Env.run] using hr))
  rcases this with h' | h'
  · exact absurd h' ha
  · have e : ((timestepLimited (actionRepeated g n) limit).call s .reset).1.2 = 1 := rfl
    rw [e] at h'
    omega

/-- An environment that counts its steps, done at step 7; the reward is the number of the step. -/
def counting : Env ℕ Unit ℕ ℤ Unit := ⟨fun s _ => (s + 1, .ok ⟨s + 1, s + 1, s + 1 == 7, ()⟩), fun _ => (0, 0)⟩

example : ((timestepLimited counting 3).run (5, 1) [.reset, .step (), .step (), .step (), .step (), .reset, .step ()]).2 =
    [.obs 0, .out ⟨1, 1, false, ()⟩, .out ⟨2, 2, false, ()⟩, .out ⟨3, 3, true, ()⟩, .out ⟨4, 4, true, ()⟩, .obs 0,
      .out ⟨1, 1, false, ()⟩] := by decide

/-- Repeating four times: the second decision stops at step 7. -/
example : ((actionRepeated counting 4).run 0 [.reset, .step (), .step ()]).2 =
    [.obs 0, .out ⟨4, 10, false, ()⟩, .out ⟨7, 18, true, ()⟩] := by decide

/-- Limit 5, then repeat 2: two decisions are not done, and `2 * 2 < 5`; the third ends in its first step. -/
example : ((actionRepeated (timestepLimited counting 5) 2).run (0, 1) [.reset, .step (), .step (), .step ()]).2 =
    [.obs 0, .out ⟨2, 3, false, ()⟩, .out ⟨4, 7, false, ()⟩, .out ⟨5, 5, true, ()⟩] := by decide

example : ((rewardClipped counting 0 2).run (0, ()) [.step (), .step (), .step ()]).2 =
    [.out ⟨1, 1, false, ()⟩, .out ⟨2, 2, false, ()⟩, .out ⟨3, 2, false, ()⟩] := by decide

end Pfrl.Envs.Modifiers
