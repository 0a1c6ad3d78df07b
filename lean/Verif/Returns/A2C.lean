import Verif.Returns.Disc

/-!
# Returns in A2C (C25)

All tensor operations of `A2C` on the rollout storage act on each process (environment) separately,
so the model follows one of the `num_processes` columns.  A network enters only through the values
it predicts, which are arbitrary.
-/

namespace Pfrl.Returns

set_option linter.unusedSectionVars false

variable {K : Type _} [CommRing K]

/-! ## Model -/

/-- One column of the rollout storage, `pfrl/agents/a2c.py:110-146`. -/
structure Storage (K : Type _) where
  rewards : Nat → K
  masks : Nat → K
  valuePreds : Nat → K
  returns : Nat → K

/-- `_flush_storage`, `pfrl/agents/a2c.py:110-149`: zeros and ones. -/
def Storage.fresh : Storage K := ⟨fun _ => 0, fun _ => 1, fun _ => 0, fun _ => 0⟩

/-- The constructor arguments that matter, `pfrl/agents/a2c.py:55-98`. -/
structure A2CCfg (K : Type _) where
  gamma : K
  useGae : Bool
  tau : K
  updateSteps : Nat

/-- `pfrl/agents/a2c.py:102-103` and the storage, which does not exist before the first
`_flush_storage`.  `updates` records the returns used by each update so far. -/
structure A2C (K : Type _) where
  t : Nat
  tStart : Nat
  storage : Option (Storage K)
  updates : List (List K)

/-- The loop of `pfrl/agents/a2c.py:152-161`; the first argument is the number of iterations left,
so the loop runs over `reversed(range(update_steps))`. -/
def gaeLoop (γ tau : K) (r m v : Nat → K) : Nat → K → (Nat → K) → (Nat → K)
  | 0, _, ret => ret
  | i + 1, gae, ret =>
    let delta := r i + γ * v (i + 1) * m i - v i
    let gae := delta + γ * tau * m i * gae
    gaeLoop γ tau r m v i gae (Function.update ret i (gae + v i))

/-- The loop of `pfrl/agents/a2c.py:163-167`. -/
def plainLoop (γ : K) (r m : Nat → K) : Nat → (Nat → K) → (Nat → K)
  | 0, ret => ret
  | i + 1, ret => plainLoop γ r m i (Function.update ret i (r i + γ * ret (i + 1) * m i))

/-- `_compute_returns`, `pfrl/agents/a2c.py:150-167`. -/
def computeReturns (c : A2CCfg K) (s : Storage K) (nextValue : K) : Storage K :=
  if c.useGae then
    let v := Function.update s.valuePreds c.updateSteps nextValue
    { s with valuePreds := v
             returns := gaeLoop c.gamma c.tau s.rewards s.masks v c.updateSteps 0 s.returns }
  else
    let ret := Function.update s.returns c.updateSteps nextValue
    { s with returns := plainLoop c.gamma s.rewards s.masks c.updateSteps ret }

/-- `update`, `pfrl/agents/a2c.py:169-204`, without the gradient step: the returns
`self.returns[:-1]` it uses are recorded. -/
def A2C.update (c : A2CCfg K) (a : A2C K) (nextValue : K) : Except PyErr (A2C K) :=
  match a.storage with
  | none => .error .attributeError
  | some s =>
    let s' := computeReturns c s nextValue
    .ok { a with storage := some s', tStart := a.t
                 updates := a.updates ++ [(List.range c.updateSteps).map s'.returns] }

/-- `_batch_act_train`, `pfrl/agents/a2c.py:226-248`; `value` is the value predicted for the current
observation, `nextValue` what `update` would predict for `states[-1]`.  Writing outside the storage
raises. -/
def A2C.act (c : A2CCfg K) (a : A2C K) (value nextValue : K) : Except PyErr (A2C K) :=
  let a := if a.t = 0 then { a with storage := some Storage.fresh } else a
  match a.storage with
  | none => .error .attributeError
  | some _ =>
    if c.updateSteps + 1 ≤ a.t - a.tStart then .error .indexError
    else
      let updated := if a.t - a.tStart = c.updateSteps then a.update c nextValue else .ok a
      match updated with
      | .error e => .error e
      | .ok a =>
        match a.storage with
        | none => .error .attributeError
        | some s =>
          if c.updateSteps ≤ a.t - a.tStart then .error .indexError
          else .ok { a with storage := some { s with
            valuePreds := Function.update s.valuePreds (a.t - a.tStart) value } }

/-- `_batch_observe_train`, `pfrl/agents/a2c.py:260-286`. -/
def A2C.observe (c : A2CCfg K) (a : A2C K) (reward : K) (done reset : Bool) (nextValue : K) :
    Except PyErr (A2C K) :=
  let a := { a with t := a.t + 1 }
  let done := if reset then true else done
  match a.storage with
  | none => .error .attributeError
  | some s =>
    let i := a.t - a.tStart - 1
    if c.updateSteps ≤ i then .error .indexError
    else
      let s := { s with masks := Function.update s.masks i (if done then 0 else 1)
                        rewards := Function.update s.rewards i reward }
      let a := { a with storage := some s }
      if a.t - a.tStart = c.updateSteps then a.update c nextValue else .ok a

/-- What happens in one step of the environment: the value predicted for the observation acted upon,
the reward, the flags, and the value that an update at this point would predict for the next
observation. -/
structure Turn (K : Type _) where
  value : K
  reward : K
  done : Bool
  reset : Bool
  boot : K

/-- One step of the training loop: act, then observe. -/
def A2C.turn (c : A2CCfg K) (a : A2C K) (s : Turn K) : Except PyErr (A2C K) :=
  match a.act c s.value s.boot with
  | .error e => .error e
  | .ok a => a.observe c s.reward s.done s.reset s.boot

/-- A training history. -/
def A2C.run (c : A2CCfg K) (a : A2C K) : List (Turn K) → Except PyErr (A2C K)
  | [] => .ok a
  | s :: rest =>
    match a.turn c s with
    | .error e => .error e
    | .ok a => A2C.run c a rest

/-- A new agent, `pfrl/agents/a2c.py:102-103`. -/
def A2C.new : A2C K := ⟨0, 0, none, []⟩

/-! ## Specification -/

/-- The episode ends with this step. -/
def Turn.ended (s : Turn K) : Bool := s.done || s.reset

/-- The steps up to and including the first one that ends the episode (all, if none does). -/
def Spec.segment : List (Turn K) → List (Turn K)
  | [] => []
  | s :: rest => if s.ended then [s] else s :: Spec.segment rest

/-- Discounted rewards up to the end of the episode; bootstrapped with `boot` only if the episode does
not end. -/
def Spec.nStepReturn (γ boot : K) (l : List (Turn K)) : K :=
  Spec.disc γ ((Spec.segment l).map Turn.reward)
    + if l.any Turn.ended then 0 else γ ^ l.length * boot

/-- Temporal difference errors of consecutive steps; the value after the last one is `boot`, and the
value after an episode end is 0. -/
def Spec.tdErrors (γ boot : K) : List (Turn K) → List K
  | [] => []
  | s :: rest =>
    (s.reward + (if s.ended then 0 else γ * (rest.head?.map Turn.value).getD boot) - s.value)
      :: Spec.tdErrors γ boot rest

/-- Generalised advantage up to the end of the episode, plus the value. -/
def Spec.gaeReturn (γ tau boot : K) (l : List (Turn K)) : K :=
  Spec.disc (γ * tau) (Spec.tdErrors γ boot (Spec.segment l)) + (l.head?.map Turn.value).getD 0

/-- The return of the first of the steps `l`, the last steps of a rollout. -/
def Spec.a2cReturn (c : A2CCfg K) (boot : K) (l : List (Turn K)) : K :=
  if c.useGae then Spec.gaeReturn c.gamma c.tau boot l else Spec.nStepReturn c.gamma boot l

/-- Returns of all steps of a rollout. -/
def Spec.rolloutReturns (c : A2CCfg K) (block : List (Turn K)) : List K :=
  (List.range block.length).map fun i =>
    Spec.a2cReturn c ((block.getLast?.map Turn.boot).getD 0) (block.drop i)

/-! ## Lemmas -/

/-- The return by recursion. -/
def recReturn (γ boot : K) : List (Turn K) → K
  | [] => boot
  | s :: rest => s.reward + γ * (if s.ended then 0 else recReturn γ boot rest)

/-- The advantage by recursion. -/
def recGae (γ tau boot : K) : List (Turn K) → K
  | [] => 0
  | s :: rest =>
    (s.reward + (if s.ended then 0 else γ * (rest.head?.map Turn.value).getD boot) - s.value)
      + γ * tau * (if s.ended then 0 else recGae γ tau boot rest)

theorem nStepReturn_eq_rec (γ boot : K) (l : List (Turn K)) :
    Spec.nStepReturn γ boot l = recReturn γ boot l := by
  induction l with
  | nil => simp [Spec.nStepReturn, recReturn, Spec.segment]
  | cons s rest ih =>
    unfold Spec.nStepReturn at ih ⊢
    simp only [recReturn, Spec.segment, List.any_cons, ← ih]
    by_cases hs : s.ended = true
    · simp [hs]
    · simp only [Bool.not_eq_true] at hs
      simp only [hs, Bool.false_eq_true, if_false, Bool.false_or, List.map_cons, disc_cons,
        List.length_cons, pow_succ]
      split <;> ring

theorem head_segment (l : List (Turn K)) : (Spec.segment l).head? = l.head? := by
  cases l with
  | nil => rfl
  | cons s rest => simp only [Spec.segment]; split <;> rfl

theorem gae_eq_rec (γ tau boot : K) (l : List (Turn K)) :
    Spec.disc (γ * tau) (Spec.tdErrors γ boot (Spec.segment l)) = recGae γ tau boot l := by
  induction l with
  | nil => simp [Spec.segment, Spec.tdErrors, recGae]
  | cons s rest ih =>
    simp only [recGae, Spec.segment, ← ih]
    cases hs : s.ended with
    | true => simp [Spec.tdErrors, hs]
    | false =>
      simp only [Bool.false_eq_true, if_false, Spec.tdErrors, disc_cons, hs, head_segment]

/-- The storage agrees with the first `n` steps of `block`. -/
structure Agrees (s : Storage K) (block : List (Turn K)) : Prop where
  rewards : ∀ i (h : i < block.length), s.rewards i = block[i].reward
  masks : ∀ i (h : i < block.length), s.masks i = if block[i].ended then 0 else 1
  values : ∀ i (h : i < block.length), s.valuePreds i = block[i].value

theorem plainLoop_spec (γ boot : K) {s : Storage K} {block : List (Turn K)} (h : Agrees s block) :
    ∀ (n : Nat) (ret : Nat → K), n ≤ block.length →
      (∀ j, n ≤ j → j ≤ block.length → ret j = recReturn γ boot (block.drop j)) →
      ∀ j, j ≤ block.length →
        plainLoop γ s.rewards s.masks n ret j = recReturn γ boot (block.drop j) := by
  intro n
  induction n with
  | zero => intro ret _ hr j hj; exact hr j (Nat.zero_le _) hj
  | succ n ih =>
    intro ret hn hr
    apply ih _ (by omega)
    intro j hj hj'
    by_cases hjn : j = n
    · subst hjn
      rw [Function.update_self, List.drop_eq_getElem_cons (by omega)]
      simp only [recReturn]
      rw [h.rewards j (by omega), h.masks j (by omega), hr (j + 1) (Nat.le_refl _) (by omega)]
      split <;> ring
    · rw [Function.update_of_ne hjn]
      exact hr j (by omega) hj'

theorem gaeLoop_spec (γ tau boot : K) {s : Storage K} {block : List (Turn K)} (h : Agrees s block)
    (v : Nat → K) (hv : ∀ i, i < block.length → v i = s.valuePreds i) (hvl : v block.length = boot) :
    ∀ (n : Nat) (gae : K) (ret : Nat → K), n ≤ block.length →
      gae = recGae γ tau boot (block.drop n) →
      (∀ j, n ≤ j → j < block.length → ret j = recGae γ tau boot (block.drop j) + v j) →
      ∀ j, j < block.length →
        gaeLoop γ tau s.rewards s.masks v n gae ret j = recGae γ tau boot (block.drop j) + v j := by
  intro n
  induction n with
  | zero => intro gae ret _ _ hr j hj; exact hr j (Nat.zero_le _) hj
  | succ n ih =>
    intro gae ret hn hg hr
    have hstep : s.rewards n + γ * v (n + 1) * s.masks n - v n + γ * tau * s.masks n * gae
        = recGae γ tau boot (block.drop n) := by
      rw [List.drop_eq_getElem_cons (by omega)]
      simp only [recGae]
      have hnext : ((block.drop (n + 1)).head?.map Turn.value).getD boot = v (n + 1) := by
        rw [List.head?_drop]
        by_cases hlt : n + 1 < block.length
        · rw [List.getElem?_eq_getElem hlt]
          simp only [Option.map_some, Option.getD_some]
          rw [hv _ hlt, h.values _ hlt]
        · rw [List.getElem?_eq_none (by omega)]
          simp only [Option.map_none, Option.getD_none]
          rw [show n + 1 = block.length by omega, hvl]
      rw [hnext, h.rewards n (by omega), h.masks n (by omega), hv n (by omega), h.values n (by omega),
        hg]
      split <;> ring
    simp only [gaeLoop, hstep]
    apply ih _ _ (by omega) rfl
    intro j hj hj'
    by_cases hjn : j = n
    · subst hjn; rw [Function.update_self]
    · rw [Function.update_of_ne hjn]; exact hr j (by omega) hj'

theorem computeReturns_spec (c : A2CCfg K) {s : Storage K} {block : List (Turn K)}
    (h : Agrees s block) (hl : block.length = c.updateSteps) (boot : K) :
    (List.range c.updateSteps).map (computeReturns c s boot).returns
      = (List.range block.length).map fun i => Spec.a2cReturn c boot (block.drop i) := by
  rw [← hl]
  apply List.map_congr_left
  intro i hi
  rw [List.mem_range] at hi
  unfold computeReturns Spec.a2cReturn
  cases hg : c.useGae with
  | true =>
    simp only [if_true]
    have hvi : ∀ i, i < block.length →
        Function.update s.valuePreds c.updateSteps boot i = s.valuePreds i :=
      fun i hi => Function.update_of_ne (by omega) _ _
    have := gaeLoop_spec c.gamma c.tau boot h (Function.update s.valuePreds c.updateSteps boot)
      hvi (by rw [hl, Function.update_self]) c.updateSteps 0 s.returns (by omega)
      (by rw [List.drop_eq_nil_of_le (by omega)]; rfl) (fun j h1 h2 => by omega) i hi
    rw [this, hvi i hi, h.values i hi]
    unfold Spec.gaeReturn
    rw [gae_eq_rec]
    simp [List.head?_drop, hi]
  | false =>
    simp only [Bool.false_eq_true, if_false]
    rw [nStepReturn_eq_rec]
    apply plainLoop_spec c.gamma boot h c.updateSteps _ (by omega) _ i (by omega)
    intro j h1 h2
    have : j = c.updateSteps := by omega
    subst this
    rw [Function.update_self, List.drop_eq_nil_of_le (by omega)]
    rfl

/-- State of the agent after the steps `cur` of the current rollout. -/
structure InRollout (c : A2CCfg K) (a : A2C K) (cur : List (Turn K)) : Prop where
  t : a.t = a.tStart + cur.length
  lt : cur.length < c.updateSteps
  fresh : a.t ≠ 0 → ∃ s, a.storage = some s ∧ Agrees s cur
  zero : a.t = 0 → cur = []

theorem turn_spec (c : A2CCfg K) {a : A2C K} {cur : List (Turn K)} (h : InRollout c a cur)
    (s : Turn K) :
    ∃ a', a.turn c s = .ok a' ∧
      (if cur.length + 1 = c.updateSteps
        then InRollout c a' [] ∧ a'.updates = a.updates ++ [Spec.rolloutReturns c (cur ++ [s])]
        else InRollout c a' (cur ++ [s]) ∧ a'.updates = a.updates) := by
  have hlt := h.lt
  -- the storage that `act` starts from
  obtain ⟨st, hst, hag⟩ : ∃ st, (if a.t = 0 then { a with storage := some Storage.fresh } else a)
      = ({ a with storage := some st } : A2C K) ∧ Agrees st cur := by
    by_cases h0 : a.t = 0
    · refine ⟨Storage.fresh, by rw [if_pos h0], ?_⟩
      rw [h.zero h0]
      exact ⟨by simp, by simp, by simp⟩
    · obtain ⟨st, h1, h2⟩ := h.fresh h0
      exact ⟨st, by rw [if_neg h0, ← h1], h2⟩
  have hd : a.t - a.tStart = cur.length := by have := h.t; omega
  have hact : a.act c s.value s.boot = .ok { a with storage := some { st with
      valuePreds := Function.update st.valuePreds cur.length s.value } } := by
    unfold A2C.act
    simp only [hst, hd]
    rw [if_neg (by omega), if_neg (by omega)]
    simp only [hd]
    rw [if_neg (by omega)]
  unfold A2C.turn
  rw [hact]
  simp only [A2C.observe]
  have hd' : a.t + 1 - a.tStart = cur.length + 1 := by have := h.t; omega
  simp only [hd', Nat.add_sub_cancel]
  rw [if_neg (by omega)]
  have hdone : (if s.reset = true then true else s.done) = s.ended := by
    unfold Turn.ended; cases s.reset <;> cases s.done <;> rfl
  rw [hdone]
  have hag' : Agrees ({ st with
      valuePreds := Function.update st.valuePreds cur.length s.value
      masks := Function.update st.masks cur.length (if s.ended then 0 else 1)
      rewards := Function.update st.rewards cur.length s.reward } : Storage K) (cur ++ [s]) := by
    constructor
    all_goals
      intro i hi
      rw [List.length_append, List.length_singleton] at hi
      by_cases hc : i = cur.length
      · subst hc; simp
      · simp only [Function.update_of_ne hc]
        rw [List.getElem_append_left (by omega)]
        first
          | exact hag.rewards i (by omega)
          | exact hag.masks i (by omega)
          | exact hag.values i (by omega)
  by_cases hfull : cur.length + 1 = c.updateSteps
  · simp only [if_pos hfull]
    unfold A2C.update
    simp only
    refine ⟨_, rfl, ⟨⟨by simp, by simp; omega, fun _ => ⟨_, rfl, by simp, by simp, by simp⟩,
      fun _ => rfl⟩, ?_⟩⟩
    simp only
    congr 2
    have := computeReturns_spec c hag' (by simpa using hfull) s.boot
    rw [this]
    unfold Spec.rolloutReturns
    simp
  · simp only [if_neg hfull]
    refine ⟨_, rfl, ⟨?_, ?_, ?_, ?_⟩, rfl⟩
    · simp only [List.length_append, List.length_singleton]; have := h.t; omega
    · rw [List.length_append, List.length_singleton]; omega
    · intro _; exact ⟨_, rfl, hag'⟩
    · intro h0; simp at h0

theorem run_rollout (c : A2CCfg K) : ∀ (rest cur : List (Turn K)) {a : A2C K}, InRollout c a cur →
    cur.length + rest.length = c.updateSteps → rest ≠ [] →
    ∃ a', a.run c rest = .ok a' ∧ InRollout c a' [] ∧
      a'.updates = a.updates ++ [Spec.rolloutReturns c (cur ++ rest)] := by
  intro rest
  induction rest with
  | nil => intro cur a _ _ h; exact absurd rfl h
  | cons s rest ih =>
    intro cur a h hl _
    obtain ⟨a1, h1, h2⟩ := turn_spec c h s
    simp only [A2C.run, h1]
    cases rest with
    | nil =>
      rw [if_pos (by simpa using hl)] at h2
      exact ⟨a1, rfl, h2⟩
    | cons s' rest =>
      rw [if_neg (by simp at hl; omega)] at h2
      obtain ⟨a2, k1, k2, k3⟩ := ih (cur ++ [s]) h2.1 (by simp at hl ⊢; omega) (by simp)
      exact ⟨a2, k1, k2, by rw [k3, h2.2]; simp⟩

theorem run_partial (c : A2CCfg K) : ∀ (rest cur : List (Turn K)) {a : A2C K}, InRollout c a cur →
    cur.length + rest.length < c.updateSteps →
    ∃ a', a.run c rest = .ok a' ∧ InRollout c a' (cur ++ rest) ∧ a'.updates = a.updates := by
  intro rest
  induction rest with
  | nil => intro cur a h _; exact ⟨a, rfl, by simpa using h, rfl⟩
  | cons s rest ih =>
    intro cur a h hl
    obtain ⟨a1, h1, h2⟩ := turn_spec c h s
    rw [if_neg (by simp at hl; omega)] at h2
    obtain ⟨a2, k1, k2, k3⟩ := ih (cur ++ [s]) h2.1 (by simp at hl ⊢; omega)
    simp only [A2C.run, h1]
    exact ⟨a2, k1, by simpa using k2, by rw [k3, h2.2]⟩

theorem run_append (c : A2CCfg K) (l l' : List (Turn K)) : ∀ (a : A2C K),
    a.run c (l ++ l') = (match a.run c l with | .error e => .error e | .ok a' => a'.run c l') := by
  induction l with
  | nil => intro a; rfl
  | cons s l ih =>
    intro a
    simp only [List.cons_append, A2C.run]
    cases a.turn c s with
    | error e => rfl
    | ok a1 => exact ih a1

/-! ## C25 -/

/-- **C25.** Train a new agent with `updateSteps > 0` for any history of steps: complete rollouts
`blocks` of `updateSteps` steps each, and fewer than that many further steps.  Training succeeds, and
has made exactly one update per complete rollout, each using exactly the returns of the specification:
for the plain estimator the discounted rewards up to the first episode end, bootstrapped with the
value of the observation after the rollout only if no episode ends; for the GAE estimator the value
plus the `γ τ`-discounted sum of temporal difference errors up to the first episode end. -/
theorem a2c_returns (c : A2CCfg K) (hc : 0 < c.updateSteps) (blocks : List (List (Turn K)))
    (hb : ∀ b ∈ blocks, b.length = c.updateSteps) (rest : List (Turn K))
    (hr : rest.length < c.updateSteps) :
    ∃ a, A2C.new.run c (blocks.flatten ++ rest) = .ok a ∧
      a.updates = blocks.map (Spec.rolloutReturns c) := by
  have key : ∀ (blocks : List (List (Turn K))), (∀ b ∈ blocks, b.length = c.updateSteps) →
      ∀ a : A2C K, InRollout c a [] → ∃ a', a.run c blocks.flatten = .ok a' ∧ InRollout c a' [] ∧
        a'.updates = a.updates ++ blocks.map (Spec.rolloutReturns c) := by
    intro blocks
    induction blocks with
    | nil => intro _ a h; exact ⟨a, rfl, h, by simp⟩
    | cons b blocks ih =>
      intro hb a h
      have hbl := hb b (by simp)
      obtain ⟨a1, h1, h2, h3⟩ := run_rollout c b [] h (by simpa using hbl) (by
        intro hn; rw [hn] at hbl; simp at hbl; omega)
      obtain ⟨a2, k1, k2, k3⟩ := ih (fun b' hb' => hb b' (by simp [hb'])) a1 h2
      refine ⟨a2, ?_, k2, by rw [k3, h3]; simp⟩
      rw [List.flatten_cons, run_append, h1]
      exact k1
  have h0 : InRollout c (A2C.new : A2C K) [] :=
    ⟨rfl, hc, fun h => absurd rfl h, fun _ => rfl⟩
  obtain ⟨a, h1, h2, h3⟩ := key blocks hb _ h0
  obtain ⟨a', k1, _, k3⟩ := run_partial c rest [] h2 (by simpa using hr)
  refine ⟨a', ?_, by rw [k3, h3]; simp [A2C.new]⟩
  rw [run_append, h1]
  exact k1

/-- Nothing leaks across an episode end: the return of a step depends only on the steps up to the
first episode end, when there is one before the end of the rollout. -/
theorem a2c_return_no_leak (c : A2CCfg K) (pre : List (Turn K)) (e : Turn K) (he : e.ended = true)
    (after after' : List (Turn K)) (boot boot' : K) :
    Spec.a2cReturn c boot (pre ++ e :: after) = Spec.a2cReturn c boot' (pre ++ e :: after') := by
  have hn : ∀ pre : List (Turn K), recReturn c.gamma boot (pre ++ e :: after)
      = recReturn c.gamma boot' (pre ++ e :: after') := by
    intro pre
    induction pre with
    | nil => simp [recReturn, he]
    | cons s pre ih => simp [recReturn, ih]
  have hhead : ∀ (pre : List (Turn K)) (b b' : K),
      ((pre ++ e :: after).head?.map Turn.value).getD b
        = ((pre ++ e :: after').head?.map Turn.value).getD b' := by
    intro pre b b'; cases pre <;> simp
  have hg : ∀ pre : List (Turn K), recGae c.gamma c.tau boot (pre ++ e :: after)
      = recGae c.gamma c.tau boot' (pre ++ e :: after') := by
    intro pre
    induction pre with
    | nil => simp [recGae, he]
    | cons s pre ih =>
      simp only [List.cons_append, recGae, ih]
      rw [hhead pre boot boot']
  unfold Spec.a2cReturn Spec.gaeReturn
  rw [gae_eq_rec, gae_eq_rec, nStepReturn_eq_rec, nStepReturn_eq_rec, hn, hg, hhead pre 0 0]

/-- An agent whose step counter was set to a non-zero offset (as `train_agent_batch` does with its
`step_offset`) fails at its first action: the rollout storage is created only at step 0. -/
theorem a2c_step_offset_fails (c : A2CCfg K) (offset : Nat) (h : offset ≠ 0) (s : Turn K)
    (rest : List (Turn K)) :
    ({ A2C.new with t := offset } : A2C K).run c (s :: rest) = .error .attributeError := by
  simp [A2C.run, A2C.turn, A2C.act, A2C.new, h]

/-- Two rollouts of three steps (one with an episode end in the middle) and one step more. -/
example : ((A2C.new : A2C Int).run ⟨2, false, 1, 3⟩
    [⟨0, 1, false, false, 9⟩, ⟨0, 10, true, false, 9⟩, ⟨0, 100, false, false, 7⟩,
     ⟨0, 1, false, false, 9⟩, ⟨0, 10, false, false, 9⟩, ⟨0, 100, false, true, 7⟩,
     ⟨0, 1, false, false, 9⟩]).map (fun a => a.updates)
    = .ok [[21, 10, 114], [421, 210, 100]] := by decide +kernel

end Pfrl.Returns
