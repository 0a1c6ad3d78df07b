import Verif.Basic
import Mathlib.Tactic.Linarith
import Mathlib.Data.Nat.ModEq

/-!
# Burn-in actions

Model of when `DDPG`, `TD3` and `SoftActorCritic` take their training actions from `burnin_action_func` rather than from
the policy: `_batch_act_train`, `_batch_observe_train` and the counters that `update` advances, together with
`ReplayUpdater.update_if_necessary`.
-/

namespace Pfrl.Burnin

/-! ## Model -/

/-- Which agent: they differ in what one `update` counts. -/
inductive Alg where
  | ddpg
  | td3 (policyUpdateDelay : ℕ)
  | sac

/-- The constructor's arguments that matter here. -/
structure Cfg where
  alg : Alg
  burnin : Bool
  capacity : ℕ
  replayStart : ℕ
  updateInterval : ℕ
  nTimesUpdate : ℕ

/-- The agent: `t`, `len(replay_buffer)`, for which rows `batch_last_obs` is not `None`, and the numbers of critic and
of policy updates (`n_updates` in DDPG, `policy_n_updates` in TD3, `n_policy_updates` in SAC). -/
structure Agent where
  t : ℕ
  len : ℕ
  live : ℕ → Bool
  nq : ℕ
  np : ℕ

/-- `__init__`: `pfrl/agents/ddpg.py:122-130`, `td3.py:142-144`, `soft_actor_critic.py:177-189`. -/
def Agent.new : Agent := ⟨0, 0, fun _ => false, 0, 0⟩

/-- The counters after one `update`: `pfrl/agents/ddpg.py:189-202`, `td3.py:252-259` with `:231,250`,
`soft_actor_critic.py:310-315` with `:295`. -/
def Agent.update (alg : Alg) (s : Agent) : Agent :=
  match alg with
  | .ddpg => { s with nq := s.nq + 1, np := s.np + 1 }
  | .td3 d => if (s.nq + 1) % d = 0 then { s with nq := s.nq + 1, np := s.np + 1 } else { s with nq := s.nq + 1 }
  | .sac => { s with nq := s.nq + 1, np := s.np + 1 }

/-- The number of times `update_if_necessary` calls the update function.  TD3's constructor ignores its argument
`n_times_update` and passes 1 (`pfrl/agents/td3.py:131`). -/
def Cfg.times (c : Cfg) : ℕ :=
  match c.alg with
  | .ddpg => c.nTimesUpdate
  | .td3 _ => 1
  | .sac => 1

/-- `update_if_necessary(t)`, `pfrl/replay_buffer.py:329-356`, with `episodic_update=False`. -/
def Agent.updateIfNecessary (c : Cfg) (s : Agent) : Agent :=
  if s.len < c.replayStart then s
  else if s.t % c.updateInterval ≠ 0 then s
  else (Agent.update c.alg)^[c.times] s

/-- One row of `_batch_observe_train`, `pfrl/agents/td3.py:299-317`.  The buffer is a one-step buffer: `append` adds one
transition and drops the oldest one if the buffer is full. -/
def Agent.observeRow (c : Cfg) (s : Agent) (i : ℕ) (doneOrReset : Bool) : Agent :=
  let s := { s with t := s.t + 1 }
  let s := if s.live i then
      { s with len := min (s.len + 1) c.capacity,
               live := if doneOrReset then Function.update s.live i false else s.live }
    else s
  s.updateIfNecessary c

/-- The rows from `i` on. -/
def Agent.observeFrom (c : Cfg) (s : Agent) : ℕ → List Bool → Agent
  | _, [] => s
  | i, b :: bs => (s.observeRow c i b).observeFrom c (i + 1) bs

/-- Where a batch of actions comes from. -/
inductive Source where
  | burnin
  | policy
  deriving DecidableEq, Repr

/-- `_batch_act_train`, `pfrl/agents/td3.py:281-295`, for a batch of `n` observations. -/
def Agent.actTrain (c : Cfg) (s : Agent) (n : ℕ) : Source × Agent :=
  (if c.burnin && s.np == 0 then .burnin else .policy, { s with live := fun i => i < n })

/-- `_batch_act_eval`, `pfrl/agents/td3.py:277-279`. -/
def Agent.actEval (s : Agent) : Source × Agent := (.policy, s)

/-- What a training loop does with the agent: evaluation in between, or one step of `act` and `observe` in training mode on
as many environments as there are flags (done or reset) in the list. -/
inductive Call where
  | evaluate
  | step (flags : List Bool)

/-- One call. -/
def Agent.call (c : Cfg) (s : Agent) : Call → Source × Agent
  | .evaluate => s.actEval
  | .step flags =>
    ((s.actTrain c flags.length).1, ((s.actTrain c flags.length).2).observeFrom c 0 flags)

/-- A history of calls, with the source of every batch of actions. -/
def Agent.run (c : Cfg) (s : Agent) : List Call → List Source × Agent
  | [] => ([], s)
  | x :: xs => ((s.call c x).1 :: ((s.call c x).2.run c xs).1, ((s.call c x).2.run c xs).2)

/-- `load` into a newly constructed agent: `saved_attributes` (`pfrl/agents/ddpg.py:58`, `td3.py:67-77`,
`soft_actor_critic.py:84-95`) are networks and optimisers, so nothing of this state comes from the file. -/
def Agent.load (_saved : Agent) : Agent := Agent.new

/-! ## Specification -/

/-- The number of environment steps of a history. -/
def envSteps : List Call → ℕ
  | [] => 0
  | .evaluate :: xs => envSteps xs
  | .step flags :: xs => flags.length + envSteps xs

/-- How many of the times `1, …, t` are multiples of the update interval that are not before the replay start. -/
def dueTimes (start interval t : ℕ) : ℕ :=
  ((List.range' 1 t).filter fun k => start ≤ k ∧ k % interval = 0).length

/-- How many updates it takes until the policy has been updated. -/
def firstPolicyUpdate : Alg → ℕ
  | .ddpg => 1
  | .td3 d => d
  | .sac => 1

/-! ## Lemmas -/

theorem dueTimes_succ (start interval t : ℕ) : dueTimes start interval (t + 1) =
    dueTimes start interval t + if start ≤ t + 1 ∧ (t + 1) % interval = 0 then 1 else 0 := by
  unfold dueTimes
  rw [List.range'_1_concat, List.filter_append, List.length_append]
  congr 1
  rw [Nat.add_comm 1 t]
  by_cases h : start ≤ t + 1 ∧ (t + 1) % interval = 0 <;> simp [h]

/-- Policy updates as a function of critic updates. -/
def policyCount : Alg → ℕ → ℕ
  | .ddpg, n => n
  | .td3 d, n => n / d
  | .sac, n => n

theorem update_spec (alg : Alg) (hd : ∀ d, alg = .td3 d → 0 < d) (s : Agent) (h : s.np = policyCount alg s.nq) :
    (s.update alg).nq = s.nq + 1 ∧ (s.update alg).np = policyCount alg (s.nq + 1) ∧ (s.update alg).t = s.t ∧
      (s.update alg).len = s.len ∧ (s.update alg).live = s.live := by
  cases alg with
  | ddpg => simpa [Agent.update, policyCount] using h
  | sac => simpa [Agent.update, policyCount] using h
  | td3 d =>
    have hd' := hd d rfl
    simp only [policyCount] at h
    unfold Agent.update
    simp only
    rw [policyCount, Nat.succ_div]
    split
    · next hm => 
      have : d ∣ s.nq + 1 := Nat.dvd_of_mod_eq_zero hm
      simp [this, h]
    · next hm =>
      have : ¬ d ∣ s.nq + 1 := fun hh => hm (Nat.mod_eq_zero_of_dvd hh)
      simp [this, h]

theorem iterate_spec (alg : Alg) (hd : ∀ d, alg = .td3 d → 0 < d) (k : ℕ) (s : Agent) (h : s.np = policyCount alg s.nq) :
    ((Agent.update alg)^[k] s).nq = s.nq + k ∧ ((Agent.update alg)^[k] s).np = policyCount alg (s.nq + k) ∧
      ((Agent.update alg)^[k] s).t = s.t ∧ ((Agent.update alg)^[k] s).len = s.len ∧
      ((Agent.update alg)^[k] s).live = s.live := by
  induction k generalizing s with
  | zero => simp [h]
  | succ k ih =>
    rw [Function.iterate_succ_apply]
    obtain ⟨a, b, c, d, e⟩ := update_spec alg hd s h
    obtain ⟨a', b', c', d', e'⟩ := ih (s.update alg) (by rw [a, b])
    rw [a', b', c', d', e', a, c, d, e]
    exact ⟨by omega, by congr 1; omega, rfl, rfl, rfl⟩

/-- The invariant between rows. -/
structure Inv (c : Cfg) (s : Agent) : Prop where
  len : s.len = min s.t c.capacity
  nq : s.nq = c.times * dueTimes c.replayStart c.updateInterval s.t
  np : s.np = policyCount c.alg s.nq

theorem inv_new (c : Cfg) : Inv c Agent.new :=
  ⟨by simp [Agent.new], by simp [Agent.new, dueTimes], by cases h : c.alg <;> simp [Agent.new, policyCount]⟩

theorem updateIfNecessary_spec (c : Cfg) (hd : ∀ d, c.alg = .td3 d → 0 < d) (hcap : c.replayStart ≤ c.capacity)
    (s : Agent) (t : ℕ) (ht : s.t = t + 1) (hlen : s.len = min s.t c.capacity)
    (hnq : s.nq = c.times * dueTimes c.replayStart c.updateInterval t) (hnp : s.np = policyCount c.alg s.nq) :
    Inv c (s.updateIfNecessary c) ∧ (s.updateIfNecessary c).t = s.t ∧ (s.updateIfNecessary c).live = s.live := by
  unfold Agent.updateIfNecessary
  have hdue := dueTimes_succ c.replayStart c.updateInterval t
  split
  · next h =>
    have : ¬ c.replayStart ≤ t + 1 := by omega
    refine ⟨⟨hlen, ?_, hnp⟩, rfl, rfl⟩
    rw [ht, hdue, hnq]; simp [this]
  · next h =>
    split
    · next h2 =>
      rw [ht] at h2
      refine ⟨⟨hlen, ?_, hnp⟩, rfl, rfl⟩
      rw [ht, hdue, hnq]; simp [h2]
    · next h2 =>
      rw [ht] at h2
      push Not at h2
      have : c.replayStart ≤ t + 1 := by omega
      obtain ⟨a, b, e, f, g⟩ := iterate_spec c.alg hd c.times s hnp
      refine ⟨⟨?_, ?_, ?_⟩, e, g⟩
      · rw [f, e, hlen]
      · rw [a, e, ht, hdue, hnq]; simp only [this, h2, and_self, if_true]; rfl
      · rw [b, a]

theorem observeRow_spec (c : Cfg) (hd : ∀ d, c.alg = .td3 d → 0 < d) (hcap : c.replayStart ≤ c.capacity)
    (s : Agent) (h : Inv c s) (i : ℕ) (hl : s.live i = true) (b : Bool) :
    Inv c (s.observeRow c i b) ∧ (s.observeRow c i b).t = s.t + 1 ∧
      ∀ j, j ≠ i → (s.observeRow c i b).live j = s.live j := by
  unfold Agent.observeRow
  simp only [hl, if_true]
  obtain ⟨a, e, f⟩ := updateIfNecessary_spec c hd hcap
    ⟨s.t + 1, min (s.len + 1) c.capacity, if b then Function.update s.live i false else s.live, s.nq, s.np⟩ s.t rfl
    (by have := h.len; simp only; omega) h.nq h.np
  refine ⟨a, e, fun j hj => ?_⟩
  rw [f]
  cases b <;> simp [Function.update_of_ne hj]

theorem observeFrom_spec (c : Cfg) (hd : ∀ d, c.alg = .td3 d → 0 < d) (hcap : c.replayStart ≤ c.capacity)
    (flags : List Bool) : ∀ (s : Agent) (i : ℕ), Inv c s → (∀ j, i ≤ j → j < i + flags.length → s.live j = true) →
    Inv c (s.observeFrom c i flags) ∧ (s.observeFrom c i flags).t = s.t + flags.length := by
  induction flags with
  | nil => intro s i h _; exact ⟨h, rfl⟩
  | cons b bs ih =>
    intro s i h hl
    obtain ⟨a, e, f⟩ := observeRow_spec c hd hcap s h i (hl i (Nat.le_refl i) (by simp)) b
    obtain ⟨a', e'⟩ := ih (s.observeRow c i b) (i + 1) a (fun j h1 h2 => by
      rw [f j (by omega)]
      exact hl j (by omega) (by simp only [List.length_cons]; omega))
    refine ⟨a', ?_⟩
    simp only [Agent.observeFrom, List.length_cons]
    rw [e', e]; omega

theorem call_spec (c : Cfg) (hd : ∀ d, c.alg = .td3 d → 0 < d) (hcap : c.replayStart ≤ c.capacity)
    (s : Agent) (h : Inv c s) (x : Call) :
    Inv c (s.call c x).2 ∧ (s.call c x).2.t = s.t + envSteps [x] := by
  cases x with
  | evaluate => exact ⟨h, rfl⟩
  | step flags =>
    simp only [Agent.call, envSteps, Nat.add_zero]
    refine observeFrom_spec c hd hcap flags _ 0 ⟨h.len, h.nq, h.np⟩ ?_
    intro j _ hj
    simp only [Agent.actTrain, decide_eq_true_eq]
    omega

theorem run_spec (c : Cfg) (hd : ∀ d, c.alg = .td3 d → 0 < d) (hcap : c.replayStart ≤ c.capacity)
    (xs : List Call) : ∀ s, Inv c s → Inv c (s.run c xs).2 ∧ (s.run c xs).2.t = s.t + envSteps xs := by
  induction xs with
  | nil => intro s h; exact ⟨h, rfl⟩
  | cons x xs ih =>
    intro s h
    obtain ⟨a, b⟩ := call_spec c hd hcap s h x
    obtain ⟨a', b'⟩ := ih _ a
    refine ⟨a', ?_⟩
    simp only [Agent.run]
    rw [b', b]
    cases x <;> simp only [envSteps] <;> omega

theorem run_append (c : Cfg) (xs ys : List Call) (s : Agent) :
    (s.run c (xs ++ ys)).1 = (s.run c xs).1 ++ ((s.run c xs).2.run c ys).1 := by
  induction xs generalizing s with
  | nil => rfl
  | cons x xs ih => simp [Agent.run, ih]

theorem run_length (c : Cfg) (xs : List Call) (s : Agent) : (s.run c xs).1.length = xs.length := by
  induction xs generalizing s with
  | nil => rfl
  | cons x xs ih => simp [Agent.run, ih]

/-- The source of the call after a history. -/
theorem source_at (c : Cfg) (before : List Call) (x : Call) (after : List Call) :
    (Agent.new.run c (before ++ x :: after)).1[before.length]? =
      some ((Agent.new.run c before).2.call c x).1 := by
  rw [run_append, List.getElem?_append_right (by rw [run_length]), run_length, Nat.sub_self]
  rfl

theorem policyCount_zero (alg : Alg) (hd : ∀ d, alg = .td3 d → 0 < d) (n : ℕ) :
    policyCount alg n = 0 ↔ n < firstPolicyUpdate alg := by
  cases alg with
  | ddpg => simp [policyCount, firstPolicyUpdate]
  | sac => simp [policyCount, firstPolicyUpdate]
  | td3 d =>
    simp only [policyCount, firstPolicyUpdate]
    rw [Nat.div_eq_zero_iff]
    have := hd d rfl
    omega

/-! ## C94: which actions are burn-in actions -/

/-- C94: in every history of training steps (on any numbers of environments, with any episode ends) and evaluations in
between, the training actions chosen when `t` environment steps have been done are burn-in actions if and only if a burn-in
function was given and the updates due by then are fewer than the first policy update needs. -/
theorem burnin_source (c : Cfg) (hd : ∀ d, c.alg = .td3 d → 0 < d) (hcap : c.replayStart ≤ c.capacity)
    (before : List Call) (flags : List Bool) (after : List Call) :
    (Agent.new.run c (before ++ .step flags :: after)).1[before.length]? =
      some (if c.burnin = true ∧
          c.times * dueTimes c.replayStart c.updateInterval (envSteps before) < firstPolicyUpdate c.alg
        then .burnin else .policy) := by
  rw [source_at]
  obtain ⟨h, ht⟩ := run_spec c hd hcap before Agent.new (inv_new c)
  rw [show Agent.new.t = 0 from rfl, Nat.zero_add] at ht
  have hz := policyCount_zero c.alg hd (Agent.new.run c before).2.nq
  rw [← h.np, h.nq, ht] at hz
  simp only [Agent.call, Agent.actTrain, Bool.and_eq_true, beq_iff_eq, hz]

/-- C94, evaluation: actions chosen in evaluation mode are never burn-in actions. -/
theorem burnin_not_in_evaluation (c : Cfg) (before after : List Call) :
    (Agent.new.run c (before ++ .evaluate :: after)).1[before.length]? = some .policy := by
  rw [source_at]; rfl

theorem dueTimes_zero_iff (start interval t : ℕ) (hs : 1 ≤ start) (hi : 1 ≤ interval) :
    dueTimes start interval t = 0 ↔ t < (start + interval - 1) / interval * interval := by
  unfold dueTimes
  rw [List.length_eq_zero_iff, List.filter_eq_nil_iff]
  have hlo : start ≤ (start + interval - 1) / interval * interval := by
    have h1 := Nat.div_add_mod (start + interval - 1) interval
    have h2 := Nat.mod_lt (start + interval - 1) hi
    rw [Nat.mul_comm]
    omega
  constructor
  · intro h
    by_contra hlt
    apply h ((start + interval - 1) / interval * interval)
    · rw [List.mem_range'_1]; omega
    · simp [hlo]
  · intro h k hk
    rw [List.mem_range'_1] at hk
    simp only [decide_eq_true_eq, not_and]
    intro h1 h2
    obtain ⟨q, rfl⟩ := Nat.dvd_of_mod_eq_zero h2
    have : (start + interval - 1) / interval ≤ q := by
      rw [← Nat.lt_succ_iff, Nat.div_lt_iff_lt_mul (by omega)]
      rw [Nat.succ_mul, Nat.mul_comm q]; omega
    have := Nat.mul_le_mul_right interval this
    rw [Nat.mul_comm q] at this
    omega

/-- C94, when it ends: for DDPG and SAC, the training actions are burn-in actions exactly until the number of environment steps
reaches the replay start size rounded up to a multiple of the update interval. -/
theorem burnin_until (c : Cfg) (halg : c.alg = .ddpg ∨ c.alg = .sac) (hb : c.burnin = true)
    (hcap : c.replayStart ≤ c.capacity) (hs : 1 ≤ c.replayStart) (hi : 1 ≤ c.updateInterval) (hn : 1 ≤ c.nTimesUpdate)
    (before : List Call) (flags : List Bool) (after : List Call) :
    (Agent.new.run c (before ++ .step flags :: after)).1[before.length]? =
      some (if envSteps before < (c.replayStart + c.updateInterval - 1) / c.updateInterval * c.updateInterval
        then .burnin else .policy) := by
  rw [burnin_source c (fun d h => by rcases halg with e | e <;> rw [e] at h <;> cases h) hcap]
  have ht : 1 ≤ c.times := by rcases halg with e | e <;> simp [Cfg.times, e, hn]
  have hf : firstPolicyUpdate c.alg = 1 := by rcases halg with e | e <;> simp [firstPolicyUpdate, e]
  have hz := dueTimes_zero_iff c.replayStart c.updateInterval (envSteps before) hs hi
  have : c.times * dueTimes c.replayStart c.updateInterval (envSteps before) < firstPolicyUpdate c.alg ↔
      dueTimes c.replayStart c.updateInterval (envSteps before) = 0 := by
    rw [hf, Nat.lt_one_iff, Nat.mul_eq_zero]
    omega
  simp only [hb, true_and, this, hz]

/-- What a user may not expect: nothing of this is saved, so an agent that was trained, saved and loaded starts with burn-in
actions again, however many updates its policy has had. -/
theorem burnin_after_load (c : Cfg) (hb : c.burnin = true) (before : List Call) (n : ℕ) :
    ((Agent.load (Agent.new.run c before).2).actTrain c n).1 = .burnin := by
  simp [Agent.load, Agent.new, Agent.actTrain, hb]

/-- What a user may not expect: if the buffer cannot hold `replay_start_size` transitions, no update is ever due and all training
actions are burn-in actions. -/
theorem burnin_forever : ∃ c : Cfg, c.burnin = true ∧ c.capacity < c.replayStart ∧
    ∀ n : ℕ, ∀ x ∈ (Agent.new.run c (List.replicate n (.step [false]))).1, x = .burnin := by
  refine ⟨⟨.sac, true, 1, 2, 1, 1⟩, rfl, by decide, ?_⟩
  intro n
  have key : ∀ (n : ℕ) (s : Agent), s.len ≤ 1 → s.np = 0 →
      ∀ x ∈ (s.run ⟨.sac, true, 1, 2, 1, 1⟩ (List.replicate n (.step [false]))).1, x = .burnin := by
    intro n
    induction n with
    | zero => intro s _ _ x hx; simp [Agent.run] at hx
    | succ n ih =>
      intro s hl hp x hx
      rw [List.replicate_succ] at hx
      simp only [Agent.run, List.mem_cons] at hx
      rcases hx with hx | hx
      · rw [hx]; simp [Agent.call, Agent.actTrain, hp]
      · refine ih _ ?_ ?_ x hx
        · simp only [Agent.call, Agent.actTrain, Agent.observeFrom, Agent.observeRow, List.length_singleton]
          simp only [Nat.lt_one_iff, decide_true, if_true, Agent.updateIfNecessary]
          have : min (s.len + 1) 1 < 2 := by omega
          simp only [this, if_true]
          omega
        · simp only [Agent.call, Agent.actTrain, Agent.observeFrom, Agent.observeRow, List.length_singleton]
          simp only [Nat.lt_one_iff, decide_true, if_true, Agent.updateIfNecessary]
          have : min (s.len + 1) 1 < 2 := by omega
          simp only [this, if_true]
          exact hp
  exact key n Agent.new (by decide) rfl

/-- TD3 with delay 2, replay start 3, interval 1, two environments: the policy is first updated at `t = 4`. -/
example : (Agent.new.run ⟨.td3 2, true, 10, 3, 1, 5⟩
    [.step [false, false], .evaluate, .step [true, false], .step [false, false]]).1 =
    [.burnin, .policy, .burnin, .policy] := by decide +kernel

/-- SAC with replay start 3 and interval 2: burn-in until `t = 4`. -/
example : (Agent.new.run ⟨.sac, true, 10, 3, 2, 1⟩
    [.step [false], .step [true], .step [false], .step [false], .step [false]]).1 =
    [.burnin, .burnin, .burnin, .burnin, .policy] := by decide +kernel

end Pfrl.Burnin
