import Verif.Basic
import Mathlib.Data.List.Basic
import Mathlib.Tactic.Linarith

/-!
# The learner of actor-learner DQN (C37)
-/

namespace Pfrl.Interact.Learner

/-! ## Model -/

/-- The attributes and arguments that matter, `pfrl/agents/dqn.py:648-658`. -/
structure Cfg where
  nUpdates : Option Nat
  updateInterval : Nat
  targetInterval : Nat
  actorInterval : Nat

/-- What the rest of the program does at one pass through the loop: whether another thread has set
`stop_event`, whether the replay buffer is large enough, whether the update raises. -/
structure Input where
  stop : Bool
  ready : Bool
  raises : Bool

/-- An observable action of the loop.  `update k` is the `k`-th optimizer update of the agent, `hooks k t`
are the calls of the optimizer step hooks with `k` and the step hooks with `t`. -/
inductive Eff where
  | update (k : Nat)
  | publish
  | hooks (k t : Nat)
  | sync
  deriving DecidableEq, Repr

/-- How the loop stands: running, ended because `stop_event` is set (by another thread or by itself), or
ended by an exception, in which case `exception_event` is set. -/
inductive Status where
  | running
  | stoppedByOther
  | stoppedItself
  | failed
  deriving DecidableEq, Repr

/-- State of the loop. -/
structure State where
  optimT : Nat
  counter : Nat
  t : Nat
  status : Status
  trace : List Eff
  deriving DecidableEq, Repr

/-- After the update, `pfrl/agents/dqn.py:684-709`.  Division by zero raises, which ends the loop. -/
def afterUpdate (c : Cfg) (s : State) : State :=
  let s := { s with counter := s.counter + 1 }
  if c.actorInterval = 0 then { s with status := .failed }
  else
    let s := if s.counter % c.actorInterval = 0 then { s with trace := s.trace ++ [.publish] } else s
    let effective := s.optimT * c.updateInterval
    let s := { s with t := effective, trace := s.trace ++ [.hooks s.optimT effective] }
    if c.targetInterval = 0 then { s with status := .failed }
    else if effective % c.targetInterval = 0 then { s with trace := s.trace ++ [.sync] }
    else s

/-- The update, `pfrl/agents/dqn.py:672-683` and `365`/`386`. -/
def doUpdate (c : Cfg) (i : Input) (s : State) : State :=
  if i.raises then { s with status := .failed }
  else afterUpdate c { s with optimT := s.optimT + 1, trace := s.trace ++ [.update (s.optimT + 1)] }

/-- One pass through the loop, `pfrl/agents/dqn.py:662-709`. -/
def pass (c : Cfg) (i : Input) (s : State) : State :=
  if i.stop then { s with status := .stoppedByOther }
  else if !i.ready then s
  else
    match c.nUpdates with
    | none => doUpdate c i s
    | some n =>
      if ¬ s.optimT ≤ n then { s with status := .failed }
      else if s.optimT = n then { s with status := .stoppedItself }
      else doUpdate c i s

/-- `_learner_loop`, `pfrl/agents/dqn.py:648-712`. -/
def loop (c : Cfg) : List Input → State → State
  | [], s => s
  | i :: is, s => if s.status = .running then loop c is (pass c i s) else s

/-- At the start of the loop; `o` is the number of updates the agent has made before. -/
def start (o : Nat) : State := ⟨o, 0, 0, .running, []⟩

/-! ## Specification -/

/-- What is observable of the `j`-th update of this loop, of an agent that made `o` before: the update;
publishing at every multiple of `actor_update_interval`; the hooks; target synchronisation once every
`target_update_interval / update_interval` updates. -/
def Spec.block (c : Cfg) (o j : Nat) : List Eff :=
  [.update (o + j)] ++ (if c.actorInterval ∣ j then [.publish] else []) ++
  [.hooks (o + j) ((o + j) * c.updateInterval)] ++
  (if c.targetInterval / c.updateInterval ∣ o + j then [.sync] else [])

/-- The passes that could make an update. -/
def Spec.readyPasses (is : List Input) : Nat :=
  is.countP fun i => i.ready

/-! ## Lemmas -/

theorem afterUpdate_eq {c : Cfg} (h1 : 0 < c.actorInterval) (h2 : 0 < c.targetInterval)
    (h3 : 0 < c.updateInterval) (hd : c.updateInterval ∣ c.targetInterval) (o j : Nat) (s : State)
    (hs : s.optimT = o + (j + 1)) (hc : s.counter = j) :
    afterUpdate c s = ⟨o + (j + 1), j + 1, (o + (j + 1)) * c.updateInterval, s.status,
      s.trace ++ ((if c.actorInterval ∣ j + 1 then [.publish] else []) ++
        [.hooks (o + (j + 1)) ((o + (j + 1)) * c.updateInterval)] ++
        (if c.targetInterval / c.updateInterval ∣ o + (j + 1) then [.sync] else []))⟩ := by
  obtain ⟨so, sc, st, ss, tr⟩ := s
  simp only at hs hc
  subst hs hc
  have hsync : (o + (sc + 1)) * c.updateInterval % c.targetInterval = 0 ↔
      c.targetInterval / c.updateInterval ∣ o + (sc + 1) := by
    obtain ⟨q, hq⟩ := hd
    rw [hq, Nat.mul_div_cancel_left _ h3, Nat.mul_comm (o + (sc + 1)), ← Nat.dvd_iff_mod_eq_zero]
    exact Nat.mul_dvd_mul_iff_left h3
  have hpub : (sc + 1) % c.actorInterval = 0 ↔ c.actorInterval ∣ sc + 1 :=
    (Nat.dvd_iff_mod_eq_zero ..).symm
  unfold afterUpdate
  simp only [if_neg (show ¬ c.actorInterval = 0 by omega), if_neg (show ¬ c.targetInterval = 0 by omega)]
  by_cases ha : c.actorInterval ∣ sc + 1
  · by_cases hb : c.targetInterval / c.updateInterval ∣ o + (sc + 1)
    · simp only [hpub, ha, if_true, hsync, hb]; simp
    · simp only [hpub, ha, if_true, hsync, hb, if_false]; simp
  · by_cases hb : c.targetInterval / c.updateInterval ∣ o + (sc + 1)
    · simp only [hpub, ha, if_false, if_true, hsync, hb]; simp
    · simp only [hpub, ha, if_false, hsync, hb]; simp

/-- What holds after any number of passes. -/
structure Inv (c : Cfg) (o : Nat) (s : State) : Prop where
  opt : s.optimT = o + s.counter
  bound : ∀ n, c.nUpdates = some n → s.optimT ≤ n
  trace : s.trace = ((List.range s.counter).map fun j => Spec.block c o (j + 1)).flatten
  itself : s.status = .stoppedItself → c.nUpdates = some s.optimT
  ok : s.status ≠ .failed

theorem doUpdate_inv {c : Cfg} (h1 : 0 < c.actorInterval) (h2 : 0 < c.targetInterval)
    (h3 : 0 < c.updateInterval) (hd : c.updateInterval ∣ c.targetInterval) (o : Nat) (i : Input)
    (s : State) (hi : i.raises = false) (h : Inv c o s) (hr : s.status = .running)
    (hb : ∀ n, c.nUpdates = some n → s.optimT < n) :
    Inv c o (doUpdate c i s) ∧ (doUpdate c i s).counter = s.counter + 1 ∧
      (doUpdate c i s).status = .running := by
  obtain ⟨ho, hn, ht, _, _⟩ := h
  unfold doUpdate
  rw [hi]
  simp only [Bool.false_eq_true, if_false]
  rw [afterUpdate_eq h1 h2 h3 hd o s.counter { s with
    optimT := s.optimT + 1, trace := s.trace ++ [.update (s.optimT + 1)] } (by simp only; omega) rfl]
  refine ⟨⟨rfl, ?_, ?_, ?_, ?_⟩, rfl, hr⟩
  · intro n hn'
    have := hb n hn'
    simp only
    omega
  · simp only
    rw [List.range_succ, List.map_append, List.flatten_append, ← ht]
    simp [Spec.block, ho, Nat.add_assoc]
  · simp only [hr]; intro h; cases h
  · simp only [hr]; intro h; cases h

theorem pass_inv {c : Cfg} (h1 : 0 < c.actorInterval) (h2 : 0 < c.targetInterval)
    (h3 : 0 < c.updateInterval) (hd : c.updateInterval ∣ c.targetInterval) (o : Nat) (i : Input)
    (s : State) (hi : i.raises = false) (h : Inv c o s) (hr : s.status = .running) :
    Inv c o (pass c i s) ∧ (i.stop = false → i.ready = true →
      ((pass c i s).status = .running ∧ (pass c i s).counter = s.counter + 1) ∨
      (pass c i s).status = .stoppedItself) ∧
    (i.stop = false → (pass c i s).status ≠ .stoppedByOther) ∧ s.counter ≤ (pass c i s).counter := by
  unfold pass
  by_cases hs : i.stop = true
  · rw [if_pos hs]
    exact ⟨⟨h.opt, h.bound, h.trace, by simp, by simp⟩, by simp [hs], by simp [hs], Nat.le_refl _⟩
  · have hs' : i.stop = false := by simpa using hs
    rw [if_neg hs]
    by_cases hr' : i.ready = true
    · rw [if_neg (by simp [hr'])]
      cases hn : c.nUpdates with
      | none =>
        obtain ⟨g1, g2, g3⟩ := doUpdate_inv h1 h2 h3 hd o i s hi h hr (by simp [hn])
        exact ⟨g1, fun _ _ => .inl ⟨g3, g2⟩, by simp [g3], by simp only [g2]; omega⟩
      | some n =>
        have hle := h.bound n hn
        simp only [hle, not_true_eq_false, if_false]
        by_cases he : s.optimT = n
        · rw [if_pos he]
          exact ⟨⟨h.opt, h.bound, h.trace, fun _ => by simp [hn, he], by simp⟩,
            fun _ _ => .inr rfl, by simp, Nat.le_refl _⟩
        · rw [if_neg he]
          obtain ⟨g1, g2, g3⟩ := doUpdate_inv h1 h2 h3 hd o i s hi h hr (by
            intro m hm; rw [hn] at hm; cases hm; omega)
          exact ⟨g1, fun _ _ => .inl ⟨g3, g2⟩, by simp [g3], by simp only [g2]; omega⟩
    · rw [if_pos (by simp [hr'])]
      exact ⟨h, fun _ h => absurd h hr', by simp [hr], Nat.le_refl _⟩

theorem loop_stopped (c : Cfg) (is : List Input) (s : State) (h : s.status ≠ .running) :
    loop c is s = s := by
  cases is with
  | nil => rfl
  | cons i is => simp [loop, h]

theorem loop_inv {c : Cfg} (h1 : 0 < c.actorInterval) (h2 : 0 < c.targetInterval)
    (h3 : 0 < c.updateInterval) (hd : c.updateInterval ∣ c.targetInterval) (o : Nat) :
    ∀ (is : List Input) (s : State), (∀ i ∈ is, i.raises = false) → Inv c o s →
      s.status = .running → Inv c o (loop c is s) ∧
      ((∀ i ∈ is, i.stop = false) →
        ((loop c is s).status = .running ∧
          (loop c is s).counter = s.counter + Spec.readyPasses is) ∨
        ((loop c is s).status = .stoppedItself ∧
          (loop c is s).counter < s.counter + Spec.readyPasses is))
  | [], s, _, h, hr => ⟨h, fun _ => .inl ⟨hr, rfl⟩⟩
  | i :: is, s, hi, h, hr => by
    obtain ⟨g1, g2, g3, g4⟩ := pass_inv h1 h2 h3 hd o i s (hi i (by simp)) h hr
    simp only [loop, hr, if_true]
    by_cases hrun : (pass c i s).status = .running
    · obtain ⟨k1, k2⟩ := loop_inv h1 h2 h3 hd o is (pass c i s) (fun j hj => hi j (by simp [hj])) g1 hrun
      refine ⟨k1, fun hstop => ?_⟩
      have hs := hstop i (by simp)
      have hcount : (pass c i s).counter + Spec.readyPasses is
          = s.counter + Spec.readyPasses (i :: is) := by
        unfold Spec.readyPasses
        rw [List.countP_cons]
        by_cases hready : i.ready = true
        · rcases g2 hs hready with ⟨_, h⟩ | h
          · rw [h]; simp [hready]; omega
          · rw [hrun] at h; cases h
        · have : pass c i s = s := by
            unfold pass
            simp [hs, hready]
          rw [this]
          simp [hready]
      rw [← hcount]
      exact k2 fun j hj => hstop j (by simp [hj])
    · rw [loop_stopped c is _ hrun]
      refine ⟨g1, fun hstop => ?_⟩
      have hs := hstop i (by simp)
      by_cases hready : i.ready = true
      · rcases g2 hs hready with ⟨h, _⟩ | hst
        · exact absurd h hrun
        · refine .inr ⟨hst, ?_⟩
          have hc : (pass c i s).counter = s.counter := by
            have := hst
            unfold pass at this ⊢
            simp only [hs, Bool.false_eq_true, if_false, hready, Bool.not_true] at this ⊢
            cases hn : c.nUpdates with
            | none =>
              rw [hn] at this
              simp only at this
              obtain ⟨_, _, h3'⟩ := doUpdate_inv h1 h2 h3 hd o i s (hi i (by simp)) h hr (by simp [hn])
              rw [this] at h3'; cases h3'
            | some n =>
              rw [hn] at this
              simp only at this ⊢
              have hle := h.bound n hn
              simp only [hle, not_true_eq_false, if_false] at this ⊢
              by_cases he : s.optimT = n
              · rw [if_pos he]
              · rw [if_neg he] at this
                obtain ⟨_, _, h3'⟩ := doUpdate_inv h1 h2 h3 hd o i s (hi i (by simp)) h hr (by
                  intro m hm; rw [hn] at hm; cases hm; omega)
                rw [this] at h3'; cases h3'
          rw [hc]
          unfold Spec.readyPasses
          rw [List.countP_cons]
          simp [hready]
      · exfalso
        apply hrun
        unfold pass
        simp [hs, hready, hr]

/-! ## C37 -/

/-- **C37.** Let the intervals be positive and `update_interval` divide `target_update_interval` (the
constructor checks this), and let the agent have made `o ≤ n_updates` updates before (0 for a new agent).
For every schedule of buffer readiness and of stop events in which no update raises, after any number
of passes:
the loop has not failed; the updates made are numbers `o+1, o+2, …` without gaps and never more than
`n_updates`; around the `j`-th update of this loop the model is published, hooks are called and the
target is synchronised as `Spec.block` says; and if the loop stopped itself, exactly `n_updates` updates
have been made. -/
theorem learner_loop_updates {c : Cfg} (h1 : 0 < c.actorInterval) (h2 : 0 < c.targetInterval)
    (h3 : 0 < c.updateInterval) (hd : c.updateInterval ∣ c.targetInterval) (o : Nat)
    (ho : ∀ n, c.nUpdates = some n → o ≤ n) (is : List Input) (hi : ∀ i ∈ is, i.raises = false) :
    ∃ u, (loop c is (start o)).optimT = o + u ∧
      (loop c is (start o)).trace = ((List.range u).map fun j => Spec.block c o (j + 1)).flatten ∧
      (∀ n, c.nUpdates = some n → o + u ≤ n) ∧
      ((loop c is (start o)).status = .stoppedItself → c.nUpdates = some (o + u)) ∧
      (loop c is (start o)).status ≠ .failed := by
  obtain ⟨h, _⟩ := loop_inv h1 h2 h3 hd o is (start o) hi ⟨rfl, by simpa [start] using ho, rfl, by
    simp [start], by simp [start]⟩ rfl
  exact ⟨(loop c is (start o)).counter, h.opt, h.trace, by rw [← h.opt]; exact h.bound, by
    rw [← h.opt]; exact h.itself, h.ok⟩

/-- **C37** (completeness).  If no other thread stops the loop and at least one more pass than there are
updates left finds the buffer ready, the loop stops itself after exactly `n_updates` updates; with fewer
it has made one update per ready pass. -/
theorem learner_loop_complete {c : Cfg} (h1 : 0 < c.actorInterval) (h2 : 0 < c.targetInterval)
    (h3 : 0 < c.updateInterval) (hd : c.updateInterval ∣ c.targetInterval) (o n : Nat)
    (hn : c.nUpdates = some n) (ho : o ≤ n) (is : List Input) (hi : ∀ i ∈ is, i.raises = false)
    (hs : ∀ i ∈ is, i.stop = false) :
    if n - o < Spec.readyPasses is then
      (loop c is (start o)).status = .stoppedItself ∧ (loop c is (start o)).optimT = n
    else (loop c is (start o)).status = .running ∧
      (loop c is (start o)).optimT = o + Spec.readyPasses is := by
  obtain ⟨h, h'⟩ := loop_inv h1 h2 h3 hd o is (start o) hi ⟨rfl, by
    intro m hm; rw [hn] at hm; cases hm; simpa [start] using ho, rfl, by simp [start],
    by simp [start]⟩ rfl
  have hb := h.bound n hn
  have hopt := h.opt
  have h0 : (start o).counter = 0 := rfl
  rcases h' hs with ⟨k1, k2⟩ | ⟨k1, k2⟩
  · rw [if_neg (by omega)]
    exact ⟨k1, by omega⟩
  · have := h.itself k1
    rw [hn] at this
    have : n = (loop c is (start o)).optimT := by simpa using this
    rw [if_pos (by omega)]
    exact ⟨k1, this.symm⟩

theorem loop_append (c : Cfg) : ∀ (is js : List Input) (s : State), loop c (is ++ js) s = loop c js (loop c is s)
  | [], js, s => rfl
  | i :: is, js, s => by
    by_cases h : s.status = .running
    · simp only [List.cons_append, loop, h, if_true]
      exact loop_append c is js _
    · rw [loop_stopped c _ s h, loop_stopped c _ s h, loop_stopped c _ s h]

/-- **C37** (exceptions).  An update that raises ends the loop as failed, whatever comes later: nothing is published, no hook is
called, the target is not synchronised, and the update is not counted. -/
theorem learner_loop_raises (c : Cfg) (o : Nat) (before after : List Input) (i : Input) (h : i.stop = false ∧ i.ready = true ∧
    i.raises = true) (hr : (loop c before (start o)).status = .running)
    (hn : ∀ n, c.nUpdates = some n → (loop c before (start o)).optimT < n) :
    loop c (before ++ i :: after) (start o) = { loop c before (start o) with status := .failed } := by
  rw [loop_append]
  generalize loop c before (start o) = s at hr hn ⊢
  have hp : pass c i s = { s with status := .failed } := by
    unfold pass doUpdate
    simp only [h.1, h.2.1, h.2.2, Bool.false_eq_true, if_false, Bool.not_true, if_true]
    cases hc : c.nUpdates with
    | none => rfl
    | some n =>
      have := hn n hc
      simp only [if_neg (show ¬ ¬ s.optimT ≤ n by omega), if_neg (show ¬ s.optimT = n by omega)]
  simp only [loop, hr, if_true, hp]
  exact loop_stopped c after _ (by simp)

/-- The second update raises. -/
example : loop ⟨some 3, 4, 8, 2⟩ [⟨false, true, false⟩, ⟨false, true, true⟩, ⟨false, true, false⟩] (start 0) =
    ⟨1, 1, 4, .failed, [.update 1, .hooks 1 4]⟩ := by decide

/-- Three updates, publishing every two, target every two updates (interval 8, update interval 4). -/
example : loop ⟨some 3, 4, 8, 2⟩ [⟨false, false, false⟩, ⟨false, true, false⟩, ⟨false, true, false⟩,
      ⟨false, true, false⟩, ⟨false, true, false⟩, ⟨false, true, false⟩] (start 0) =
    ⟨3, 3, 12, .stoppedItself, [.update 1, .hooks 1 4, .update 2, .publish, .hooks 2 8, .sync,
      .update 3, .hooks 3 12]⟩ := by decide

end Pfrl.Interact.Learner
