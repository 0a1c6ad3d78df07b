import Mathlib.Algebra.BigOperators.Fin
import Verif.Train.BatchWithEval
import Verif.Train.Replayed

/-!
# A batch training with a replay buffer, put together (C120)

The loop of `train_agent_batch_with_evaluation` on a vector environment (C113), an agent of the Q-learning family (C35, C36) and its
replay buffer (C11, C12, C13).
-/

namespace Pfrl.Train.BatchReplayed

open Pfrl.Train.WithEval (Env Ret Who EnvCall Outcome)
open Pfrl.Train.BatchWithEval
open Pfrl.Train.Replayed (Buffer)

variable {N : Nat} {σ A O V X : Type}

/-! ## Model -/

/-- The parts of DQN, DDPG, TD3 and SAC that are left open, as in `Pfrl.Train.Replayed.Learner`, with actions for a batch. -/
structure Learner (N : Nat) (O A V X : Type) where
  interval : Option Nat
  other : Buffer A O → V → Interact.Eff O A ℚ → Except PyErr V
  choose : Bool → Interact.Agent O A (Buffer A O × V) → X → (Fin N → O) → (Fin N → A) × X

/-- The agent during a training, and the first exception if one was raised. -/
structure State (O A V X : Type) where
  agent : Interact.Agent O A (Buffer A O × V)
  rest : X
  raised : Option PyErr

/-- `batch_observe`, with the exception of a failing one. -/
def Learner.observe (L : Learner N O A V X) (training : Bool) (s : State O A V X) (rows : List (Interact.Row O ℚ)) : State O A V X :=
  match s.agent.observe L.interval (Interact.withBuffer Queue.RAQ.append L.other) training rows with
  | .ok a => { s with agent := a }
  | .error e => { s with raised := some e }

/-- `batch_act` and `batch_observe`, e.g. `pfrl/agents/dqn.py:489-507` and `582-595`. -/
def Learner.asAgent (L : Learner N O A V X) : BatchWithEval.Agent N (State O A V X) A O where
  act := fun w s o =>
    let c := L.choose (decide (w = .train)) s.agent s.rest o
    ({ s with agent := s.agent.act (decide (w = .train)) (List.ofFn o) (List.ofFn c.1), rest := c.2 }, c.1)
  observe := fun w s o r done reset => L.observe (decide (w = .train)) s (List.ofFn fun i => ⟨o i, r i, done i, reset i⟩)

/-! ## Specification -/

/-- What an environment went through, from the calls it got and its own answers: as in `Pfrl.Train.Replayed.Spec.lived`, if all calls come from
the training. -/
def Spec.lived (maxLen : Option Nat) (calls : List (EnvCall A O)) : List (Option (Interact.Tr O A ℚ)) :=
  Replayed.Spec.lived maxLen none (calls.map fun c => (Who.train, c))

/-- The number of steps an environment made. -/
def Spec.steps (calls : List (EnvCall A O)) : Nat := Replayed.Spec.trainingSteps (calls.map fun c => (Who.train, c))

/-! ## Lemmas -/

/-- The calls of the agent in a log. -/
def history : List (Event N A O) → List (Interact.Ev O A ℚ)
  | [] => []
  | .act w o a :: l => .act (decide (w = .train)) (List.ofFn o) (List.ofFn a) :: history l
  | .observe w o r d x :: l => .observe (decide (w = .train)) (List.ofFn fun i => ⟨o i, r i, d i, x i⟩) :: history l
  | _ :: l => history l

theorem raised_stays (L : Learner N O A V X) : ∀ (l : List (Event N A O)) (s s' : State O A V X),
    BatchWithEval.Spec.Behaves L.asAgent s l s' → s'.raised = none → s.raised = none
  | [], s, s', h, hr => by
    have : s = s' := h
    rw [this]; exact hr
  | e :: l, s, s', h, hr => by
    cases e with
    | act w o a => exact raised_stays L l (L.asAgent.act w s o).1 s' h.2 hr
    | observe w o r d x =>
      have := raised_stays L l _ s' h hr
      simp only [Learner.asAgent, Learner.observe] at this
      split at this
      · exact this
      · exact absurd this (by simp)
    | _ => exact raised_stays L l s s' h hr

theorem behaves_run (L : Learner N O A V X) : ∀ (l : List (Event N A O)) (s s' : State O A V X),
    BatchWithEval.Spec.Behaves L.asAgent s l s' → s'.raised = none →
    Interact.run L.interval (Interact.withBuffer Queue.RAQ.append L.other) s.agent (history l) = .ok s'.agent
  | [], s, s', h, hr => by
    have : s = s' := h
    rw [this]; rfl
  | e :: l, s, s', h, hr => by
    cases e with
    | act w o a =>
      have h1 := behaves_run L l _ s' h.2 hr
      have h2 : (L.choose (decide (w = .train)) s.agent s.rest o).1 = a := h.1
      rw [history, Interact.run, ← h2]
      exact h1
    | observe w o r d x =>
      have h0 := raised_stays L l _ s' h hr
      have h1 := behaves_run L l _ s' h hr
      rw [history, Interact.run]
      simp only [Learner.asAgent, Learner.observe] at h0 h1
      split at h0
      · next a ha =>
        rw [ha] at h1 ⊢
        exact h1
      · exact absurd h0 (by simp)
    | _ => exact behaves_run L l s s' h hr

theorem history_append : ∀ l l' : List (Event N A O), history (l ++ l') = history l ++ history l'
  | [], _ => rfl
  | e :: l, l' => by cases e <;> simp [history, history_append l l']

/-- Events that are not calls of the agent. -/
theorem history_env (w : Who) (c : Fin N → EnvCall A O) : ∀ js : List (Fin N),
    history (js.map fun j => (.env w j (c j) : Event N A O)) = []
  | [] => rfl
  | _ :: js => history_env w c js

/-- What evaluations do is not in training. -/
theorem history_quiet : ∀ (le : List (Event N A O)), (∀ e ∈ le, Quiet e) → ∀ ev ∈ history le, Interact.Spec.isTraining ev = false
  | [], _, ev, h => by simp [history] at h
  | e :: le, hq, ev, h => by
    have ih := history_quiet le fun x hx => hq x (List.mem_cons_of_mem _ hx)
    have he := hq e List.mem_cons_self
    cases e with
    | env w i k => exact absurd he (by simp [Quiet])
    | act w o a =>
      cases w with
      | train => exact absurd he (by simp [Quiet])
      | eval =>
        rcases List.mem_cons.mp h with rfl | h
        · rfl
        · exact ih ev h
    | observe w o r d x =>
      cases w with
      | train => exact absurd he (by simp [Quiet])
      | eval =>
        rcases List.mem_cons.mp h with rfl | h
        · rfl
        · exact ih ev h
    | evalEnv i k => exact ih ev h
    | scores t n m => exact ih ev h
    | saveBest => exact ih ev h
    | save t x => exact ih ev h

theorem quiet_experience (i : Nat) (p : Option (List O × List A)) : ∀ (h : List (Interact.Ev O A ℚ)), (∀ e ∈ h, Interact.Spec.isTraining e = false) →
    Interact.Spec.experience i p h = [] ∧ Interact.Spec.Protocol p h ∧ Interact.Spec.steps h = 0 ∧ Replayed.pending p h = p
  | [], _ => ⟨rfl, trivial, rfl, rfl⟩
  | e :: h, hq => by
    have ih := quiet_experience i p h fun x hx => hq x (List.mem_cons_of_mem _ hx)
    have he := hq e List.mem_cons_self
    cases e with
    | act t o a =>
      cases t with
      | true => exact absurd he (by simp [Interact.Spec.isTraining])
      | false => exact ih
    | observe t r =>
      cases t with
      | true => exact absurd he (by simp [Interact.Spec.isTraining])
      | false => exact ih

/-- What the agent was told about the environments agrees with what they went through. -/
structure Told (S : Setup N σ (State O A V X) A O) (s : St N σ (State O A V X) A O) (o : Fin N → O) (len : Fin N → Nat) : Prop where
  experience : ∀ i : Fin N, Interact.Spec.experience i none (history s.log) = Spec.lived S.c.maxLen (BatchWithEval.Spec.calls i s.log)
  position : ∀ i : Fin N, Replayed.position none ((BatchWithEval.Spec.calls i s.log).map fun c => (Who.train, c)) = some (o i, len i)
  protocol : Interact.Spec.Protocol none (history s.log)
  others : ∀ j, N ≤ j → Interact.Spec.experience j none (history s.log) = []
  steps : Interact.Spec.steps (history s.log) = (List.finRange N).foldr (fun i n => Spec.steps (BatchWithEval.Spec.calls i s.log) + n) 0

theorem sum_succ (f g : Fin N → Nat) (h : ∀ i, g i = f i + 1) : ∀ js : List (Fin N),
    js.foldr (fun i n => g i + n) 0 = js.foldr (fun i n => f i + n) 0 + js.length
  | [] => rfl
  | j :: js => by
    rw [List.foldr_cons, List.foldr_cons, sum_succ f g h js, h, List.length_cons]
    omega

theorem told_step {S : Setup N σ (State O A V X) A O} {s : St N σ (State O A V X) A O} {o : Fin N → O} {len : Fin N → Nat}
    (h : Told S s o len) :
    Told S (s.advance S o len).1 (fun i => ((s.advance S o len).2.1 i).obs) (fun i => len i + 1) := by
  set a := (S.agent.act .train s.agent o).2 with ha
  set r : Fin N → Ret σ O := fun i => (S.env i).step (s.env.state i) (a i) with hr
  set resets : Fin N → Bool := fun i => some (len i + 1) == S.c.maxLen || (r i).needsReset with hres
  have hlog : (s.advance S o len).1.log = s.log ++ (.act .train o a :: ((List.finRange N).map fun i =>
      (.env .train i (.step (a i) (r i).obs (r i).reward (r i).done (r i).needsReset) : Event N A O)) ++
      [.observe .train (fun i => (r i).obs) (fun i => (r i).reward) (fun i => (r i).done) resets]) := by
    unfold St.advance
    simp only [train_step, St.act, St.observe]
    simp [hr, hres, ha]
  have hret : (s.advance S o len).2.1 = r := by
    unfold St.advance
    simp only [train_step, St.act]
    rfl
  rw [hret]
  have hh : history (s.advance S o len).1.log = history s.log ++ [.act true (List.ofFn o) (List.ofFn a),
      .observe true (List.ofFn fun i => ⟨(r i).obs, (r i).reward, (r i).done, resets i⟩)] := by
    rw [hlog, history_append, List.cons_append, history, history_append, history_env]
    rfl
  have hc : ∀ i, BatchWithEval.Spec.calls i (s.advance S o len).1.log = BatchWithEval.Spec.calls i s.log ++
      [.step (a i) (r i).obs (r i).reward (r i).done (r i).needsReset] := by
    intro i
    rw [hlog, calls_append, List.cons_append]
    have e1 : BatchWithEval.Spec.calls i (Event.act Who.train o a :: ((List.finRange N).map fun i =>
      (.env .train i (.step (a i) (r i).obs (r i).reward (r i).done (r i).needsReset) : Event N A O)) ++
      [.observe .train (fun i => (r i).obs) (fun i => (r i).reward) (fun i => (r i).done) resets]) =
        BatchWithEval.Spec.calls i (((List.finRange N).map fun i =>
      (.env .train i (.step (a i) (r i).obs (r i).reward (r i).done (r i).needsReset) : Event N A O)) ++
      [.observe .train (fun i => (r i).obs) (fun i => (r i).reward) (fun i => (r i).done) resets]) := rfl
    rw [List.cons_append] at e1
    rw [e1, calls_append, calls_env i _ (fun i => .step (a i) (r i).obs (r i).reward (r i).done (r i).needsReset) _ (List.nodup_finRange N),
      if_pos (List.mem_finRange i)]
    simp [BatchWithEval.Spec.calls]
  refine ⟨?_, ?_, ?_, ?_, ?_⟩
  · intro i
    rw [hh, hc, Replayed.experience_append, h.experience i]
    unfold Spec.lived
    rw [List.map_append, Replayed.lived_append, h.position i]
    congr 1
    simp only [Interact.Spec.experience, Option.bind_some, List.map_cons, List.map_nil, Replayed.Spec.lived, List.append_nil]
    rw [List.getElem?_ofFn, List.getElem?_ofFn, List.getElem?_ofFn]
    simp only [i.isLt, dif_pos, Fin.eta]
    congr 1
    have : ((r i).done = true ∨ resets i = true) ↔ ((r i).done = true ∨ (r i).needsReset = true ∨ S.c.maxLen = some (len i + 1)) := by
      rw [hres]
      simp only [Bool.or_eq_true, beq_iff_eq]
      constructor
      · rintro (h | h | h)
        · exact Or.inl h
        · exact Or.inr (Or.inr h.symm)
        · exact Or.inr (Or.inl h)
      · rintro (h | h | h)
        · exact Or.inl h
        · exact Or.inr (Or.inr h)
        · exact Or.inr (Or.inl h.symm)
    exact if_congr this rfl rfl
  · intro i
    rw [hc, List.map_append, Replayed.position_append, h.position i]
    rfl
  · rw [hh]
    refine Replayed.protocol_append _ _ _ h.protocol ⟨by simp, ⟨_, rfl, by simp⟩, trivial⟩
  · intro j hj
    rw [hh, Replayed.experience_append, h.others j hj]
    simp only [Interact.Spec.experience, Option.bind_some, List.append_nil, List.nil_append]
    rw [List.getElem?_ofFn, dif_neg (by omega)]
  · rw [hh, Replayed.steps_append, h.steps]
    have := sum_succ (fun i => Spec.steps (BatchWithEval.Spec.calls i s.log)) (fun i => Spec.steps (BatchWithEval.Spec.calls i (s.advance S o len).1.log))
      (by
        intro i
        rw [hc]
        unfold Spec.steps
        rw [List.map_append, Replayed.trainingSteps_append]
        rfl) (List.finRange N)
    rw [this]
    simp [Interact.Spec.steps]

theorem told_quiet {S : Setup N σ (State O A V X) A O} {s s' : St N σ (State O A V X) A O} {o : Fin N → O} {len : Fin N → Nat}
    (h : Told S s o len) {le : List (Event N A O)} (hl : s'.log = s.log ++ le) (hq : ∀ e ∈ le, Quiet e) : Told S s' o len := by
  have hqh := history_quiet le hq
  have hcl : ∀ i, BatchWithEval.Spec.calls i s'.log = BatchWithEval.Spec.calls i s.log := by
    intro i
    rw [hl, calls_append, quiet_calls i le hq, List.append_nil]
  refine ⟨?_, ?_, ?_, ?_, ?_⟩
  · intro i
    rw [hcl, hl, history_append, Replayed.experience_append, (quiet_experience _ _ _ hqh).1, List.append_nil]
    exact h.experience i
  · intro i
    rw [hcl]
    exact h.position i
  · rw [hl, history_append]
    exact Replayed.protocol_append _ _ _ h.protocol (quiet_experience 0 _ _ hqh).2.1
  · intro j hj
    rw [hl, history_append, Replayed.experience_append, (quiet_experience _ _ _ hqh).1, List.append_nil]
    exact h.others j hj
  · rw [hl, history_append, Replayed.steps_append, (quiet_experience 0 none _ hqh).2.2.1, Nat.add_zero, h.steps, ← hl]
    congr 1
    funext i n
    rw [hcl]

/-- What is known of a state in which only some environments may be reset. -/
theorem told_reset {S : Setup N σ (State O A V X) A O} {s : St N σ (State O A V X) A O} {o : Fin N → O} {len : Fin N → Nat}
    (h : Told S s o len) (hlast : ∀ i, s.env.last i = some (o i)) (ended : Fin N → Bool) (o' : Fin N → O) :
    Told S (s.reset S .train fun i => !ended i).1 (fun i => ((s.reset S .train fun i => !ended i).2 i).getD (o' i))
      (fun i => if ended i then 0 else len i) := by
  rw [train_reset]
  simp only [Bool.not_not]
  have hh : history (s.log ++ ((List.finRange N).filter fun i => ended i).map fun i =>
      (.env .train i (.reset ((S.env i).reset (s.env.state i)).2) : Event N A O)) = history s.log := by
    rw [history_append, history_env, List.append_nil]
  have hc : ∀ i, BatchWithEval.Spec.calls i (s.log ++ ((List.finRange N).filter fun i => ended i).map fun i =>
      (.env .train i (.reset ((S.env i).reset (s.env.state i)).2) : Event N A O)) =
      BatchWithEval.Spec.calls i s.log ++ if ended i then [.reset ((S.env i).reset (s.env.state i)).2] else [] := by
    intro i
    rw [calls_append, calls_env i _ (fun i => .reset ((S.env i).reset (s.env.state i)).2) _ ((List.nodup_finRange N).filter _)]
    simp
  refine ⟨?_, ?_, ?_, ?_, ?_⟩
  · intro i
    simp only [hh, hc]
    rw [h.experience i]
    unfold Spec.lived
    rw [List.map_append, Replayed.lived_append, h.position i]
    cases ended i <;> simp [Replayed.Spec.lived]
  · intro i
    simp only [hc]
    rw [List.map_append, Replayed.position_append, h.position i]
    simp only [Vec.reset, Bool.not_eq_true', hlast]
    cases ended i <;> simp [Replayed.position]
  · simp only [hh]
    exact h.protocol
  · simp only [hh]
    exact h.others
  · simp only [hh, hc]
    rw [h.steps]
    congr 1
    funext i n
    congr 1
    unfold Spec.steps
    rw [List.map_append, Replayed.trainingSteps_append]
    cases ended i <;> simp [Replayed.Spec.trainingSteps]

/-- What is left at the end of a training. -/
def Done (S : Setup N σ (State O A V X) A O) (s : St N σ (State O A V X) A O) : Prop := ∃ o len, Told S s o len

theorem trainLoop_done {S : Setup N σ (State O A V X) A O} (hs : S.c.evaluator = true → S.c.shared = false) (fuelE : Nat) :
    ∀ (fuel : Nat) (s : St N σ (State O A V X) A O) (o : Fin N → O) (len : Fin N → Nat) (idx t : Nat) (history : List ℚ),
      Told S s o len → Done S (trainLoop S fuelE fuel s o len idx t history).1
  | 0, s, o, len, _, _, _, h => ⟨o, len, h⟩
  | fuel + 1, s, o, len, idx, t, hist, h => by
    have hm := told_step h
    rw [trainLoop]
    simp only
    have hlast : ∀ i, (s.advance S o len).1.env.last i = some ((s.advance S o len).2.1 i).obs := by
      intro i
      unfold St.advance
      simp only [train_step, St.act, St.observe, Vec.step]
    set x := s.advance S o len with hx
    set idx' := idx + ((List.finRange N).filter fun i => x.2.2 i).length with hidx
    have hm' : ∃ y : St N σ (State O A V X) A O × WithEval.Verdict, y = (if S.c.evaluator = true then evaluateIfNecessary S fuelE x.1 o (t + N) idx' else (x.1, .notDue)) ∧
        Told S y.1 (fun i => (x.2.1 i).obs) (fun i => len i + 1) ∧ ∀ i, y.1.env.last i = some (x.2.1 i).obs := by
      refine ⟨_, rfl, ?_⟩
      split
      · next he =>
        have hev := evaluateIfNecessary_evaluated (hs he) fuelE x.1 o (t + N) idx'
        obtain ⟨le, hl, hq⟩ := hev.log
        refine ⟨told_quiet hm hl hq, ?_⟩
        rw [hev.env]
        exact hlast
      · exact ⟨hm, hlast⟩
    obtain ⟨y, hy, ht, hl⟩ := hm'
    rw [← hy]
    have hsave : ∀ (n : Nat) (z : Suffix), Done S (y.1.save n z) := fun n z =>
      ⟨_, _, told_quiet (le := [.save n z]) ht rfl (by simp [Quiet])⟩
    split
    · exact ⟨_, _, ht⟩
    · split
      · exact hsave _ _
      · split
        · exact hsave _ _
        · have := told_reset ht hl x.2.2 o
          exact trainLoop_done hs fuelE fuel _ _ _ _ _ _ this

theorem told_start (S : Setup N σ (State O A V X) A O) (s : St N σ (State O A V X) A O) (hl : s.log = []) (o : Fin N → O) :
    Told S (s.reset S .train fun _ => false).1 (fun i => ((s.reset S .train fun _ => false).2 i).getD (o i)) (fun _ => 0) := by
  rw [train_reset]
  have hh : history (s.log ++ ((List.finRange N).filter fun _ => !false).map fun i =>
      (.env .train i (.reset ((S.env i).reset (s.env.state i)).2) : Event N A O)) = [] := by
    rw [history_append, history_env, List.append_nil, hl]
    rfl
  have hc : ∀ i, BatchWithEval.Spec.calls i (s.log ++ ((List.finRange N).filter fun _ => !false).map fun i =>
      (.env .train i (.reset ((S.env i).reset (s.env.state i)).2) : Event N A O)) = [.reset ((S.env i).reset (s.env.state i)).2] := by
    intro i
    rw [calls_append, calls_env i _ (fun i => .reset ((S.env i).reset (s.env.state i)).2) _ ((List.nodup_finRange N).filter _), hl]
    simp [BatchWithEval.Spec.calls]
  refine ⟨?_, ?_, ?_, ?_, ?_⟩
  · intro i
    simp only [hh, hc]
    rfl
  · intro i
    simp only [hc]
    simp [Vec.reset, Replayed.position]
  · simp only [hh]
    trivial
  · intro j _
    simp only [hh]
    rfl
  · simp only [hh, hc]
    have : ∀ js : List (Fin N), js.foldr (fun i n => Spec.steps [(EnvCall.reset ((S.env i).reset (s.env.state i)).2 : EnvCall A O)] + n) 0 = 0 := by
      intro js
      induction js with
      | nil => rfl
      | cons j js ih =>
        rw [List.foldr_cons, ih]
        simp [Spec.steps, Replayed.Spec.trainingSteps]
    rw [this]
    rfl

/-! ## C120 -/

/-- **C120 (partial).** Train an agent of the Q-learning family, with any networks, updates and exploration and with a `ReplayBuffer` of any
capacity and `num_steps = n`, by `train_agent_batch_with_evaluation` in any vector of environments, with evaluations in other environments or none.
At the end, unless the agent raised an exception, the buffer contains the newest windows, up to its capacity, of an interleaving (`log`) which
has for each environment exactly the `n`-step windows of the episodes that this environment went through, by the calls it got and its
own answers, in order; and the agent has counted the steps of all environments from `step_offset`.

Missing: the default, where evaluations use the environments of the training, for which this is false (`batch_buffer_corrupted`). -/
theorem batch_buffer_holds_trajectories_partial (S : Setup N σ (State O A V X) A O) (L : Learner N O A V X) (hL : S.agent = L.asAgent)
    (hk : L.interval ≠ some 0) (hs : S.c.evaluator = true → S.c.shared = false) (capacity : Option Nat) {n : Nat} (hn : 0 < n) (v : V) (x : X)
    (fuelE fuel : Nat) (env evalEnv : Fin N → σ) (o : Fin N → O) :
    ∃ b0, Replay.RB.new (capacity.map Int.ofNat) n = .ok b0 ∧
      ∀ r, train S fuelE fuel env evalEnv ⟨(Interact.Agent.new (b0, v)).resumed S.c.offset, x, none⟩ o = .ok r → r.1.agent.raised = none →
        ∃ calls : Fin N → List (EnvCall A O), (∀ i, WithEval.Spec.Answers (S.env i) (env i) (calls i) (r.1.env.state i)) ∧
          (∃ log : List (Nat × List (Replay.Tr (O × A × ℚ × O))),
            r.1.agent.agent.world.1.memory.iter = Queue.Spec.keep capacity (log.map Prod.snd) ∧
            (∀ i : Fin N, Replay.Spec.ofEnv (i : Nat) log = Replay.Spec.stored n ((Spec.lived S.c.maxLen (calls i)).map (Option.map Interact.Spec.asBufferTr))) ∧
            ∀ j, N ≤ j → Replay.Spec.ofEnv j log = []) ∧
          r.1.agent.agent.t = S.c.offset + ∑ i, Spec.steps (calls i) := by
  obtain ⟨b0, hb, -⟩ := Interact.agent_buffer_contents (O := O) (A := A) (R := ℚ) hk capacity hn L.other v 0 [] trivial
  refine ⟨b0, hb, fun r hr hok => ?_⟩
  obtain ⟨ha, hbe⟩ := batch_training_calls S fuelE fuel env evalEnv _ o hr
  have hd : Done S r.1 := by
    unfold train at hr
    split at hr
    · exact absurd hr (by simp)
    · rw [← Except.ok.inj hr]
      exact trainLoop_done hs fuelE fuel _ _ _ _ _ _ (told_start S _ rfl o)
  obtain ⟨o', len', ht⟩ := hd
  obtain ⟨b1, hb1, hc⟩ := Interact.agent_buffer_contents hk capacity hn L.other v S.c.offset (history r.1.log) ht.protocol
  rw [hb] at hb1
  cases hb1
  rw [hL] at hbe
  obtain ⟨h4, log, h5, h6⟩ := hc _ (behaves_run L _ _ _ hbe hok)
  refine ⟨fun i => BatchWithEval.Spec.calls i r.1.log, ha, ⟨log, h5, fun i => ?_, fun j hj => ?_⟩, ?_⟩
  · rw [h6 i, ht.experience i]
  · rw [h6 j, ht.others j hj]
    simp [Replay.Spec.stored, Replay.Spec.episodes]
  · rw [h4, ht.steps]
    congr 1
    rw [← List.sum_ofFn, List.ofFn_eq_map, List.sum_eq_foldr, List.foldr_map]

/-! ### Non-vacuity, and the default arguments -/

/-- An agent whose actions are the number of steps counted so far. -/
def exLearner : Learner 2 Nat Nat Nat Nat where
  interval := some 2
  other := fun _ v _ => .ok (v + 1)
  choose := fun _ a x _ => (fun _ => a.t, x + 1)

/-- The environments of C113: counters, which the actions add to; an episode ends after five steps. -/
def exSetup (shared : Bool) : Setup 2 (Nat × Nat) (State Nat Nat Nat Nat) Nat Nat where
  env := fun _ => exEnv
  evalEnv := fun _ => exEnv
  agent := exLearner.asAgent
  c := { steps := 8, offset := 1, maxLen := some 3, evalMaxLen := none, goal := .episodes 1, evalInterval := 4, successful := none, shared := shared, saveBest := true, evaluator := true }

def exRun (shared : Bool) : Option (Bool × Nat × List (List ((Nat × Nat × ℚ × Nat) × Bool))) :=
  match Replay.RB.new none 2 with
  | .error _ => none
  | .ok b0 =>
    match train (exSetup shared) 10 10 (fun _ => (0, 0)) (fun _ => (0, 0)) ⟨(Interact.Agent.new (b0, 0)).resumed (exSetup shared).c.offset, 0, none⟩ (fun _ => 0) with
    | .ok r => some (r.1.agent.raised.isNone, r.1.agent.agent.t, r.1.agent.agent.world.1.memory.iter.map fun w => w.map fun x => (x.payload, x.terminal))
    | .error _ => none

set_option synthInstance.maxSize 2000 in
/-- Evaluations in environments of their own: one after the second step of each environment.  The third step ends the episodes by
`max_episode_len`; the rest of the training is in the new ones. -/
example : exRun false = some (true, 9,
    [[((0, 1, 1, 1), false), ((1, 3, 3, 4), false)], [((0, 1, 1, 1), false), ((1, 3, 3, 4), false)],
      [((1, 3, 3, 4), false), ((4, 5, 5, 9), false)], [((4, 5, 5, 9), false)],
      [((1, 3, 3, 4), false), ((4, 5, 5, 9), false)], [((4, 5, 5, 9), false)]]) := by decide +kernel

set_option synthInstance.maxSize 2000 in
/-- **C120 (the default).** `train_agent_batch_with_evaluation` without `eval_env`: the claim is false.  The evaluation after the second step of
each environment leaves the environments at 15, and the training goes on from there, in the same episodes as far as the agent knows.  So the
buffer gets windows whose second step does not begin where the first one ended: from 1 by the action 3 to 4, and then
from 15 by the action 5 to 20. -/
theorem batch_buffer_corrupted : exRun true = some (true, 9,
    [[((0, 1, 1, 1), false), ((1, 3, 3, 4), false)], [((0, 1, 1, 1), false), ((1, 3, 3, 4), false)],
      [((1, 3, 3, 4), false), ((15, 5, 5, 20), false)], [((15, 5, 5, 20), false)],
      [((1, 3, 3, 4), false), ((15, 5, 5, 20), false)], [((15, 5, 5, 20), false)]]) := by decide +kernel

end Pfrl.Train.BatchReplayed
