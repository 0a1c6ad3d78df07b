import Verif.Train.WithEval
import Verif.Interact.Props

/-!
# A training with evaluations and a replay buffer, put together (C115)

The loop of `train_agent_with_evaluation` (C112), an agent of the Q-learning family (C35, C36) and its replay buffer (C11, C12).
-/

namespace Pfrl.Train.Replayed

open Pfrl.Train.WithEval

variable {σ η A O V X : Type}

/-! ## Model -/

/-- What a `ReplayBuffer` stores for an agent. -/
abbrev Buffer (A O : Type) :=
  Replay.RB Nat (O × A × ℚ × O) (Queue.RAQ (List (Replay.Tr (O × A × ℚ × O))))

/-- The parts of DQN, DDPG, TD3 and SAC that are left open: how often the target network is synchronised in
`batch_observe`; what synchronising and updating do to networks and optimisers, `V`, given the buffer; how actions are chosen, in training or in
evaluation, from the agent and from something, `X`, that changes with it (the random number generator and, in evaluation, recurrent
states).  Simplified: the random numbers of updates are in `V` and not shared with `X`. -/
structure Learner (O A V X : Type) where
  interval : Option Nat
  other : Buffer A O → V → Interact.Eff O A ℚ → Except PyErr V
  choose : Bool → Interact.Agent O A (Buffer A O × V) → X → O → A × X

/-- The agent during a training, and the first exception if one was raised. -/
structure State (O A V X : Type) where
  agent : Interact.Agent O A (Buffer A O × V)
  rest : X
  raised : Option PyErr

/-- `observe`, with the exception of a failing one. -/
def Learner.observe (L : Learner O A V X) (training : Bool) (s : State O A V X) (row : Interact.Row O ℚ) : State O A V X :=
  match s.agent.observe L.interval (Interact.withBuffer Queue.RAQ.append L.other) training [row] with
  | .ok a => { s with agent := a }
  | .error e => { s with raised := some e }

/-- `BatchAgent.act` and `BatchAgent.observe`, `pfrl/agent.py:160-164`: batches of one; the mode decides between `_batch_act_train`
and `_batch_act_eval`, e.g. `pfrl/agents/dqn.py:489-507`. -/
def Learner.asAgent (L : Learner O A V X) : WithEval.Agent (State O A V X) A O where
  act := fun w s o =>
    let c := L.choose (decide (w = .train)) s.agent s.rest o
    ({ s with agent := s.agent.act (decide (w = .train)) [o] [c.1], rest := c.2 }, c.1)
  observe := fun w s o r done reset => L.observe (decide (w = .train)) s ⟨o, r, done, reset⟩

/-! ## Specification -/

/-- The calls on the environment of the training, and whether the training or an evaluation made them. -/
def Spec.envCalls : List (Event A O) → List (Who × EnvCall A O)
  | [] => []
  | .env w c :: l => (w, c) :: Spec.envCalls l
  | _ :: l => Spec.envCalls l

/-- What the environment went through in training, from its own answers: for each step the transition that starts at the
observation it had returned just before, and `none` when the episode is done, when the environment asks for a reset, or when the
maximal length is reached.  A step after an evaluation without a reset would give no transition.  `now` is the last observation and the number
of steps since the last reset. -/
def Spec.lived (maxLen : Option Nat) : Option (O × Nat) → List (Who × EnvCall A O) → List (Option (Interact.Tr O A ℚ))
  | _, [] => []
  | _, (.train, .reset o) :: l => Spec.lived maxLen (some (o, 0)) l
  | some now, (.train, .step a o r d n) :: l =>
    some ⟨now.1, a, r, o, d⟩ :: (if d = true ∨ n = true ∨ maxLen = some (now.2 + 1) then [none] else []) ++
      Spec.lived maxLen (some (o, now.2 + 1)) l
  | none, (.train, .step _ _ _ _ _) :: l => Spec.lived maxLen none l
  | _, (.eval, _) :: l => Spec.lived maxLen none l

/-- The number of steps made in training. -/
def Spec.trainingSteps (l : List (Who × EnvCall A O)) : Nat :=
  (l.filter fun x => match x with
    | (.train, .step ..) => true
    | _ => false).length

/-! ## Lemmas -/

/-- The calls of the agent in a log. -/
def history : List (Event A O) → List (Interact.Ev O A ℚ)
  | [] => []
  | .act w o a :: l => .act (decide (w = .train)) [o] [a] :: history l
  | .observe w o r d x :: l => .observe (decide (w = .train)) [⟨o, r, d, x⟩] :: history l
  | _ :: l => history l

theorem raised_stays (L : Learner O A V X) : ∀ (l : List (Event A O)) (s s' : State O A V X),
    WithEval.Spec.Behaves L.asAgent s l s' → s'.raised = none → s.raised = none
  | [], s, s', h, hr => by
    have : s = s' := h
    rw [this]; exact hr
  | e :: l, s, s', h, hr => by
    cases e with
    | act w o a => exact raised_stays L l (L.asAgent.act w s o).1 s' h.2 hr
    | observe w o r d x =>
      have := raised_stays L l _ s' h hr
      simp only [Learner.asAgent, Learner.observe] at this
      split at this
      · exact this
      · exact absurd this (by simp)
    | _ => exact raised_stays L l s s' h hr

theorem behaves_run (L : Learner O A V X) : ∀ (l : List (Event A O)) (s s' : State O A V X),
    WithEval.Spec.Behaves L.asAgent s l s' → s'.raised = none →
    Interact.run L.interval (Interact.withBuffer Queue.RAQ.append L.other) s.agent (history l) = .ok s'.agent
  | [], s, s', h, hr => by
    have : s = s' := h
    rw [this]; rfl
  | e :: l, s, s', h, hr => by
    cases e with
    | act w o a =>
      have h1 := behaves_run L l _ s' h.2 hr
      have h2 : (L.choose (decide (w = .train)) s.agent s.rest o).1 = a := h.1
      rw [history, Interact.run, ← h2]
      exact h1
    | observe w o r d x =>
      have h0 := raised_stays L l _ s' h hr
      have h1 := behaves_run L l _ s' h hr
      rw [history, Interact.run]
      simp only [Learner.asAgent, Learner.observe] at h0 h1
      split at h0
      · next a ha =>
        rw [ha] at h1 ⊢
        exact h1
      · exact absurd h0 (by simp)
    | _ => exact behaves_run L l s s' h hr

theorem history_append : ∀ l l' : List (Event A O), history (l ++ l') = history l ++ history l'
  | [], _ => rfl
  | e :: l, l' => by cases e <;> simp [history, history_append l l']

theorem history_training : ∀ l : List (Event A O),
    (history l).filter Interact.Spec.isTraining = history (WithEval.Spec.training l)
  | [] => rfl
  | e :: l => by
    have ih := history_training l
    unfold WithEval.Spec.training at ih ⊢
    cases e with
    | act w o a =>
      cases w with
      | train => rw [List.filter_cons_of_pos (by rfl), history, history, ← ih]; rfl
      | eval => rw [List.filter_cons_of_neg (by simp [WithEval.Spec.ofTraining]), history, ← ih]; rfl
    | observe w o r d x =>
      cases w with
      | train => rw [List.filter_cons_of_pos (by rfl), history, history, ← ih]; rfl
      | eval => rw [List.filter_cons_of_neg (by simp [WithEval.Spec.ofTraining]), history, ← ih]; rfl
    | env w c =>
      cases w with
      | train => rw [List.filter_cons_of_pos (by rfl)]; exact ih
      | eval => rw [List.filter_cons_of_neg (by simp [WithEval.Spec.ofTraining])]; exact ih
    | _ => simp [history, WithEval.Spec.ofTraining, ih]

theorem protocol_training : ∀ (h : List (Interact.Ev O A ℚ)) (p : Option (List O × List A)),
    Interact.Spec.Protocol p (h.filter Interact.Spec.isTraining) → Interact.Spec.Protocol p h
  | [], _, _ => trivial
  | .act true _ _ :: h, _, hp => ⟨hp.1, protocol_training h _ hp.2⟩
  | .act false _ _ :: h, p, hp => protocol_training h p hp
  | .observe true _ :: h, _, hp => ⟨hp.1, protocol_training h _ hp.2⟩
  | .observe false _ :: h, p, hp => protocol_training h p hp

theorem experience_training (i : Nat) : ∀ (h : List (Interact.Ev O A ℚ)) (p : Option (List O × List A)),
    Interact.Spec.experience i p (h.filter Interact.Spec.isTraining) = Interact.Spec.experience i p h
  | [], _ => rfl
  | .act true _ _ :: h, p => experience_training i h _
  | .act false _ _ :: h, p => experience_training i h p
  | .observe true _ :: h, p => by
    have := experience_training i h none
    simp only [List.filter, Interact.Spec.isTraining, Interact.Spec.experience]
    rw [this]
  | .observe false _ :: h, p => experience_training i h p

/-- The act that waits for its observe. -/
def pending (p : Option (List O × List A)) : List (Interact.Ev O A ℚ) → Option (List O × List A)
  | [] => p
  | .act true obs acts :: h => pending (some (obs, acts)) h
  | .act false _ _ :: h => pending p h
  | .observe true _ :: h => pending none h
  | .observe false _ :: h => pending p h

theorem protocol_append : ∀ (h h' : List (Interact.Ev O A ℚ)) (p : Option (List O × List A)),
    Interact.Spec.Protocol p h → Interact.Spec.Protocol (pending p h) h' → Interact.Spec.Protocol p (h ++ h')
  | [], _, _, _, h2 => h2
  | .act true _ _ :: h, h', _, h1, h2 => ⟨h1.1, protocol_append h h' _ h1.2 h2⟩
  | .act false _ _ :: h, h', p, h1, h2 => protocol_append h h' p h1 h2
  | .observe true _ :: h, h', _, h1, h2 => ⟨h1.1, protocol_append h h' _ h1.2 h2⟩
  | .observe false _ :: h, h', p, h1, h2 => protocol_append h h' p h1 h2

theorem experience_append (i : Nat) : ∀ (h h' : List (Interact.Ev O A ℚ)) (p : Option (List O × List A)),
    Interact.Spec.experience i p (h ++ h') = Interact.Spec.experience i p h ++ Interact.Spec.experience i (pending p h) h'
  | [], _, _ => rfl
  | .act true _ _ :: h, h', p => experience_append i h h' _
  | .act false _ _ :: h, h', p => experience_append i h h' p
  | .observe true _ :: h, h', p => by
    have := experience_append i h h' none
    simp only [List.cons_append, Interact.Spec.experience, pending]
    rw [this, List.append_assoc]
  | .observe false _ :: h, h', p => experience_append i h h' p

theorem pending_append : ∀ (h h' : List (Interact.Ev O A ℚ)) (p : Option (List O × List A)),
    pending p (h ++ h') = pending (pending p h) h'
  | [], _, _ => rfl
  | .act true _ _ :: h, h', _ => pending_append h h' _
  | .act false _ _ :: h, h', p => pending_append h h' p
  | .observe true _ :: h, h', _ => pending_append h h' _
  | .observe false _ :: h, h', p => pending_append h h' p

/-- The position after some calls. -/
def position : Option (O × Nat) → List (Who × EnvCall A O) → Option (O × Nat)
  | p, [] => p
  | _, (.train, .reset o) :: l => position (some (o, 0)) l
  | some now, (.train, .step _ o _ _ _) :: l => position (some (o, now.2 + 1)) l
  | none, (.train, .step _ _ _ _ _) :: l => position none l
  | _, (.eval, _) :: l => position none l

theorem lived_append (m : Option Nat) : ∀ (l l' : List (Who × EnvCall A O)) (p : Option (O × Nat)),
    Spec.lived m p (l ++ l') = Spec.lived m p l ++ Spec.lived m (position p l) l'
  | [], _, _ => rfl
  | (.train, .reset o) :: l, l', p => by
    cases p <;> exact lived_append m l l' _
  | (.train, .step a o r d n) :: l, l', p => by
    cases p with
    | none => exact lived_append m l l' _
    | some now =>
      simp only [List.cons_append, Spec.lived, position]
      rw [lived_append m l l' _, List.append_assoc]
  | (.eval, c) :: l, l', p => by
    cases p <;> exact lived_append m l l' _

theorem position_append : ∀ (l l' : List (Who × EnvCall A O)) (p : Option (O × Nat)),
    position p (l ++ l') = position (position p l) l'
  | [], _, _ => rfl
  | (.train, .reset o) :: l, l', p => by cases p <;> exact position_append l l' _
  | (.train, .step a o r d n) :: l, l', p => by cases p <;> exact position_append l l' _
  | (.eval, c) :: l, l', p => by cases p <;> exact position_append l l' _

theorem envCalls_append : ∀ l l' : List (Event A O), Spec.envCalls (l ++ l') = Spec.envCalls l ++ Spec.envCalls l'
  | [], _ => rfl
  | e :: l, l' => by cases e <;> simp [Spec.envCalls, envCalls_append l l']

theorem envCalls_snd : ∀ l : List (Event A O), (Spec.envCalls l).map Prod.snd = WithEval.Spec.calls l
  | [] => rfl
  | e :: l => by cases e <;> simp [Spec.envCalls, WithEval.Spec.calls, envCalls_snd l]

theorem mem_envCalls {w : Who} {c : EnvCall A O} : ∀ {l : List (Event A O)}, (w, c) ∈ Spec.envCalls l → .env w c ∈ l
  | e :: l, h => by
    cases e with
    | env w' c' =>
      rcases List.mem_cons.mp h with h | h
      · cases h; exact List.mem_cons_self
      · exact List.mem_cons_of_mem _ (mem_envCalls h)
    | _ => exact List.mem_cons_of_mem _ (mem_envCalls (l := l) h)

/-- What holds of a training in each of its phases. -/
def Told (m : Option Nat) (l : List (Event A O)) : WithEval.Spec.Phase A O → Prop
  | .over => Interact.Spec.experience 0 none (history l) = Spec.lived m none (Spec.envCalls l)
  | .ready o len => Interact.Spec.experience 0 none (history l) = Spec.lived m none (Spec.envCalls l) ∧
      position none (Spec.envCalls l) = some (o, len)
  | .acted len a => ∃ o, Interact.Spec.experience 0 none (history l) = Spec.lived m none (Spec.envCalls l) ∧
      position none (Spec.envCalls l) = some (o, len) ∧ pending none (history l) = some ([o], [a])
  | .stepped len o' r d n => ∃ o a, Spec.lived m none (Spec.envCalls l) =
        Interact.Spec.experience 0 none (history l) ++
          (some ⟨o, a, r, o', d⟩ :: if d = true ∨ n = true ∨ m = some len then [none] else []) ∧
      position none (Spec.envCalls l) = some (o', len) ∧ pending none (history l) = some ([o], [a])

theorem steps_append : ∀ h h' : List (Interact.Ev O A ℚ), Interact.Spec.steps (h ++ h') = Interact.Spec.steps h + Interact.Spec.steps h'
  | [], _ => by simp [Interact.Spec.steps]
  | .act true _ _ :: h, h' => steps_append h h'
  | .act false _ _ :: h, h' => steps_append h h'
  | .observe true _ :: h, h' => by
    simp only [List.cons_append, Interact.Spec.steps]
    rw [steps_append h h']; omega
  | .observe false _ :: h, h' => steps_append h h'

theorem trainingSteps_append (l l' : List (Who × EnvCall A O)) :
    Spec.trainingSteps (l ++ l') = Spec.trainingSteps l + Spec.trainingSteps l' := by
  unfold Spec.trainingSteps
  rw [List.filter_append, List.length_append]

/-- A step that is not observed yet. -/
def unobserved : WithEval.Spec.Phase A O → Nat
  | .stepped .. => 1
  | _ => 0

theorem path_told {m : Option Nat} {l : List (Event A O)} {q : WithEval.Spec.Phase A O}
    (h : WithEval.Spec.Path m .over l q) : Told m l q ∧ Interact.Spec.Protocol none (history l) ∧
      Interact.Spec.steps (history l) + unobserved q = Spec.trainingSteps (Spec.envCalls l) := by
  induction h with
  | nil => exact ⟨rfl, trivial, rfl⟩
  | @snoc q r l e h he ih =>
    obtain ⟨ih, hpr, hst⟩ := ih
    cases he with
    | reset o =>
      unfold Told at ih ⊢
      simp only [history_append, history, List.append_nil, envCalls_append, Spec.envCalls]
      refine ⟨⟨?_, ?_⟩, hpr, ?_⟩
      · rw [ih, lived_append]
        cases position none (Spec.envCalls l) <;> simp [Spec.lived]
      · rw [position_append]
        cases position none (Spec.envCalls l) <;> rfl
      · rw [trainingSteps_append]
        simpa [unobserved, Spec.trainingSteps] using hst
    | act o len a =>
      obtain ⟨h1, h2⟩ := ih
      unfold Told
      simp only [history_append, history, envCalls_append, Spec.envCalls, List.append_nil]
      refine ⟨⟨o, ?_, h2, ?_⟩, ?_, ?_⟩
      · rw [experience_append, ← h1]
        simp [Interact.Spec.experience]
      · rw [pending_append]
        rfl
      · exact protocol_append _ _ _ hpr ⟨rfl, trivial⟩
      · rw [steps_append]
        simpa [unobserved, Interact.Spec.steps] using hst
    | step len a o r d n =>
      obtain ⟨o0, h1, h2, h3⟩ := ih
      unfold Told
      simp only [history_append, history, envCalls_append, Spec.envCalls, List.append_nil]
      refine ⟨⟨o0, a, ?_, ?_, h3⟩, hpr, ?_⟩
      · rw [lived_append, ← h1, h2]
        simp [Spec.lived]
      · rw [position_append, h2]
        rfl
      · rw [trainingSteps_append]
        have : Interact.Spec.steps (history l) = Spec.trainingSteps (Spec.envCalls l) := by simpa [unobserved] using hst
        rw [this]
        rfl
    | goOn len o r hm =>
      obtain ⟨o0, a, h1, h2, h3⟩ := ih
      unfold Told
      simp only [history_append, history, envCalls_append, Spec.envCalls, List.append_nil]
      refine ⟨⟨?_, h2⟩, ?_, ?_⟩
      · rw [experience_append, h1, h3]
        simp [Interact.Spec.experience, hm]
      · exact protocol_append _ _ _ hpr ⟨⟨_, h3, rfl⟩, trivial⟩
      · rw [steps_append, ← hst]
        rfl
    | finish len o r d n x hx hd =>
      obtain ⟨o0, a, h1, h2, h3⟩ := ih
      unfold Told
      simp only [history_append, history, envCalls_append, Spec.envCalls, List.append_nil]
      refine ⟨?_, ?_, ?_⟩
      · rw [experience_append, h1, h3]
        have e1 : (d = true ∨ n = true ∨ m = some len) := by
          rcases hd with hd | hd
          · exact Or.inl hd
          · exact Or.inr (hx.mp hd)
        simp [Interact.Spec.experience, if_pos hd, if_pos e1]
      · exact protocol_append _ _ _ hpr ⟨⟨_, h3, rfl⟩, trivial⟩
      · rw [steps_append, ← hst]
        rfl

/-- What is lived is the same without the calls of evaluations, if these do not interfere. -/
theorem lived_training {c : WithEval.Cfg} : ∀ (rest past : List (Event A O)) (p p' : Option (O × Nat)),
    WithEval.Spec.Intact c (past ++ rest) → (∀ x, WithEval.Spec.lastCall past = some (.train, x) → p = p') →
    Spec.lived c.maxLen p (Spec.envCalls rest) = Spec.lived c.maxLen p' (Spec.envCalls (WithEval.Spec.training rest))
  | [], _, p, p', _, _ => by cases p <;> cases p' <;> rfl
  | e :: rest, past, p, p', hi, hp => by
    have hi' : WithEval.Spec.Intact c ((past ++ [e]) ++ rest) := by simpa using hi
    have hlast : elsewhere e = true → WithEval.Spec.lastCall (past ++ [e]) = WithEval.Spec.lastCall past := fun h =>
      lastCall_append past [e] (by simpa using h)
    unfold WithEval.Spec.training
    cases e with
    | env w x =>
      cases w with
      | eval =>
        rw [List.filter_cons_of_neg (by simp [WithEval.Spec.ofTraining]), Spec.envCalls]
        have ih := lived_training rest (past ++ [.env .eval x]) none p' hi' (by
          intro y hy
          rw [lastCall_env] at hy
          exact absurd hy (by simp))
        cases p <;> exact ih
      | train =>
        rw [List.filter_cons_of_pos (by rfl), Spec.envCalls, Spec.envCalls]
        cases x with
        | reset o =>
          have ih := lived_training rest (past ++ [.env .train (.reset o)]) (some (o, 0)) (some (o, 0)) hi' (fun _ _ => rfl)
          cases p <;> cases p' <;> exact ih
        | step a o r d n =>
          obtain ⟨o0, h0⟩ := hi past _ rest rfl
          obtain ⟨past', h1⟩ := List.getLast?_eq_some_iff.mp h0
          have h2 := hi past' (.act .train o0 a) (.env .train (.step a o r d n) :: rest) (by rw [h1]; simp)
          obtain ⟨⟨y, h3, -, -⟩, -⟩ := h2
          have h4 : WithEval.Spec.lastCall past = some (.train, y) := by
            rw [h1, lastCall_append past' _ (by simp [elsewhere])]
            exact h3
          have h5 := hp y h4
          subst h5
          cases p with
          | none => exact lived_training rest (past ++ [.env .train (.step a o r d n)]) none none hi' (fun _ _ => rfl)
          | some now =>
            have ih := lived_training rest (past ++ [.env .train (.step a o r d n)]) (some (o, now.2 + 1)) (some (o, now.2 + 1)) hi'
              (fun _ _ => rfl)
            simp only [Spec.lived]
            rw [ih]
            rfl
    | act w o a =>
      have ih := lived_training rest _ p p' hi' (by rw [hlast rfl]; exact hp)
      cases w with
      | train => rw [List.filter_cons_of_pos (by rfl)]; exact ih
      | eval => rw [List.filter_cons_of_neg (by simp [WithEval.Spec.ofTraining])]; exact ih
    | observe w o r d x =>
      have ih := lived_training rest _ p p' hi' (by rw [hlast rfl]; exact hp)
      cases w with
      | train => rw [List.filter_cons_of_pos (by rfl)]; exact ih
      | eval => rw [List.filter_cons_of_neg (by simp [WithEval.Spec.ofTraining])]; exact ih
    | evalEnv x =>
      rw [List.filter_cons_of_neg (by simp [WithEval.Spec.ofTraining])]
      exact lived_training rest _ p p' hi' (by rw [hlast rfl]; exact hp)
    | scores t n x =>
      rw [List.filter_cons_of_neg (by simp [WithEval.Spec.ofTraining])]
      exact lived_training rest _ p p' hi' (by rw [hlast rfl]; exact hp)
    | hook i t x =>
      rw [List.filter_cons_of_neg (by simp [WithEval.Spec.ofTraining])]
      exact lived_training rest _ p p' hi' (by rw [hlast rfl]; exact hp)
    | saveBest =>
      rw [List.filter_cons_of_neg (by simp [WithEval.Spec.ofTraining])]
      exact lived_training rest _ p p' hi' (by rw [hlast rfl]; exact hp)
    | save t x =>
      rw [List.filter_cons_of_neg (by simp [WithEval.Spec.ofTraining])]
      exact lived_training rest _ p p' hi' (by rw [hlast rfl]; exact hp)

theorem trainingSteps_training : ∀ l : List (Event A O),
    Spec.trainingSteps (Spec.envCalls (WithEval.Spec.training l)) = Spec.trainingSteps (Spec.envCalls l)
  | [] => rfl
  | e :: l => by
    have ih := trainingSteps_training l
    unfold WithEval.Spec.training at ih ⊢
    cases e with
    | env w x =>
      cases w with
      | eval =>
        rw [List.filter_cons_of_neg (by simp [WithEval.Spec.ofTraining]), Spec.envCalls, ih]
        rfl
      | train =>
        rw [List.filter_cons_of_pos (by rfl), Spec.envCalls, Spec.envCalls]
        have e1 := trainingSteps_append [(Who.train, x)] (Spec.envCalls (l.filter WithEval.Spec.ofTraining))
        have e2 := trainingSteps_append [(Who.train, x)] (Spec.envCalls l)
        simp only [List.singleton_append] at e1 e2
        rw [e1, e2, ih]
    | act w o a =>
      cases w with
      | train => rw [List.filter_cons_of_pos (by rfl)]; exact ih
      | eval => rw [List.filter_cons_of_neg (by simp [WithEval.Spec.ofTraining])]; exact ih
    | observe w o r d x =>
      cases w with
      | train => rw [List.filter_cons_of_pos (by rfl)]; exact ih
      | eval => rw [List.filter_cons_of_neg (by simp [WithEval.Spec.ofTraining])]; exact ih
    | _ => rw [List.filter_cons_of_neg (by simp [WithEval.Spec.ofTraining])]; exact ih

theorem steps_training : ∀ h : List (Interact.Ev O A ℚ),
    Interact.Spec.steps (h.filter Interact.Spec.isTraining) = Interact.Spec.steps h
  | [] => rfl
  | .act true _ _ :: h => steps_training h
  | .act false _ _ :: h => steps_training h
  | .observe true _ :: h => by
    have := steps_training h
    simp only [List.filter, Interact.Spec.isTraining, Interact.Spec.steps]
    rw [this]
  | .observe false _ :: h => steps_training h

theorem experience_others {i : Nat} (hi : i ≠ 0) : ∀ (l : List (Event A O)) (p : Option (List O × List A)),
    (∀ x, p = some x → x.1.length ≤ 1) → Interact.Spec.experience i p (history l) = []
  | [], _, _ => rfl
  | e :: l, p, hp => by
    have h1 : ∀ (x : O), [x][i]? = none := fun x => List.getElem?_eq_none (by simp; omega)
    cases e with
    | act w o a =>
      cases w with
      | train => exact experience_others hi l _ (by rintro x h; cases h; simp)
      | eval => exact experience_others hi l p hp
    | observe w o r d x =>
      cases w with
      | train =>
        have ih := experience_others hi l none (by rintro x h; cases h)
        rw [history]
        simp only [decide_true, Interact.Spec.experience]
        rw [ih]
        have h2 : [({ obs := o, reward := r, done := d, reset := x } : Interact.Row O ℚ)][i]? = none :=
          List.getElem?_eq_none (by simp; omega)
        rw [h2]
        cases p.bind (·.1[i]?) <;> cases p.bind (·.2[i]?) <;> rfl
      | eval => exact experience_others hi l p hp
    | _ => exact experience_others hi l p hp

theorem ofEnv_zero {π : Type} : ∀ (log : List (Nat × List (Replay.Tr π))), (∀ i, i ≠ 0 → Replay.Spec.ofEnv i log = []) →
    Replay.Spec.ofEnv 0 log = log.map Prod.snd
  | [], _ => rfl
  | (j, w) :: log, h => by
    have hj : j = 0 := by
      by_contra hc
      have := h j hc
      simp [Replay.Spec.ofEnv] at this
    subst hj
    have ih := ofEnv_zero log fun i hi => by
      have := h i hi
      simpa [Replay.Spec.ofEnv, Ne.symm hi] using this
    simp only [Replay.Spec.ofEnv, List.filterMap_cons, if_true, List.map_cons] at ih ⊢
    rw [ih]

/-! ## C115 -/

/-- **C115.** Train an agent of the Q-learning family, with any networks, updates and exploration and with a `ReplayBuffer` of any capacity and
`num_steps = n`, by `train_agent_with_evaluation` in any environment, with evaluations in the same or in another environment and any
hooks.  At the end, unless the agent raised an exception, there is a list of calls that are all the calls which the environment of the training got,
with its answers, such that the buffer contains exactly the newest, up to its capacity, of the `n`-step windows of the episodes that the environment went through in
training; and the agent has counted the steps of the training from `step_offset`.  Nothing of an evaluation is in the buffer. -/
theorem buffer_holds_trajectory (S : Setup σ (State O A V X) η A O) (L : Learner O A V X) (hL : S.agent = L.asAgent)
    (hk : L.interval ≠ some 0) (hg : WithEval.Spec.positive S.c.goal) (capacity : Option Nat) {n : Nat} (hn : 0 < n) (v : V) (x : X)
    (fuelE : Nat) (env evalEnv : σ) (hooks : η) :
    ∃ b0, Replay.RB.new (capacity.map Int.ofNat) n = .ok b0 ∧
      ∀ r, train S fuelE env evalEnv ⟨(Interact.Agent.new (b0, v)).resumed S.c.offset, x, none⟩ hooks = .ok r → r.1.agent.raised = none →
        ∃ calls : List (Who × EnvCall A O), WithEval.Spec.Answers S.env env (calls.map Prod.snd) r.1.env ∧
          (S.c.shared = false → ∀ y ∈ calls, y.1 = .train) ∧
          r.1.agent.agent.world.1.memory.iter = Queue.Spec.keep capacity (Replay.Spec.stored n
            ((Spec.lived S.c.maxLen none calls).map (Option.map Interact.Spec.asBufferTr))) ∧
          r.1.agent.agent.t = S.c.offset + Spec.trainingSteps calls := by
  obtain ⟨b0, hb, -⟩ := Interact.agent_buffer_contents (O := O) (A := A) (R := ℚ) hk capacity hn L.other v 0 [] trivial
  refine ⟨b0, hb, fun r hr hok => ?_⟩
  obtain ⟨hi, ha, hbe⟩ := training_intact S hg fuelE env evalEnv _ hooks hr
  obtain ⟨p, hp, hpath⟩ := training_sequence S fuelE env evalEnv _ hooks hr
  obtain ⟨h1, h2, h3⟩ := path_told hpath
  rw [← history_training] at h2
  have h2 := protocol_training _ _ h2
  obtain ⟨b1, hb1, hc⟩ := Interact.agent_buffer_contents hk capacity hn L.other v S.c.offset (history r.1.log) h2
  rw [hb] at hb1
  cases hb1
  rw [hL] at hbe
  obtain ⟨h4, log, h5, h6⟩ := hc _ (behaves_run L _ _ _ hbe hok)
  have h7 : Interact.Spec.experience 0 none (history r.1.log) = Spec.lived S.c.maxLen none (Spec.envCalls r.1.log) := by
    have e1 : Interact.Spec.experience 0 none (history (WithEval.Spec.training r.1.log)) =
        Spec.lived S.c.maxLen none (Spec.envCalls (WithEval.Spec.training r.1.log)) := by
      cases p with
      | over => exact h1
      | ready o len => exact h1.1
      | acted => exact absurd hp (by simp [WithEval.Spec.Phase.Settled])
      | stepped => exact absurd hp (by simp [WithEval.Spec.Phase.Settled])
    rw [← history_training, experience_training] at e1
    rw [e1]
    exact (lived_training r.1.log [] none none hi (fun _ _ => rfl)).symm
  refine ⟨Spec.envCalls r.1.log, by rw [envCalls_snd]; exact ha, ?_, ?_, ?_⟩
  · intro hs y hy
    have hf := (evaluation_faithful S fuelE env evalEnv _ hooks hr).2
    obtain ⟨w, c⟩ := y
    cases w with
    | train => rfl
    | eval =>
      obtain ⟨a, b, hl⟩ := List.append_of_mem (mem_envCalls hy)
      have := hf a _ b hl
      cases c with
      | reset o => exact absurd (hs.symm.trans this) (by simp)
      | step => exact absurd (hs.symm.trans this.1) (by simp)
  · rw [h5, ← h7, ← h6 0, ofEnv_zero]
    intro i hi0
    rw [h6 i, experience_others hi0 _ _ (by rintro x h; cases h)]
    simp [Replay.Spec.stored, Replay.Spec.episodes]
  · rw [h4, ← trainingSteps_training, ← h3, ← history_training, steps_training]
    cases p with
    | over => rfl
    | ready o len => rfl
    | acted => exact absurd hp (by simp [WithEval.Spec.Phase.Settled])
    | stepped => exact absurd hp (by simp [WithEval.Spec.Phase.Settled])

/-! ### Non-vacuity -/

/-- An agent whose action is the number of steps counted so far; synchronisations and updates are counted. -/
def exLearner : Learner Nat Nat Nat Nat where
  interval := some 2
  other := fun _ v _ => .ok (v + 1)
  choose := fun _ a x _ => (a.t, x + 1)

def exSetup : Setup (Nat × Nat) (State Nat Nat Nat Nat) (List (ℚ × Nat)) Nat Nat where
  env := exEnv
  evalEnv := exEnv
  agent := exLearner.asAgent
  hooks := [optunaHook fun _ => false]
  c := { steps := 5, offset := 0, maxLen := some 2, evalMaxLen := none, goal := .episodes 1, evalInterval := 3, checkpointFreq := 0,
         successful := none, evalDuring := false, shared := true, saveBest := true, evaluator := true }

def exRun : Option (Outcome × Bool × Nat × List (List ((Nat × Nat × ℚ × Nat) × Bool))) :=
  match Replay.RB.new (some 3) 2 with
  | .error _ => none
  | .ok b0 =>
    match train exSetup 10 (0, 0) (0, 0) ⟨(Interact.Agent.new (b0, 0)).resumed exSetup.c.offset, 0, none⟩ [] with
    | .ok r => some (r.2, r.1.agent.raised.isNone, r.1.agent.agent.t, r.1.agent.agent.world.1.memory.iter.map fun w => w.map fun x => (x.payload, x.terminal))
    | .error _ => none

set_option synthInstance.maxSize 2000 in
/-- Two episodes cut at length two, an evaluation in the same environment after the fourth step, and the beginning of a third episode; the
buffer has room for three windows of at most two steps. -/
example : exRun = some (.finished [8], true, 5,
    [[((0, 1, 1, 1), false)], [((0, 2, 2, 2), false), ((2, 3, 3, 5), false)], [((2, 3, 3, 5), false)]]) := by decide +kernel

end Pfrl.Train.Replayed
