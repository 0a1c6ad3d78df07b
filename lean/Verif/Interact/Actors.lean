import Verif.Interact.Props
import Mathlib.Logic.Function.Basic
import Mathlib.Algebra.BigOperators.Group.List.Basic

/-!
# Actors and poller of actor-learner DQN (C38)
-/

namespace Pfrl.Interact.Actors

open Pfrl.Replay (Op)

/-! ## Model: one actor -/

section Actor

variable {O A R : Type _}

/-- A message to the learner: `some` for `("transition", …)`, `none` for `("stop_episode", None)`. -/
abbrev Msg (O A R : Type _) := Option (Tr O A R)

/-- The attributes of `StateQFunctionActor` that matter, `pfrl/agents/state_q_function_actor.py:39-41`. -/
structure Actor (O A : Type _) where
  t : Nat
  lastState : Option O
  lastAction : Option A
  deriving DecidableEq, Repr

/-- A call of the actor. -/
inductive Call (O A R : Type _) where
  | act (training : Bool) (obs : O) (action : A)
  | observe (training : Bool) (row : Row O R)
  deriving DecidableEq, Repr

/-- `act`, `state_q_function_actor.py:78-90`; the action chosen is given. -/
def Actor.act (training : Bool) (o : O) (act : A) (a : Actor O A) : Actor O A :=
  if training then { a with lastState := some o, lastAction := some act } else a

/-- `observe` and `_send_to_learner`, `state_q_function_actor.py:73-77` and `94-128`: the new actor and
the messages sent. -/
def Actor.observe (training : Bool) (row : Row O R) (a : Actor O A) :
    Except PyErr (Actor O A × List (Msg O A R)) :=
  if training then
    match a.lastState, a.lastAction with
    | some o, some act =>
      .ok ({ a with t := a.t + 1 },
        some ⟨o, act, row.reward, row.obs, row.done⟩ :: if row.done || row.reset then [none] else [])
    | _, _ => .error .assertionError
  else .ok (a, [])

/-- A history of calls: all messages sent. -/
def Actor.run : Actor O A → List (Call O A R) → Except PyErr (Actor O A × List (Msg O A R))
  | a, [] => .ok (a, [])
  | a, .act tr o act :: h => Actor.run (a.act tr o act) h
  | a, .observe tr row :: h =>
    match a.observe tr row with
    | .error e => .error e
    | .ok (a, msgs) =>
      match Actor.run a h with
      | .error e => .error e
      | .ok (a, rest) => .ok (a, msgs ++ rest)

/-- A new actor. -/
def Actor.new : Actor O A := ⟨0, none, none⟩

/-- The same call in the terms of `Verif.Interact.Model`, as an agent with one environment. -/
def Spec.asEv : Call O A R → Ev O A R
  | .act tr o act => .act tr [o] [act]
  | .observe tr row => .observe tr [row]

theorem actor_run (h : List (Call O A R)) : ∀ (a : Actor O A) (pending : Option (List O × List A)),
    Spec.Protocol pending (h.map Spec.asEv) →
    (∀ p, pending = some p → ∃ o act, p = ([o], [act]) ∧ a.lastState = some o ∧
      a.lastAction = some act) →
    ∃ a', Actor.run a h = .ok (a', Spec.experience 0 pending (h.map Spec.asEv)) ∧
      a'.t = a.t + Spec.steps (h.map Spec.asEv) := by
  induction h with
  | nil => intro a pending _ _; exact ⟨a, rfl, rfl⟩
  | cons c h ih =>
    intro a pending hp hi
    cases c with
    | act tr o act =>
      cases tr with
      | false => exact ih a pending hp hi
      | true =>
        obtain ⟨a', h1, h2⟩ := ih { a with lastState := some o, lastAction := some act }
          (some ([o], [act])) hp.2 (by
            intro p hp'
            cases hp'
            exact ⟨o, act, rfl, rfl, rfl⟩)
        exact ⟨a', h1, h2⟩
    | observe tr row =>
      cases tr with
      | false =>
        obtain ⟨a', h1, h2⟩ := ih a pending hp hi
        refine ⟨a', ?_, h2⟩
        simp only [Actor.run, Actor.observe, Bool.false_eq_true, if_false, h1, List.nil_append]
        rfl
      | true =>
        obtain ⟨⟨p, hpe, hlen⟩, hp'⟩ := hp
        obtain ⟨o, act, rfl, h1, h2⟩ := hi p hpe
        subst hpe
        obtain ⟨a', k1, k2⟩ := ih { a with t := a.t + 1 } none hp' (by intro p h; cases h)
        refine ⟨a', ?_, ?_⟩
        · simp only [Actor.run, Actor.observe, if_true, h1, h2]
          simp only [h1, h2] at k1
          simp only [k1]
          simp only [List.map_cons, Spec.asEv, Spec.experience, Option.bind_some]
          by_cases hd : row.done = true ∨ row.reset = true
          · have : (row.done || row.reset) = true := by
              rcases hd with h | h <;> simp [h]
            simp [this, hd]
          · have hb : (row.done || row.reset) = false := by
              rw [not_or] at hd
              simp [hd.1, hd.2]
            simp [hb, hd]
        · rw [k2]
          simp only [List.map_cons, Spec.asEv, Spec.steps, List.length_singleton]
          omega

end Actor

/-! ## Model: pipes and poller -/

variable {π : Type _}

/-- Actors, pipes, poller and replay buffer.  `program i` are the messages actor `i` has yet to send;
`pipe i` those sent and not yet read; `waiting i` whether actor `i` waits for the answer to a
`stop_episode`; `answers i` the answers sent and not yet read; `ops` the calls of the replay buffer. -/
structure Sys (π : Type _) where
  program : Nat → List (Option (Replay.Tr π))
  pipe : Nat → List (Option (Replay.Tr π))
  waiting : Nat → Bool
  answers : Nat → Nat
  ops : List (Op Nat π)
  cumulativeSteps : Nat

/-- What may happen next.  Reading and handling of a message by the poller is one step: it holds
`replay_buffer_lock` while it uses the buffer, and is the only reader of the pipes. -/
inductive Step where
  | send (i : Nat)
  | poll (i : Nat)
  | recv (i : Nat)
  deriving DecidableEq, Repr

/-- The poller's handling of one message, `pfrl/agents/dqn.py:627-641`: `env_id` is the index of the
actor, since the messages carry none. -/
def handle (i : Nat) (s : Sys π) : Option (Replay.Tr π) → Sys π
  | some tr => { s with ops := s.ops ++ [.append i tr], cumulativeSteps := s.cumulativeSteps + 1 }
  | none => { s with ops := s.ops ++ [.stop i]
                     answers := Function.update s.answers i (s.answers i + 1) }

/-- One step, or `none` if it is not possible.  `n` is the number of actors.  A pipe delivers messages
in the order in which they were sent. -/
def step (n : Nat) (s : Sys π) : Step → Option (Sys π)
  | .send i =>
    if i < n ∧ s.waiting i = false then
      match s.program i with
      | [] => none
      | m :: rest =>
        some { s with program := Function.update s.program i rest
                      pipe := Function.update s.pipe i (s.pipe i ++ [m])
                      waiting := Function.update s.waiting i m.isNone }
    else none
  | .poll i =>
    if i < n then
      match s.pipe i with
      | [] => none
      | m :: rest => some (handle i { s with pipe := Function.update s.pipe i rest } m)
    else none
  | .recv i =>
    if i < n ∧ s.waiting i = true ∧ 0 < s.answers i then
      some { s with waiting := Function.update s.waiting i false
                    answers := Function.update s.answers i (s.answers i - 1) }
    else none

/-- A schedule; steps that are not possible do nothing. -/
def run (n : Nat) : Sys π → List Step → Sys π
  | s, [] => s
  | s, x :: xs => run n ((step n s x).getD s) xs

/-- At the start. -/
def start (program : Nat → List (Option (Replay.Tr π))) : Sys π :=
  ⟨program, fun _ => [], fun _ => false, fun _ => 0, [], 0⟩

/-! ## Specification -/

/-- The number of transitions in a list of buffer calls. -/
def Spec.appends (ops : List (Op Nat π)) : Nat :=
  ops.countP fun op => match op with | .append _ _ => true | .stop _ => false

/-- Messages and answers that still have to travel, counted so that every step makes it smaller. -/
def Spec.todo (n : Nat) (s : Sys π) : Nat :=
  ((List.range n).map fun i => 4 * (s.program i).length + 2 * (s.pipe i).length
    + (if s.waiting i = true then 1 else 0)).sum

/-! ## Lemmas -/

/-- What holds at every moment. -/
structure Inv (n : Nat) (program : Nat → List (Option (Replay.Tr π))) (s : Sys π) : Prop where
  conserve : ∀ i < n, Replay.Spec.calls i s.ops ++ s.pipe i ++ s.program i = program i
  foreign : ∀ op ∈ s.ops, op.env < n
  wait : ∀ i < n, s.waiting i = true → 0 < s.answers i ∨ none ∈ s.pipe i
  count : s.cumulativeSteps = Spec.appends s.ops

theorem calls_other {i j : Nat} (h : i ≠ j) (ops : List (Op Nat π)) (m : Option (Replay.Tr π)) :
    Replay.Spec.calls j (ops ++ [match m with | some tr => .append i tr | none => .stop i])
      = Replay.Spec.calls j ops := by
  rw [Replay.calls_append]
  cases m <;> simp [Replay.Spec.calls, h]

theorem calls_same (i : Nat) (ops : List (Op Nat π)) (m : Option (Replay.Tr π)) :
    Replay.Spec.calls i (ops ++ [match m with | some tr => .append i tr | none => .stop i])
      = Replay.Spec.calls i ops ++ [m] := by
  rw [Replay.calls_append]
  cases m <;> simp [Replay.Spec.calls]

theorem handle_ops (i : Nat) (s : Sys π) (m : Option (Replay.Tr π)) :
    (handle i s m).ops = s.ops ++ [match m with | some tr => .append i tr | none => .stop i] ∧
    (handle i s m).pipe = s.pipe ∧ (handle i s m).program = s.program ∧
    (handle i s m).waiting = s.waiting ∧ (∀ j, s.answers j ≤ (handle i s m).answers j) ∧
    (m = none → 0 < (handle i s m).answers i) := by
  cases m with
  | none =>
    refine ⟨rfl, rfl, rfl, rfl, ?_, ?_⟩
    · intro j
      simp only [handle, Function.update_apply]
      split
      · next h => subst h; omega
      · exact Nat.le_refl _
    · intro _
      simp [handle]
  | some tr => exact ⟨rfl, rfl, rfl, rfl, fun _ => Nat.le_refl _, by simp⟩

theorem step_inv {n : Nat} {program : Nat → List (Option (Replay.Tr π))} {s s' : Sys π} {x : Step}
    (h : Inv n program s) (hs : step n s x = some s') : Inv n program s' := by
  cases x with
  | send i =>
    simp only [step] at hs
    split at hs
    · next hc =>
      cases hp : s.program i with
      | nil => rw [hp] at hs; cases hs
      | cons m rest =>
        rw [hp] at hs
        simp only [Option.some.injEq] at hs
        subst hs
        refine ⟨?_, h.foreign, ?_, h.count⟩
        · intro j hj
          by_cases hij : j = i
          · subst hij
            have := h.conserve j hj
            rw [hp] at this
            simp only [Function.update_self]
            rw [← this]
            simp
          · simp only [Function.update_of_ne hij]
            exact h.conserve j hj
        · intro j hj hw
          by_cases hij : j = i
          · subst hij
            simp only [Function.update_self] at hw ⊢
            right
            cases m with
            | none => simp
            | some tr => simp at hw
          · simp only [Function.update_of_ne hij] at hw ⊢
            exact h.wait j hj hw
    · cases hs
  | poll i =>
    simp only [step] at hs
    split at hs
    · next hc =>
      cases hp : s.pipe i with
      | nil => rw [hp] at hs; cases hs
      | cons m rest =>
        rw [hp] at hs
        simp only [Option.some.injEq] at hs
        obtain ⟨e1, e2, e3, e4, e5, e6⟩ := handle_ops i { s with pipe := Function.update s.pipe i rest } m
        rw [hs] at e1 e2 e3 e4 e5 e6
        simp only at e1 e2 e3 e4 e5 e6
        refine ⟨?_, ?_, ?_, ?_⟩
        · intro j hj
          rw [e1, e2, e3]
          by_cases hij : j = i
          · subst hij
            rw [calls_same, Function.update_self]
            have := h.conserve j hj
            rw [hp] at this
            rw [← this]
            simp
          · rw [calls_other (Ne.symm hij), Function.update_of_ne hij]
            exact h.conserve j hj
        · rw [e1]
          intro op hop
          rcases List.mem_append.mp hop with hop | hop
          · exact h.foreign op hop
          · rw [List.mem_singleton] at hop
            subst hop
            cases m <;> exact hc
        · intro j hj hw
          rw [e4] at hw
          rw [e2]
          by_cases hij : j = i
          · subst hij
            rw [Function.update_self]
            rcases h.wait j hj hw with h' | h'
            · exact .inl (Nat.lt_of_lt_of_le h' (e5 j))
            · rw [hp] at h'
              rcases List.mem_cons.mp h' with h' | h'
              · exact .inl (e6 h'.symm)
              · exact .inr h'
          · rw [Function.update_of_ne hij]
            rcases h.wait j hj hw with h' | h'
            · exact .inl (Nat.lt_of_lt_of_le h' (e5 j))
            · exact .inr h'
        · rw [e1]
          have hcount := h.count
          subst hs
          cases m with
          | none => simp [handle, Spec.appends, hcount]
          | some tr => simp [handle, Spec.appends, hcount]
    · cases hs
  | recv i =>
    simp only [step] at hs
    split at hs
    · next hc =>
      simp only [Option.some.injEq] at hs
      subst hs
      refine ⟨h.conserve, h.foreign, ?_, h.count⟩
      intro j hj hw
      by_cases hij : j = i
      · subst hij
        simp at hw
      · simp only [Function.update_of_ne hij] at hw ⊢
        exact h.wait j hj hw
    · cases hs

theorem start_inv (n : Nat) (program : Nat → List (Option (Replay.Tr π))) :
    Inv n program (start program) :=
  ⟨fun i _ => by simp [start, Replay.Spec.calls], by simp [start], by simp [start], rfl⟩

theorem run_inv {n : Nat} {program : Nat → List (Option (Replay.Tr π))} : ∀ (xs : List Step) {s : Sys π},
    Inv n program s → Inv n program (run n s xs)
  | [], _, h => h
  | x :: xs, s, h => by
    apply run_inv xs
    cases hs : step n s x with
    | none => exact h
    | some s' => exact step_inv h hs

theorem sum_update {n i : Nat} (hi : i < n) (f g : Nat → Nat) (hne : ∀ j, j ≠ i → g j = f j)
    (hlt : g i < f i) : ((List.range n).map g).sum < ((List.range n).map f).sum := by
  induction n with
  | zero => omega
  | succ n ih =>
    rw [List.range_succ, List.map_append, List.map_append, List.sum_append, List.sum_append]
    simp only [List.map_cons, List.map_nil, List.sum_cons, List.sum_nil, Nat.add_zero]
    by_cases h : i = n
    · subst h
      have : (List.range i).map g = (List.range i).map f := by
        apply List.map_congr_left
        intro j hj
        exact hne j (by have := List.mem_range.mp hj; omega)
      rw [this]
      omega
    · have := ih (by omega)
      rw [hne n (by omega)]
      omega

/-! ## C38 -/

/-- **C38** (safety).  For every number of actors, whatever each of them sends, and every schedule of
sending, polling and answering: what the replay buffer has been told about environment `i`, followed by
what is in pipe `i`, followed by what actor `i` has yet to send, is exactly what actor `i` sends.  So it
receives each actor's messages in order, with the actor's own environment id, none lost, duplicated or
mixed; no other environment id occurs; and the step counter is the number of transitions received. -/
theorem actor_transitions_unmixed (n : Nat) (program : Nat → List (Option (Replay.Tr π)))
    (schedule : List Step) :
    (∀ i < n, Replay.Spec.calls i (run n (start program) schedule).ops ++
      (run n (start program) schedule).pipe i ++ (run n (start program) schedule).program i
        = program i) ∧
    (∀ op ∈ (run n (start program) schedule).ops, op.env < n) ∧
    (run n (start program) schedule).cumulativeSteps
      = Spec.appends (run n (start program) schedule).ops := by
  have h := run_inv schedule (start_inv n program)
  exact ⟨h.conserve, h.foreign, h.count⟩

/-- **C38** (no deadlock, everything arrives).  Every possible step makes the remaining work smaller, and
when no step is possible everything sent by every actor has arrived.  So every
schedule that goes on while it can delivers everything. -/
theorem actor_transitions_arrive (n : Nat) (program : Nat → List (Option (Replay.Tr π)))
    (schedule : List Step) :
    (∀ x s', step n (run n (start program) schedule) x = some s' →
      Spec.todo n s' < Spec.todo n (run n (start program) schedule)) ∧
    ((∀ x, step n (run n (start program) schedule) x = none) →
      ∀ i < n, Replay.Spec.calls i (run n (start program) schedule).ops = program i) := by
  have h := run_inv schedule (start_inv n program)
  generalize hs : run n (start program) schedule = s at h
  constructor
  · intro x s' hx
    cases x with
    | send i =>
      simp only [step] at hx
      split at hx
      · next hc =>
        cases hp : s.program i with
        | nil => rw [hp] at hx; cases hx
        | cons m rest =>
          rw [hp] at hx
          simp only [Option.some.injEq] at hx
          subst hx
          refine sum_update hc.1 _ _ (fun j hj => ?_) ?_
          · simp only [Function.update_of_ne hj]
          · simp only [Function.update_self, hp, hc.2, List.length_append, List.length_cons,
              List.length_nil]
            have : (if m.isNone = true then 1 else 0) ≤ 1 := by split <;> omega
            simp only [Bool.false_eq_true, if_false]
            omega
      · cases hx
    | poll i =>
      simp only [step] at hx
      split at hx
      · next hc =>
        cases hp : s.pipe i with
        | nil => rw [hp] at hx; cases hx
        | cons m rest =>
          rw [hp] at hx
          simp only [Option.some.injEq] at hx
          obtain ⟨_, e2, e3, e4, _, _⟩ := handle_ops i { s with pipe := Function.update s.pipe i rest } m
          rw [hx] at e2 e3 e4
          unfold Spec.todo
          rw [e2, e3, e4]
          refine sum_update hc _ _ (fun j hj => ?_) ?_
          · simp only [Function.update_of_ne hj]
          · simp only [Function.update_self, hp, List.length_cons]
            omega
      · cases hx
    | recv i =>
      simp only [step] at hx
      split at hx
      · next hc =>
        simp only [Option.some.injEq] at hx
        subst hx
        refine sum_update hc.1 _ _ (fun j hj => ?_) ?_
        · simp only [Function.update_of_ne hj]
        · simp [hc.2.1]
      · cases hx
  · intro hnone i hi
    have hpipe : s.pipe i = [] := by
      have := hnone (.poll i)
      simp only [step, if_pos hi] at this
      cases hp : s.pipe i with
      | nil => rfl
      | cons m rest => rw [hp] at this; cases this
    have hwait : s.waiting i = false := by
      by_cases hw : s.waiting i = true
      · rcases h.wait i hi hw with h' | h'
        · have := hnone (.recv i)
          simp only [step, if_pos (show i < n ∧ s.waiting i = true ∧ 0 < s.answers i from ⟨hi, hw, h'⟩)]
            at this
          cases this
        · rw [hpipe] at h'; cases h'
      · simpa using hw
    have hprog : s.program i = [] := by
      have := hnone (.send i)
      simp only [step, if_pos (show i < n ∧ s.waiting i = false from ⟨hi, hwait⟩)] at this
      cases hp : s.program i with
      | nil => rfl
      | cons m rest => rw [hp] at this; cases this
    have := h.conserve i hi
    rw [hpipe, hprog] at this
    simpa using this

/-- **C38** (from the actors' histories).  What an actor sends in a history of calls that follows the
protocol is exactly what its environment went through. -/
theorem actor_sends_experience {O A R : Type _} (h : List (Call O A R))
    (hp : Spec.Protocol none (h.map Spec.asEv)) :
    ∃ a, Actor.run Actor.new h = .ok (a, Spec.experience 0 none (h.map Spec.asEv)) ∧
      a.t = Spec.steps (h.map Spec.asEv) := by
  obtain ⟨a, h1, h2⟩ := actor_run h Actor.new none hp (by intro p h; cases h)
  exact ⟨a, h1, by rw [h2]; simp [Actor.new]⟩

/-- Two actors, two transitions each, interleaved; the second ends an episode. -/
example : (run 2 (start fun i => if i = 0 then [some ⟨1, false⟩, some ⟨2, false⟩]
      else [some ⟨7, true⟩, none])
    [.send 0, .send 1, .poll 1, .send 1, .send 1, .poll 0, .send 0, .recv 1, .poll 1, .poll 0, .recv 1]).ops
    = [Op.append 1 ⟨7, true⟩, .append 0 ⟨1, false⟩, .stop 1, .append 0 ⟨2, false⟩] := by
  rfl

end Pfrl.Interact.Actors
