import Verif.Basic
import Verif.Eval.BatchEpisodes

/-!
# Recurrent states while acting (C75)

The recurrent state of one environment is a value of a type `σ`; a batched state is `None` or the list of its slices
along the batch axis.  `C34` (`Verif.Recurrent.States`) shows that masking a batched state sets exactly the slices in
question to zero, and that taking the state at an index gives the slice; here masking and indexing act on slices.
The model is any function from a state and an observation to a new state and an output.  It may change between calls,
as its parameters do, so it is part of the call.
-/

namespace Pfrl.Interact.Recurrent

variable {σ O Y : Type _}

/-! ## Model -/

/-- What a recurrent model computes for one environment in one step. -/
abbrev Net (σ O Y : Type _) := σ → O → σ × Y

/-- A call of the agent, in training mode (`tr = true`) or in evaluation mode.  `ended` is `done or reset` for each
environment. -/
inductive Ev (σ O Y : Type _) where
  | act (tr : Bool) (net : Net σ O Y) (obs : List O)
  | observe (tr : Bool) (ended : List Bool)

/-- What is observable of a call: the outputs of the model the actions are chosen from; and the pairs
`recurrent_state`, `next_recurrent_state` that are stored with the transitions (in training mode). -/
inductive Out (σ Y : Type _) where
  | acted (ys : List Y)
  | observed (stored : List (Option σ × Option σ))

/-- `train_recurrent_states`, `train_prev_recurrent_states`, `test_recurrent_states`, `pfrl/agents/dqn.py:266-269`,
`ppo.py:391-393`, `trpo.py:256-258`. -/
structure Agent (σ : Type _) where
  train : Option (List σ)
  prev : Option (List σ)
  test : Option (List σ)

def Agent.new : Agent σ := ⟨none, none, none⟩

/-- `one_step_forward`, `pfrl/utils/recurrent.py:143-157`.  `None` stands for the initial state `z` of every environment
(zeros, for the recurrent layers of torch).  A state for another number of environments raises. -/
def oneStep (z : σ) (net : Net σ O Y) (obs : List O) (s : Option (List σ)) : Except PyErr (List Y × List σ) :=
  match s with
  | none => .ok (obs.map fun o => (net z o).2, obs.map fun o => (net z o).1)
  | some ss =>
    if ss.length = obs.length then
      .ok (List.zipWith (fun s o => (net s o).2) ss obs, List.zipWith (fun s o => (net s o).1) ss obs)
    else .error .runtimeError

/-- How an agent resets recurrent states of episodes that end: `mask_recurrent_state_at` in the agents that act on batches
(DQN and its variants, PPO, TRPO), `None` in those with one environment (A3C, ACER, REINFORCE, `StateQFunctionActor`). -/
inductive Kind where
  | batch
  | single
  deriving DecidableEq, Repr

/-- `_batch_reset_recurrent_states_when_episodes_end`, `pfrl/agents/dqn.py:107-128`, and the same lines in `ppo.py:744-755`,
`795-806`, `trpo.py:772-783`, `823-834`; `if done or reset: … = None` in `a3c.py:282-283`, `acer.py:809-811`,
`reinforce.py:156`, `state_q_function_actor.py:116-121`. -/
def reset (kind : Kind) (z : σ) (ended : List Bool) (s : Option (List σ)) : Option (List σ) :=
  match kind with
  | .batch => s.map fun ss => ss.mapIdx fun i x => if ended[i]? = some true then z else x
  | .single => if ended.any id then none else s

/-- `get_recurrent_state_at(s, i, detach=True)`, `recurrent.py:56-79`. -/
def slice (s : Option (List σ)) (i : Nat) : Option σ := s.bind fun ss => ss[i]?

/-- Acting: `_evaluate_model_and_update_recurrent_states`, `dqn.py:471-487`, `iqn.py:402-418`,
`state_q_function_actor.py:56-71`, `ppo.py:690-729`, `trpo.py:718-757`, `a3c.py:242-251`, `286-292`, `acer.py:713-720`,
`760-766`, `reinforce.py:104-110`, `159-165`. -/
def Agent.act (z : σ) (tr : Bool) (net : Net σ O Y) (obs : List O) (a : Agent σ) : Except PyErr (Out σ Y × Agent σ) :=
  if tr then
    match oneStep z net obs a.train with
    | .error e => .error e
    | .ok (ys, s) => .ok (.acted ys, { a with prev := a.train, train := some s })
  else
    match oneStep z net obs a.test with
    | .error e => .error e
    | .ok (ys, s) => .ok (.acted ys, { a with test := some s })

/-- Observing: `dqn.py:509-580`, `ppo.py:742-806`, `trpo.py:770-834`, `state_q_function_actor.py:94-121`.  Only the recurrent
states stored with the transitions are kept here. -/
def Agent.observe (kind : Kind) (z : σ) (tr : Bool) (ended : List Bool) (a : Agent σ) : Out σ Y × Agent σ :=
  if tr then
    (.observed ((List.range ended.length).map fun i => (slice a.prev i, slice a.train i)),
      { a with prev := none, train := reset kind z ended a.train })
  else (.observed [], { a with test := reset kind z ended a.test })

/-- One call. -/
def Agent.step (kind : Kind) (z : σ) (a : Agent σ) : Ev σ O Y → Except PyErr (Out σ Y × Agent σ)
  | .act tr net obs => a.act z tr net obs
  | .observe tr ended => .ok (a.observe kind z tr ended)

/-- A history of calls: what was observable of them, and the agent afterwards. -/
def run (kind : Kind) (z : σ) : Agent σ → List (Ev σ O Y) → Except PyErr (List (Out σ Y) × Agent σ)
  | a, [] => .ok ([], a)
  | a, e :: es =>
    match a.step kind z e with
    | .error err => .error err
    | .ok (o, a) =>
      match run kind z a es with
      | .error err => .error err
      | .ok (os, a) => .ok (o :: os, a)

/-! ## Specification -/

/-- The episode of environment `i` that is under way in a mode after some calls: the observations the agent acted on, each
with the model that was used. -/
def Spec.episode (tr : Bool) (i : Nat) (evs : List (Ev σ O Y)) : List (Net σ O Y × O) :=
  evs.foldl (fun h e => match e with
    | .act tr' net obs => if tr' = tr then h ++ (obs[i]?).toList.map fun o => (net, o) else h
    | .observe tr' ended => if tr' = tr ∧ ended[i]? = some true then [] else h) []

/-- The recurrent state after an episode that began in the initial state. -/
def Spec.state (z : σ) (h : List (Net σ O Y × O)) : σ := h.foldl (fun s x => (x.1 s x.2).1) z

/-- The calls the agent is made for: in each mode, with a fixed number of environments, acting and observing in turn. -/
def Spec.Protocol (n : Bool → Nat) : (Bool → Bool) → List (Ev σ O Y) → Prop
  | _, [] => True
  | p, .act tr _ obs :: es => p tr = false ∧ obs.length = n tr ∧ Spec.Protocol n (fun b => if b = tr then true else p b) es
  | p, .observe tr ended :: es =>
    p tr = true ∧ ended.length = n tr ∧ Spec.Protocol n (fun b => if b = tr then false else p b) es

/-! ## Lemmas -/

/-- A batched state holds these states. -/
def Holds (z : σ) (n : Nat) (s : Option (List σ)) (f : Nat → σ) : Prop :=
  match s with
  | none => ∀ i, i < n → f i = z
  | some ss => ss.length = n ∧ ∀ i, i < n → ss[i]? = some (f i)

theorem oneStep_spec {z : σ} {n : Nat} {net : Net σ O Y} {obs : List O} {s : Option (List σ)} {f : Nat → σ}
    (h : Holds z n s f) (hn : obs.length = n) : ∃ ys ss, oneStep z net obs s = .ok (ys, ss) ∧ ys.length = n ∧
      (∀ (i : Nat) (o : O), obs[i]? = some o → ys[i]? = some (net (f i) o).2 ∧ ss[i]? = some (net (f i) o).1) ∧ ss.length = n := by
  cases s with
  | none =>
    refine ⟨_, _, rfl, by simpa using hn, ?_, by simpa using hn⟩
    intro i o hi
    have hlt : i < n := hn ▸ (List.getElem?_eq_some_iff.mp hi).1
    rw [h i hlt]
    simp [hi]
  | some ss =>
    have hl : ss.length = obs.length := by rw [h.1, hn]
    refine ⟨_, _, if_pos hl, by simp [hl, hn], ?_, by simp [hl, hn]⟩
    intro i o hi
    have hlt : i < n := hn ▸ (List.getElem?_eq_some_iff.mp hi).1
    have := h.2 i hlt
    simp [List.getElem?_zipWith, this, hi]

theorem reset_spec {kind : Kind} {z : σ} {n : Nat} {ended : List Bool} {s : Option (List σ)} {f : Nat → σ}
    (hk : kind = .single → n ≤ 1) (hn : ended.length = n) (h : Holds z n s f) :
    Holds z n (reset kind z ended s) fun i => if ended[i]? = some true then z else f i := by
  cases kind with
  | batch =>
    cases s with
    | none =>
      intro i hi
      dsimp only
      split
      · rfl
      · exact h i hi
    | some ss =>
      refine ⟨by simpa using h.1, ?_⟩
      intro i hi
      simp only [List.getElem?_mapIdx, h.2 i hi, Option.map_some]
  | single =>
    have hk := hk rfl
    unfold reset
    dsimp only
    by_cases ha : ended.any id = true
    · rw [if_pos ha]
      intro i hi
      obtain ⟨b, hb, hb'⟩ := List.any_eq_true.mp ha
      obtain ⟨j, hj, rfl⟩ := List.mem_iff_getElem.mp hb
      have : j = i := by omega
      subst this
      have hb'' : ended[j] = true := hb'
      exact if_pos (by rw [List.getElem?_eq_getElem hj, hb''])
    · rw [if_neg ha]
      have hf : (fun i => if ended[i]? = some true then z else f i) = f := by
        funext i
        rw [if_neg]
        intro hi
        apply ha
        rw [List.any_eq_true]
        exact ⟨true, List.mem_of_getElem? hi, rfl⟩
      rw [hf]
      exact h

theorem slice_spec {z : σ} {n : Nat} {s : Option (List σ)} {f : Nat → σ} (h : Holds z n s f) {i : Nat} (hi : i < n) :
    (slice s i).getD z = f i := by
  cases s with
  | none => exact (h i hi).symm
  | some ss => simp [slice, h.2 i hi]

theorem episode_append (tr : Bool) (i : Nat) (evs : List (Ev σ O Y)) (e : Ev σ O Y) :
    Spec.episode tr i (evs ++ [e]) = (match e with
    | .act tr' net obs => if tr' = tr then Spec.episode tr i evs ++ (obs[i]?).toList.map fun o => (net, o)
        else Spec.episode tr i evs
    | .observe tr' ended => if tr' = tr ∧ ended[i]? = some true then [] else Spec.episode tr i evs) := by
  unfold Spec.episode
  rw [List.foldl_append]
  cases e <;> rfl

theorem state_snoc (z : σ) (h : List (Net σ O Y × O)) (x : Net σ O Y × O) :
    Spec.state z (h ++ [x]) = (x.1 (Spec.state z h) x.2).1 := by
  unfold Spec.state; rw [List.foldl_append]; rfl

/-- The states of the agent after some calls. -/
structure Inv (z : σ) (n : Bool → Nat) (p : Bool → Bool) (before : List (Ev σ O Y)) (a : Agent σ) : Prop where
  train : Holds z (n true) a.train fun i => Spec.state z (Spec.episode true i before)
  test : Holds z (n false) a.test fun i => Spec.state z (Spec.episode false i before)
  pending : p true = true → (∃ ss, a.train = some ss) ∧
    Holds z (n true) a.prev (fun i => Spec.state z (Spec.episode true i before).dropLast) ∧
    ∀ i, i < n true → Spec.episode true i before ≠ []

theorem holds_congr {z : σ} {n : Nat} {s : Option (List σ)} {f g : Nat → σ} (h : Holds z n s f)
    (hfg : ∀ i, i < n → f i = g i) : Holds z n s g := by
  cases s with
  | none => exact fun i hi => (hfg i hi) ▸ h i hi
  | some ss => exact ⟨h.1, fun i hi => by rw [← hfg i hi]; exact h.2 i hi⟩

/-- What a call should look like from outside, if the calls `before` were made before it. -/
def Good (z : σ) (n : Bool → Nat) (before : List (Ev σ O Y)) (e : Ev σ O Y) (o : Out σ Y) : Prop :=
  match e with
  | .act tr net obs => ∃ ys, o = .acted ys ∧ ys.length = n tr ∧
      ∀ (i : Nat) (x : O), obs[i]? = some x → ys[i]? = some (net (Spec.state z (Spec.episode tr i before)) x).2
  | .observe true _ => ∃ st, o = .observed st ∧ st.length = n true ∧
      ∀ i, i < n true → ∃ r r', st[i]? = some (r, some r') ∧ Spec.episode true i before ≠ [] ∧
        r.getD z = Spec.state z (Spec.episode true i before).dropLast ∧ r' = Spec.state z (Spec.episode true i before)
  | .observe false _ => o = .observed []

theorem step_spec {kind : Kind} {z : σ} {n : Bool → Nat} (hk : kind = .single → ∀ b, n b ≤ 1) {p : Bool → Bool}
    {before : List (Ev σ O Y)} {a : Agent σ} (hi : Inv z n p before a) {e : Ev σ O Y} {es : List (Ev σ O Y)}
    (hp : Spec.Protocol n p (e :: es)) : ∃ o a' p', a.step kind z e = .ok (o, a') ∧ Good z n before e o ∧
      Inv z n p' (before ++ [e]) a' ∧ Spec.Protocol n p' es := by
  cases e with
  | act tr net obs =>
    obtain ⟨hp1, hp2, hp3⟩ := hp
    have hstate : ∀ i o, obs[i]? = some o →
        Spec.state z (Spec.episode tr i (before ++ [.act tr net obs])) = (net (Spec.state z (Spec.episode tr i before)) o).1 := by
      intro i o ho
      rw [episode_append]
      simp only [if_true, ho, Option.toList_some, List.map_cons, List.map_nil, state_snoc]
    have hget : ∀ i, i < n tr → ∃ o, obs[i]? = some o := fun i hi' => by
      refine ⟨obs[i], List.getElem?_eq_getElem (by omega)⟩
    cases tr with
    | true =>
      obtain ⟨ys, ss, h1, h2, h3, h4⟩ := oneStep_spec (net := net) hi.train hp2
      refine ⟨.acted ys, { a with prev := a.train, train := some ss }, _, ?_, ?_, ?_, hp3⟩
      · simp only [Agent.step, Agent.act, if_true, h1]
      · exact ⟨ys, rfl, h2, fun i x hx => (h3 i x hx).1⟩
      · refine ⟨⟨h4, ?_⟩, ?_, fun _ => ⟨⟨ss, rfl⟩, ?_, ?_⟩⟩
        · intro i hi'
          obtain ⟨o, ho⟩ := hget i hi'
          beta_reduce
          rw [hstate i o ho]
          exact (h3 i o ho).2
        · refine holds_congr hi.test fun i _ => ?_
          rw [episode_append]
          simp
        · refine holds_congr hi.train fun i hi' => ?_
          obtain ⟨o, ho⟩ := hget i hi'
          rw [episode_append]
          simp [ho]
        · intro i hi'
          obtain ⟨o, ho⟩ := hget i hi'
          rw [episode_append]
          simp [ho]
    | false =>
      obtain ⟨ys, ss, h1, h2, h3, h4⟩ := oneStep_spec (net := net) hi.test hp2
      refine ⟨.acted ys, { a with test := some ss }, _, ?_, ?_, ?_, hp3⟩
      · simp only [Agent.step, Agent.act, Bool.false_eq_true, if_false, h1]
      · exact ⟨ys, rfl, h2, fun i x hx => (h3 i x hx).1⟩
      · have hsame : ∀ i, Spec.episode true i (before ++ [.act false net obs]) = Spec.episode true i before := by
          intro i
          rw [episode_append]
          simp
        refine ⟨?_, ⟨h4, ?_⟩, fun hpend => ?_⟩
        · exact holds_congr hi.train fun i _ => by rw [hsame]
        · intro i hi'
          obtain ⟨o, ho⟩ := hget i hi'
          beta_reduce
          rw [hstate i o ho]
          exact (h3 i o ho).2
        · obtain ⟨k1, k2, k3⟩ := hi.pending (by simpa using hpend)
          exact ⟨k1, holds_congr k2 fun i _ => by rw [hsame], fun i hi' => by rw [hsame]; exact k3 i hi'⟩
  | observe tr ended =>
    obtain ⟨hp1, hp2, hp3⟩ := hp
    have hstate : ∀ i, Spec.state z (Spec.episode tr i (before ++ [.observe tr ended]))
        = if ended[i]? = some true then z else Spec.state z (Spec.episode tr i before) := by
      intro i
      rw [episode_append]
      dsimp only
      by_cases h : ended[i]? = some true
      · rw [if_pos ⟨rfl, h⟩, if_pos h]; rfl
      · rw [if_neg (fun h' => h h'.2), if_neg h]
    cases tr with
    | true =>
      obtain ⟨⟨ss, hss⟩, k2, k3⟩ := hi.pending hp1
      refine ⟨_, _, _, rfl, ?_, ?_, hp3⟩
      · refine ⟨_, rfl, by simp [hp2], ?_⟩
        intro i hi'
        have htr := hi.train
        rw [hss] at htr
        refine ⟨slice a.prev i, Spec.state z (Spec.episode true i before), ?_, k3 i hi', slice_spec k2 hi', rfl⟩
        have hb : slice a.train i = some (Spec.state z (Spec.episode true i before)) := by
          rw [hss]
          exact htr.2 i hi'
        simp [hp2, hi', hb]
      · refine ⟨?_, ?_, ?_⟩
        · exact holds_congr (reset_spec (fun h => hk h _) hp2 hi.train) fun i _ => (hstate i).symm
        · refine holds_congr hi.test fun i _ => ?_
          rw [episode_append]
          simp
        · intro h; simp at h
    | false =>
      refine ⟨_, _, _, rfl, rfl, ?_, hp3⟩
      have hsame : ∀ i, Spec.episode true i (before ++ [.observe false ended]) = Spec.episode true i before := by
        intro i
        rw [episode_append]
        simp
      refine ⟨?_, ?_, fun hpend => ?_⟩
      · exact holds_congr hi.train fun i _ => by rw [hsame]
      · exact holds_congr (reset_spec (fun h => hk h _) hp2 hi.test) fun i _ => (hstate i).symm
      · obtain ⟨k1, k2, k3⟩ := hi.pending (by simpa using hpend)
        exact ⟨k1, holds_congr k2 fun i _ => by rw [hsame], fun i hi' => by rw [hsame]; exact k3 i hi'⟩

theorem run_spec {kind : Kind} {z : σ} {n : Bool → Nat} (hk : kind = .single → ∀ b, n b ≤ 1) :
    ∀ (es before : List (Ev σ O Y)) (p : Bool → Bool) (a : Agent σ), Inv z n p before a → Spec.Protocol n p es →
    ∃ os a', run kind z a es = .ok (os, a') ∧ os.length = es.length ∧
      (∀ (k : Nat) (e : Ev σ O Y) (o : Out σ Y), es[k]? = some e → os[k]? = some o → Good z n (before ++ es.take k) e o) ∧
      ∃ p', Inv z n p' (before ++ es) a'
  | [], before, p, a, hi, _ => ⟨[], a, rfl, rfl, by simp, p, by simpa using hi⟩
  | e :: es, before, p, a, hi, hp => by
    obtain ⟨o, a1, p1, h1, h2, h3, h4⟩ := step_spec hk hi hp
    obtain ⟨os, a2, k1, k2, k3, p2, k4⟩ := run_spec hk es (before ++ [e]) p1 a1 h3 h4
    refine ⟨o :: os, a2, ?_, by simp [k2], ?_, p2, by simpa using k4⟩
    · simp only [run, h1, k1]
    · intro k e' o' he ho
      cases k with
      | zero =>
        simp only [List.getElem?_cons_zero, Option.some.injEq] at he ho
        subst he; subst ho
        simpa using h2
      | succ k =>
        have := k3 k e' o' he ho
        simpa using this

theorem inv_new (z : σ) (n : Bool → Nat) : Inv z n (fun _ => false) ([] : List (Ev σ O Y)) Agent.new :=
  ⟨fun _ _ => rfl, fun _ _ => rfl, fun h => by simp at h⟩

/-! ## C75 -/

/-- **C75 (acting).** Let a recurrent agent be called in the intended way, in training and evaluation mode in any mixture, with
the model changing in any way between the calls.  Then every action is chosen from the output of the model in the state
reached by feeding it, from the initial state, exactly the observations of the current episode of that environment in that
mode: nothing of earlier episodes, of other environments or of the other mode enters. -/
theorem recurrent_acting (kind : Kind) (z : σ) {n : Bool → Nat} (hk : kind = .single → ∀ b, n b ≤ 1)
    {evs : List (Ev σ O Y)} (hp : Spec.Protocol n (fun _ => false) evs) :
    ∃ outs a, run kind z Agent.new evs = .ok (outs, a) ∧ outs.length = evs.length ∧
      ∀ (k : Nat) (tr : Bool) (net : Net σ O Y) (obs : List O), evs[k]? = some (.act tr net obs) →
        ∃ ys, outs[k]? = some (.acted ys) ∧ ys.length = n tr ∧
          ∀ (i : Nat) (x : O), obs[i]? = some x →
            ys[i]? = some (net (Spec.state z (Spec.episode tr i (evs.take k))) x).2 := by
  obtain ⟨outs, a, h1, h2, h3, _⟩ := run_spec hk evs [] _ _ (inv_new z n) hp
  refine ⟨outs, a, h1, h2, ?_⟩
  intro k tr net obs he
  have hlt : k < outs.length := h2 ▸ (List.getElem?_eq_some_iff.mp he).1
  have ho := List.getElem?_eq_getElem hlt
  obtain ⟨ys, e1, e2, e3⟩ := h3 k _ _ he ho
  refine ⟨ys, by rw [ho, e1], e2, by simpa using e3⟩

/-- **C75 (stored states).** With every transition the agent stores the recurrent state in which its model chose the action
(`None` standing for the initial state) and the state after that. -/
theorem recurrent_states_stored (kind : Kind) (z : σ) {n : Bool → Nat} (hk : kind = .single → ∀ b, n b ≤ 1)
    {evs : List (Ev σ O Y)} (hp : Spec.Protocol n (fun _ => false) evs) :
    ∃ outs a, run kind z Agent.new evs = .ok (outs, a) ∧
      ∀ (k : Nat) (ended : List Bool), evs[k]? = some (.observe true ended) →
        ∃ st, outs[k]? = some (.observed st) ∧ st.length = n true ∧
          ∀ i, i < n true → ∃ (r : Option σ) (s' : σ) (h : List (Net σ O Y × O)) (net : Net σ O Y) (x : O),
            Spec.episode true i (evs.take k) = h ++ [(net, x)] ∧ st[i]? = some (r, some s') ∧
            r.getD z = Spec.state z h ∧ s' = (net (Spec.state z h) x).1 := by
  obtain ⟨outs, a, h1, h2, h3, _⟩ := run_spec hk evs [] _ _ (inv_new z n) hp
  refine ⟨outs, a, h1, ?_⟩
  intro k ended he
  have hlt : k < outs.length := h2 ▸ (List.getElem?_eq_some_iff.mp he).1
  have ho := List.getElem?_eq_getElem hlt
  obtain ⟨st, e1, e2, e3⟩ := h3 k _ _ he ho
  rw [List.nil_append] at e3
  refine ⟨st, by rw [ho, e1], e2, ?_⟩
  intro i hi
  obtain ⟨r, r', f1, f2, f3, f4⟩ := e3 i hi
  rcases List.eq_nil_or_concat (Spec.episode true i (evs.take k)) with hnil | ⟨h, x, hx⟩
  · exact absurd hnil f2
  · rw [List.concat_eq_append] at hx
    refine ⟨r, r', h, x.1, x.2, hx, f1, ?_, ?_⟩
    · rw [f3, hx, List.dropLast_concat]
    · rw [f4, hx, state_snoc]

/-! ### Evaluation runs

The calls that an evaluation makes on the agent, with the observations it gets. -/

/-- The calls of a serial evaluation on the agent: `obs` are the observations, in order. -/
def serialEvents (net : Net σ O Y) : List Eval.Call → (Nat → O) → Nat → List (Ev σ O Y)
  | [], _, _ => []
  | .act :: cs, obs, k => .act false net [obs k] :: serialEvents net cs obs (k + 1)
  | .observe d r :: cs, obs, k => .observe false [d || r] :: serialEvents net cs obs k
  | _ :: cs, obs, k => serialEvents net cs obs k

/-- The same for a batch evaluation: `obs k` are the observations of the environments. -/
def batchEvents (net : Net σ O Y) : List Eval.Batch.Call → (Nat → List O) → Nat → List (Ev σ O Y)
  | [], _, _ => []
  | .act :: cs, obs, k => .act false net (obs k) :: batchEvents net cs obs (k + 1)
  | .observe ds rs :: cs, obs, k => .observe false (List.zipWith (· || ·) ds rs) :: batchEvents net cs obs k
  | _ :: cs, obs, k => batchEvents net cs obs k

theorem serialEvents_append (net : Net σ O Y) (c : Eval.Call) (obs : Nat → O) : ∀ (cs : List Eval.Call) (k : Nat),
    ∃ k', serialEvents net (cs ++ [c]) obs k = serialEvents net cs obs k ++ serialEvents net [c] obs k'
  | [], k => ⟨k, rfl⟩
  | c' :: cs, k => by
    cases c' with
    | act =>
      obtain ⟨k', h⟩ := serialEvents_append net c obs cs (k + 1)
      exact ⟨k', by simp only [List.cons_append, serialEvents, h]⟩
    | observe d r =>
      obtain ⟨k', h⟩ := serialEvents_append net c obs cs k
      exact ⟨k', by simp only [List.cons_append, serialEvents, h]⟩
    | reset => exact serialEvents_append net c obs cs k
    | step => exact serialEvents_append net c obs cs k

theorem batchEvents_append (net : Net σ O Y) (c : Eval.Batch.Call) (obs : Nat → List O) :
    ∀ (cs : List Eval.Batch.Call) (k : Nat),
    ∃ k', batchEvents net (cs ++ [c]) obs k = batchEvents net cs obs k ++ batchEvents net [c] obs k'
  | [], k => ⟨k, rfl⟩
  | c' :: cs, k => by
    cases c' with
    | act =>
      obtain ⟨k', h⟩ := batchEvents_append net c obs cs (k + 1)
      exact ⟨k', by simp only [List.cons_append, batchEvents, h]⟩
    | observe d r =>
      obtain ⟨k', h⟩ := batchEvents_append net c obs cs k
      exact ⟨k', by simp only [List.cons_append, batchEvents, h]⟩
    | resetAll => exact batchEvents_append net c obs cs k
    | reset m => exact batchEvents_append net c obs cs k
    | step => exact batchEvents_append net c obs cs k

/-- **C75 (evaluation, partial).** After an evaluation by episodes with one environment, or any evaluation with a vector of
environments, no episode is under way in evaluation mode, whatever happened before: the next evaluation begins in the
initial state.  Missing: evaluations by steps with one environment, for which this is false
(`serial_step_evaluation_leaves_state`). -/
theorem evaluation_starts_fresh_partial {R : Type _} [AddCommMonoid R] (net : Net σ O Y) (before : List (Ev σ O Y)) :
    (∀ (maxLen : Option Nat) (n : Nat) (out : Nat → Eval.Out R) (fuel : Nat) (l : Eval.Loop R) (obs : Nat → O), 0 < n →
      Eval.runEpisodes maxLen (.episodes n) out fuel = some l →
      Spec.episode false 0 (before ++ serialEvents net l.calls obs 0) = []) ∧
    (∀ (N : Nat) (maxLen : Option Nat) (g : Eval.Goal) (out : Nat → Nat → Eval.Out R) (fuel : Nat) (l : Eval.Batch.Loop R)
      (res : List (R × Nat)) (obs : Nat → List O) (i : Nat), i < N →
      Eval.Batch.batchRunEpisodes N maxLen g out fuel = some (l, res) →
      Spec.episode false i (before ++ batchEvents net l.calls obs 0) = []) := by
  constructor
  · intro maxLen n out fuel l obs hn h
    obtain ⟨segs, h1, _, h3, _, _, h6⟩ := Eval.serial_evaluation_by_episodes hn h
    rcases List.eq_nil_or_concat segs with rfl | ⟨segs', seg, hs⟩
    · simp at h1; omega
    rw [List.concat_eq_append] at hs
    subst hs
    obtain ⟨⟨o, ho, hend⟩, _⟩ := h3 seg (by simp)
    rcases List.eq_nil_or_concat seg with rfl | ⟨seg', o', hseg⟩
    · simp at ho
    rw [List.concat_eq_append] at hseg
    subst hseg
    have : o' = o := by simpa using ho
    subst this
    rw [List.flatMap_append, List.flatMap_singleton, Eval.episodeCalls_snoc] at h6
    have hl : l.calls = (segs'.flatMap (Eval.Spec.episodeCalls maxLen) ++ (Eval.Spec.episodeCalls maxLen seg' ++ [.act, .step]))
        ++ [.observe o'.done (o'.done || decide (maxLen = some (seg'.length + 1)) || o'.needsReset)] := by
      rw [h6]; simp
    rw [hl]
    obtain ⟨k', hk'⟩ := serialEvents_append net
      (.observe o'.done (o'.done || decide (maxLen = some (seg'.length + 1)) || o'.needsReset)) obs
      (segs'.flatMap (Eval.Spec.episodeCalls maxLen) ++ (Eval.Spec.episodeCalls maxLen seg' ++ [.act, .step])) 0
    rw [hk', ← List.append_assoc]
    simp only [serialEvents]
    rw [episode_append]
    dsimp only
    rw [if_pos]
    refine ⟨rfl, ?_⟩
    rcases hend with h | h | h
    · simp [h]
    · simp [h]
    · simp only [List.length_append, List.length_singleton] at h
      simp [h]
  · intro N maxLen g out fuel l res obs i hi h
    obtain ⟨_, h2⟩ := Eval.Batch.batch_evaluation_calls h
    have hl : l.calls = (Eval.Batch.Spec.callsUpTo N maxLen out (l.timestep - 1) ++ [.act, .step])
        ++ [.observe (Eval.Batch.Spec.dones N out (l.timestep - 1)) (List.replicate N true)] := by
      rw [h2]; simp
    rw [hl]
    obtain ⟨k', hk'⟩ := batchEvents_append net
      (.observe (Eval.Batch.Spec.dones N out (l.timestep - 1)) (List.replicate N true)) obs
      (Eval.Batch.Spec.callsUpTo N maxLen out (l.timestep - 1) ++ [.act, .step]) 0
    rw [hk', ← List.append_assoc]
    simp only [batchEvents]
    rw [episode_append]
    dsimp only
    rw [if_pos]
    refine ⟨rfl, ?_⟩
    simp [Eval.Batch.Spec.dones, hi]

/-- A model that counts the observations it has seen and puts the count out. -/
def counter : Net Nat Unit Nat := fun s _ => (s + 1, s + 1)

/-- **C75 fails for evaluations by steps with one environment.** An evaluation by two steps of an environment that goes on ends
in the middle of an episode.  The second evaluation begins a new episode, but the model continues in the state of the
first: its first output is 3 instead of 1.  (For either kind of agent.) -/
theorem serial_step_evaluation_leaves_state (kind : Kind) :
    ∃ l : Eval.Loop Int, Eval.runEpisodes none (.steps 2) (fun _ => ⟨1, false, false⟩) 2 = some l ∧
      l.calls = [.reset, .act, .step, .observe false false, .act, .step, .observe false false] ∧
      ∃ a, run kind 0 Agent.new (serialEvents counter l.calls (fun _ => ()) 0 ++ serialEvents counter l.calls (fun _ => ()) 0)
        = .ok ([.acted [1], .observed [], .acted [2], .observed [], .acted [3], .observed [], .acted [4], .observed []], a) := by
  refine ⟨_, rfl, by decide, ?_⟩
  cases kind <;> exact ⟨_, rfl⟩

/-- Two environments in training; the episode of the first ends after its first step.  In between, an evaluation. -/
def demo : List (Ev Nat Unit Nat) :=
  [.act true counter [(), ()], .observe true [true, false], .act false counter [()], .act true counter [(), ()],
    .observe false [false], .act false counter [()], .observe true [false, false]]

example : Spec.Protocol (fun b => if b then 2 else 1) (fun _ => false) demo := by
  simp [demo, Spec.Protocol]

example : ∃ a, run .batch 0 Agent.new demo = .ok ([.acted [1, 1], .observed [(none, some 1), (none, some 1)], .acted [1],
    .acted [1, 2], .observed [], .acted [2], .observed [(some 0, some 1), (some 1, some 2)]], a) := ⟨_, rfl⟩

end Pfrl.Interact.Recurrent
