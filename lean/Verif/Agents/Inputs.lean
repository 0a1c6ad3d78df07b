import Verif.Basic

/-!
# What the networks of an agent are given (C134)

Which of two functions turns observations into the input of a network: the one given to the agent as `batch_states`, or the library's
own.  One call of an agent is modelled by the list of what its networks, and its normaliser of observations, are applied to, in order.
What the networks compute is not modelled, and neither are recurrent states (`Recurrent/`) and actions.
-/

namespace Pfrl.Inputs

variable {Obs X : Type}

/-! ## Model -/

/-- What an agent makes inputs with: `batch_states` with `phi` and the device, given to the constructor (`user`, the attribute
`self.batch_states`) or imported from `pfrl.utils.batch_states` (`default`); the normaliser of observations, if there is one
(`update=False`, with the statistics it has at that time, which are not modelled); and joining stored inputs of several steps to one. -/
structure Ctx (Obs X : Type) where
  user : List Obs → X
  default : List Obs → X
  norm : Option (X → X)
  join : List X → X

/-- `if self.obs_normalizer: states = self.obs_normalizer(states, update=False)`, `pfrl/agents/ppo.py:486-487` and elsewhere. -/
def Ctx.normalise (c : Ctx Obs X) (x : X) : X :=
  match c.norm with
  | none => x
  | some f => f x

/-- A transition: the observation before it and the one after it. -/
structure Tr (Obs : Type) where
  state : Obs
  next : Obs

/-- `batch_experiences(experiences, device, phi, gamma, batch_states)`, `pfrl/replay_buffer.py:157-196`: the batches of states and of
next states of non-empty experiences of several transitions each. -/
def batchExperiences (f : List Obs → X) (experiences : List (List (Tr Obs))) : X × X :=
  (f (experiences.filterMap fun e => e.head?.map Tr.state), f (experiences.filterMap fun e => e.getLast?.map Tr.next))

/-- Agents choosing actions for a list of observations with one call of a network: `DQN`, `pfrl/agents/dqn.py:475-487`; `IQN`,
`iqn.py:403-415`; `DDPG`, `ddpg.py:257-258`; `TD3`, `td3.py:263-264`; `SoftActorCritic`, `soft_actor_critic.py:319-320`;
`REINFORCE`, `reinforce.py:105-111` and `160-166`; `A3C`, `a3c.py:246-253` and `288-294`; `StateQFunctionActor`,
`state_q_function_actor.py:57-69`. -/
def act (c : Ctx Obs X) (obs : List Obs) : List X := [c.user obs]

/-- The same for `PPO`, `ppo.py:687-698` and `708-732`, and `TRPO`, `trpo.py:715-726` and `736-760`. -/
def actNormalised (c : Ctx Obs X) (obs : List Obs) : List X := [c.normalise (c.user obs)]

/-- The same for `ACER`, `acer.py:714-722` and `762-768`; it has no parameter `batch_states`. -/
def acerAct (c : Ctx Obs X) (obs : Obs) : List X := [c.default [obs]]

/-- `DQN.update`, `dqn.py:333-347` with lines 398 and 420.  The subclasses differ in which networks are applied to the two batches,
and how often: `uses` says which of the applications are to the next states. -/
def dqnUpdate (c : Ctx Obs X) (uses : List Bool) (experiences : List (List (Tr Obs))) : List X :=
  let b := batchExperiences c.user experiences
  uses.map fun next => if next then b.2 else b.1

/-- The recurrent case, `dqn.py:372-378`, with `batch_recurrent_experiences`, `replay_buffer.py:219-287`: one input per episode. -/
def dqnUpdateRecurrent (c : Ctx Obs X) (uses : List Bool) (episodes : List (List (Tr Obs))) : List X :=
  uses.flatMap fun next => if next then episodes.map (fun e => c.user (e.map Tr.next)) else episodes.map fun e => c.user (e.map Tr.state)

/-- `DDPG.update`, `ddpg.py:190-195` with lines 152-184: the target policy and the target critic, the critic, the policy and the
critic.  `batch_experiences` is called without `batch_states`. -/
def ddpgUpdate (c : Ctx Obs X) (experiences : List (List (Tr Obs))) : List X :=
  let b := batchExperiences c.default experiences
  [b.2, b.2, b.1, b.1, b.1]

/-- `TD3.update`, `td3.py:252-259` with lines 190-240; `actor` says whether it is the turn of the policy. -/
def td3Update (c : Ctx Obs X) (actor : Bool) (experiences : List (List (Tr Obs))) : List X :=
  let b := batchExperiences c.default experiences
  [b.2, b.2, b.2, b.1, b.1] ++ if actor then [b.1, b.1] else []

/-- `SoftActorCritic.update`, `soft_actor_critic.py:310-315` with lines 214-287. -/
def sacUpdate (c : Ctx Obs X) (experiences : List (List (Tr Obs))) : List X :=
  let b := batchExperiences c.default experiences
  [b.2, b.2, b.2, b.1, b.1, b.1, b.1, b.1]

/-- `_add_log_prob_and_value_to_episodes`, `ppo.py:110-130`, called by PPO and TRPO with `batch_states=self.batch_states`. -/
def addValues (c : Ctx Obs X) (dataset : List (Tr Obs)) : List X :=
  [c.normalise (c.user (dataset.map Tr.state)), c.normalise (c.user (dataset.map Tr.next))]

/-- `_update_obs_normalizer` of PPO, `ppo.py:460-463`: nothing without a normaliser. -/
def normaliserPpo (c : Ctx Obs X) (dataset : List (Tr Obs)) : List X :=
  match c.norm with
  | none => []
  | some _ => [c.user (dataset.map Tr.state)]

/-- A non-recurrent update of `PPO`, `ppo.py:413-448` with `_update`, lines 465-489. -/
def ppoUpdate (c : Ctx Obs X) (dataset : List (Tr Obs)) (minibatches : List (List (Tr Obs))) : List X :=
  addValues c dataset ++ normaliserPpo c dataset ++ minibatches.map fun m => c.normalise (c.user (m.map Tr.state))

/-- A recurrent update of `PPO`: `ppo.py:66-84` and, for each minibatch of episodes, lines 544-556. -/
def ppoUpdateRecurrent (c : Ctx Obs X) (episodes : List (List (Tr Obs))) (minibatches : List (List (List (Tr Obs)))) : List X :=
  episodes.map (fun e => c.normalise (c.user (e.map Tr.state))) ++ episodes.map (fun e => c.normalise (c.user (e.map Tr.next)))
    ++ normaliserPpo c episodes.flatten ++ minibatches.flatMap fun m => m.map fun e => c.normalise (c.user (e.map Tr.state))

/-- `_update_obs_normalizer` of TRPO, `trpo.py:382-385`: the name `batch_states` is the imported function. -/
def normaliserTrpo (c : Ctx Obs X) (dataset : List (Tr Obs)) : List X :=
  match c.norm with
  | none => []
  | some _ => [c.default (dataset.map Tr.state)]

/-- `_update_policy` of TRPO, `trpo.py:433-463`: the policy, twice. -/
def trpoPolicy (c : Ctx Obs X) (dataset : List (Tr Obs)) : List X :=
  let states := c.normalise (c.default (dataset.map Tr.state))
  [states, states]

/-- `_line_search` of TRPO without recurrence, `trpo.py:626-634`: the policy, once per step size tried. -/
def trpoLineSearch (c : Ctx Obs X) (tries : Nat) (dataset : List (Tr Obs)) : List X :=
  List.replicate tries (c.normalise (c.user (dataset.map Tr.state)))

/-- `_update_vf` of TRPO, `trpo.py:396-407`. -/
def trpoVf (c : Ctx Obs X) (minibatches : List (List (Tr Obs))) : List X :=
  minibatches.map fun m => c.normalise (c.default (m.map Tr.state))

/-- A non-recurrent update of `TRPO`, `trpo.py:291-303` and `318-324`. -/
def trpoUpdate (c : Ctx Obs X) (dataset : List (Tr Obs)) (tries : Nat) (minibatches : List (List (Tr Obs))) : List X :=
  addValues c dataset ++ normaliserTrpo c dataset ++ trpoPolicy c dataset ++ trpoLineSearch c tries dataset ++ trpoVf c minibatches

/-- A recurrent update of `TRPO`, `trpo.py:278-289`, `326-334`, `354-360`, `492-500` and `609-616`: only the normaliser is given what
the imported function makes. -/
def trpoUpdateRecurrent (c : Ctx Obs X) (episodes : List (List (Tr Obs))) (flat : List (Tr Obs)) (tries : Nat)
    (minibatches : List (List (List (Tr Obs)))) : List X :=
  episodes.map (fun e => c.normalise (c.user (e.map Tr.state))) ++ episodes.map (fun e => c.normalise (c.user (e.map Tr.next)))
    ++ normaliserTrpo c flat
    ++ (List.replicate (2 + tries) (episodes.map fun e => c.normalise (c.user (e.map Tr.state)))).flatten
    ++ minibatches.flatMap fun m => m.map fun e => c.normalise (c.user (e.map Tr.state))

/-- `A2C.update`, `a2c.py:169-175`: the last of the stored inputs, and all but the last joined.  They were made when they were observed,
lines 228-239 and 276-286. -/
def a2cUpdate (c : Ctx Obs X) (steps : List (List Obs)) (last : List Obs) : List X :=
  [c.user last, c.join (steps.map c.user)]

/-- `A3C.update`, `a3c.py:130-175` and `276-281`: the observation after the segment, unless the episode ended, and the segment. -/
def a3cUpdate (c : Ctx Obs X) (segment : List Obs) (after : Option Obs) : List X :=
  (match after with
    | none => []
    | some o => [c.user [o]]) ++ [c.user segment]

/-- `ACER.update` and the replay of an episode, `acer.py:613-653` and `681`, `805`: one observation at a time. -/
def acerUpdate (c : Ctx Obs X) (segment : List Obs) : List X := segment.map fun o => c.default [o]

/-! ## Specification -/

/-- `x` was made by `f` from observations in `seen`, perhaps normalised, or joined from such inputs. -/
inductive Spec.Made (f : List Obs → X) (norm : Option (X → X)) (join : List X → X) (seen : List Obs) : X → Prop
  | batch (l : List Obs) : (∀ o ∈ l, o ∈ seen) → Spec.Made f norm join seen (f l)
  | norm (g : X → X) (x : X) : norm = some g → Spec.Made f norm join seen x → Spec.Made f norm join seen (g x)
  | join (xs : List X) : (∀ x ∈ xs, Spec.Made f norm join seen x) → Spec.Made f norm join seen (join xs)

/-- All inputs were made by the function given to the agent. -/
def Spec.Uses (c : Ctx Obs X) (seen : List Obs) (inputs : List X) : Prop := ∀ x ∈ inputs, Spec.Made c.user c.norm c.join seen x

/-- The observations in transitions. -/
def Spec.seen (l : List (Tr Obs)) : List Obs := l.flatMap fun t => [t.state, t.next]

/-- The same agent, given another function. -/
def Spec.withUser (c : Ctx Obs X) (f : List Obs → X) : Ctx Obs X := { c with user := f }

/-! ## Lemmas -/

variable {c : Ctx Obs X} {seen : List Obs}

theorem made_normalise {f : List Obs → X} {x : X} (h : Spec.Made f c.norm c.join seen x) :
    Spec.Made f c.norm c.join seen (c.normalise x) := by
  unfold Ctx.normalise
  split
  · exact h
  · exact .norm _ _ ‹_› h

theorem made_mono {f : List Obs → X} {norm : Option (X → X)} {join : List X → X} {s s' : List Obs} (hs : ∀ o ∈ s, o ∈ s') {x : X}
    (h : Spec.Made f norm join s x) : Spec.Made f norm join s' x := by
  induction h with
  | batch l hl => exact .batch l fun o ho => hs o (hl o ho)
  | norm g x hg _ ih => exact .norm g x hg ih
  | join xs _ ih => exact .join xs ih

theorem mem_seen {l : List (Tr Obs)} {t : Tr Obs} (h : t ∈ l) : t.state ∈ Spec.seen l ∧ t.next ∈ Spec.seen l := by
  constructor <;> exact List.mem_flatMap.2 ⟨t, h, by simp⟩

theorem states_seen {l m : List (Tr Obs)} (h : ∀ t ∈ m, t ∈ l) : ∀ o ∈ m.map Tr.state, o ∈ Spec.seen l := fun o ho => by
  obtain ⟨t, ht, rfl⟩ := List.mem_map.1 ho
  exact (mem_seen (h t ht)).1

theorem nexts_seen {l m : List (Tr Obs)} (h : ∀ t ∈ m, t ∈ l) : ∀ o ∈ m.map Tr.next, o ∈ Spec.seen l := fun o ho => by
  obtain ⟨t, ht, rfl⟩ := List.mem_map.1 ho
  exact (mem_seen (h t ht)).2

theorem heads_seen (e : List (List (Tr Obs))) : ∀ o ∈ e.filterMap fun e => e.head?.map Tr.state, o ∈ Spec.seen e.flatten := fun o ho => by
  obtain ⟨l, hl, ho⟩ := List.mem_filterMap.1 ho
  obtain ⟨t, ht, rfl⟩ := Option.map_eq_some_iff.1 ho
  exact (mem_seen (List.mem_flatten.2 ⟨l, hl, List.mem_of_mem_head? ht⟩)).1

theorem lasts_seen (e : List (List (Tr Obs))) : ∀ o ∈ e.filterMap fun e => e.getLast?.map Tr.next, o ∈ Spec.seen e.flatten := fun o ho => by
  obtain ⟨l, hl, ho⟩ := List.mem_filterMap.1 ho
  obtain ⟨t, ht, rfl⟩ := Option.map_eq_some_iff.1 ho
  exact (mem_seen (List.mem_flatten.2 ⟨l, hl, List.mem_of_mem_getLast? ht⟩)).2

theorem uses_append {a b : List X} : Spec.Uses c seen (a ++ b) ↔ Spec.Uses c seen a ∧ Spec.Uses c seen b := by
  unfold Spec.Uses
  simp only [List.mem_append]
  exact ⟨fun h => ⟨fun x hx => h x (.inl hx), fun x hx => h x (.inr hx)⟩, fun h x hx => hx.elim (h.1 x) (h.2 x)⟩

theorem addValues_uses (c : Ctx Obs X) (d : List (Tr Obs)) : Spec.Uses c (Spec.seen d) (addValues c d) := by
  intro x hx
  simp only [addValues, List.mem_cons, List.not_mem_nil, or_false] at hx
  rcases hx with rfl | rfl
  · exact made_normalise (.batch _ (states_seen fun _ h => h))
  · exact made_normalise (.batch _ (nexts_seen fun _ h => h))

theorem normaliserPpo_uses (c : Ctx Obs X) (d : List (Tr Obs)) : Spec.Uses c (Spec.seen d) (normaliserPpo c d) := by
  intro x hx
  unfold normaliserPpo at hx
  split at hx
  · simp at hx
  · rw [List.mem_singleton] at hx
    subst hx
    exact .batch _ (states_seen fun _ h => h)

theorem episodes_use (c : Ctx Obs X) {d : List (Tr Obs)} (g : Tr Obs → Obs) (hg : ∀ t ∈ d, g t ∈ Spec.seen d) {eps : List (List (Tr Obs))}
    (h : ∀ e ∈ eps, ∀ t ∈ e, t ∈ d) : Spec.Uses c (Spec.seen d) (eps.map fun e => c.normalise (c.user (e.map g))) := by
  intro x hx
  obtain ⟨e, he, rfl⟩ := List.mem_map.1 hx
  refine made_normalise (.batch _ fun o ho => ?_)
  obtain ⟨t, ht, rfl⟩ := List.mem_map.1 ho
  exact hg t (h e he t ht)

/-! ## C134 -/

/-- **C134, acting.** All agents with the parameter `batch_states` choose actions from what it makes of the observations. -/
theorem act_uses (c : Ctx Obs X) (obs : List Obs) : Spec.Uses c obs (act c obs) ∧ Spec.Uses c obs (actNormalised c obs) := by
  constructor <;> intro x hx
  · rw [List.mem_singleton.1 hx]
    exact .batch _ fun _ h => h
  · rw [List.mem_singleton.1 hx]
    exact made_normalise (.batch _ fun _ h => h)

/-- **C134, DQN and its relatives.** Updates use it, with and without recurrence. -/
theorem dqn_uses (c : Ctx Obs X) (uses : List Bool) (e : List (List (Tr Obs))) :
    Spec.Uses c (Spec.seen e.flatten) (dqnUpdate c uses e) ∧ Spec.Uses c (Spec.seen e.flatten) (dqnUpdateRecurrent c uses e) := by
  constructor <;> intro x hx
  · obtain ⟨b, -, rfl⟩ := List.mem_map.1 hx
    cases b
    · exact .batch _ (heads_seen e)
    · exact .batch _ (lasts_seen e)
  · obtain ⟨b, -, hx⟩ := List.mem_flatMap.1 hx
    cases b
    · obtain ⟨l, hl, rfl⟩ := List.mem_map.1 hx
      exact .batch _ (states_seen fun t ht => List.mem_flatten.2 ⟨l, hl, ht⟩)
    · obtain ⟨l, hl, rfl⟩ := List.mem_map.1 hx
      exact .batch _ (nexts_seen fun t ht => List.mem_flatten.2 ⟨l, hl, ht⟩)

/-- **C134, PPO.** Updates use it: for the values, the normaliser and every minibatch. -/
theorem ppo_uses (c : Ctx Obs X) (d : List (Tr Obs)) (ms : List (List (Tr Obs))) (hm : ∀ m ∈ ms, ∀ t ∈ m, t ∈ d) :
    Spec.Uses c (Spec.seen d) (ppoUpdate c d ms) := by
  unfold ppoUpdate
  rw [uses_append, uses_append]
  exact ⟨⟨addValues_uses c d, normaliserPpo_uses c d⟩, episodes_use c Tr.state (fun t ht => (mem_seen ht).1) hm⟩

/-- **C134, recurrent PPO.** -/
theorem ppo_recurrent_uses (c : Ctx Obs X) (eps : List (List (Tr Obs))) (ms : List (List (List (Tr Obs))))
    (hm : ∀ m ∈ ms, ∀ e ∈ m, ∀ t ∈ e, t ∈ eps.flatten) : Spec.Uses c (Spec.seen eps.flatten) (ppoUpdateRecurrent c eps ms) := by
  have hin : ∀ e ∈ eps, ∀ t ∈ e, t ∈ eps.flatten := fun e he t ht => List.mem_flatten.2 ⟨e, he, ht⟩
  unfold ppoUpdateRecurrent
  rw [uses_append, uses_append, uses_append]
  refine ⟨⟨⟨episodes_use c Tr.state (fun t ht => (mem_seen ht).1) hin, episodes_use c Tr.next (fun t ht => (mem_seen ht).2) hin⟩,
    normaliserPpo_uses c _⟩, fun x hx => ?_⟩
  obtain ⟨m, hmm, hx⟩ := List.mem_flatMap.1 hx
  exact episodes_use c Tr.state (fun t ht => (mem_seen ht).1) (hm m hmm) x hx

/-- **C134, A2C and A3C.** -/
theorem actor_critic_uses (c : Ctx Obs X) (steps : List (List Obs)) (last segment : List Obs) (after : Option Obs) :
    Spec.Uses c (steps.flatten ++ last) (a2cUpdate c steps last) ∧
    Spec.Uses c (segment ++ after.toList) (a3cUpdate c segment after) := by
  constructor <;> intro x hx
  · simp only [a2cUpdate, List.mem_cons, List.not_mem_nil, or_false] at hx
    rcases hx with rfl | rfl
    · exact .batch _ fun o ho => List.mem_append_right _ ho
    · refine .join _ fun x hx => ?_
      obtain ⟨s, hs, rfl⟩ := List.mem_map.1 hx
      exact .batch _ fun o ho => List.mem_append_left _ (List.mem_flatten.2 ⟨s, hs, ho⟩)
  · cases after with
    | none =>
      simp only [a3cUpdate, List.nil_append, List.mem_singleton] at hx
      subst hx
      exact .batch _ fun o ho => List.mem_append_left _ ho
    | some o =>
      simp only [a3cUpdate, List.cons_append, List.nil_append, List.mem_cons, List.not_mem_nil, or_false] at hx
      rcases hx with rfl | rfl
      · exact .batch _ fun p hp => by simp only [List.mem_singleton] at hp; subst hp; simp
      · exact .batch _ fun o ho => List.mem_append_left _ ho

/-- **C134, the default.** If the agent is constructed without `batch_states`, the updates of the remaining agents use it, too. -/
theorem default_uses_partial (c : Ctx Obs X) (h : c.user = c.default) (e : List (List (Tr Obs))) (actor : Bool) (d : List (Tr Obs))
    (tries : Nat) (ms : List (List (Tr Obs))) (hm : ∀ m ∈ ms, ∀ t ∈ m, t ∈ d) :
    Spec.Uses c (Spec.seen e.flatten) (ddpgUpdate c e) ∧ Spec.Uses c (Spec.seen e.flatten) (td3Update c actor e) ∧
    Spec.Uses c (Spec.seen e.flatten) (sacUpdate c e) ∧ Spec.Uses c (Spec.seen d) (trpoUpdate c d tries ms) := by
  have hb : ∀ x ∈ [(batchExperiences c.default e).1, (batchExperiences c.default e).2], Spec.Made c.user c.norm c.join (Spec.seen e.flatten) x := by
    intro x hx
    simp only [List.mem_cons, List.not_mem_nil, or_false, ← h] at hx
    rcases hx with rfl | rfl
    · exact .batch _ (heads_seen e)
    · exact .batch _ (lasts_seen e)
  have h1 := hb _ List.mem_cons_self
  have h2 := hb _ (List.mem_cons_of_mem _ List.mem_cons_self)
  refine ⟨fun x hx => ?_, fun x hx => ?_, fun x hx => ?_, ?_⟩
  · simp only [ddpgUpdate, List.mem_cons, List.not_mem_nil, or_false] at hx
    rcases hx with rfl | rfl | rfl | rfl | rfl <;> assumption
  · cases actor <;> simp [td3Update] at hx <;> (rcases hx with rfl | rfl <;> assumption)
  · simp [sacUpdate] at hx
    rcases hx with rfl | rfl <;> assumption
  · unfold trpoUpdate
    rw [uses_append, uses_append, uses_append, uses_append]
    refine ⟨⟨⟨⟨addValues_uses c d, ?_⟩, ?_⟩, ?_⟩, ?_⟩
    · have := normaliserPpo_uses c d
      unfold normaliserPpo at this
      unfold normaliserTrpo
      rw [← h]
      exact this
    · intro x hx
      simp [trpoPolicy, ← h] at hx
      subst hx
      exact made_normalise (.batch _ (states_seen fun _ ht => ht))
    · intro x hx
      rw [(List.mem_replicate.1 hx).2]
      exact made_normalise (.batch _ (states_seen fun _ ht => ht))
    · unfold trpoVf
      rw [← h]
      exact episodes_use c Tr.state (fun t ht => (mem_seen ht).1) hm

/-- **C134, recurrent TRPO.** Without a normaliser of observations, recurrent updates use it. -/
theorem trpo_recurrent_uses_partial (c : Ctx Obs X) (hn : c.norm = none) (eps : List (List (Tr Obs))) (tries : Nat)
    (ms : List (List (List (Tr Obs)))) (hm : ∀ m ∈ ms, ∀ e ∈ m, ∀ t ∈ e, t ∈ eps.flatten) :
    Spec.Uses c (Spec.seen eps.flatten) (trpoUpdateRecurrent c eps eps.flatten tries ms) := by
  have hin : ∀ e ∈ eps, ∀ t ∈ e, t ∈ eps.flatten := fun e he t ht => List.mem_flatten.2 ⟨e, he, ht⟩
  have hst := episodes_use c Tr.state (fun t ht => (mem_seen ht).1) hin
  unfold trpoUpdateRecurrent
  rw [uses_append, uses_append, uses_append, uses_append]
  refine ⟨⟨⟨⟨hst, episodes_use c Tr.next (fun t ht => (mem_seen ht).2) hin⟩, ?_⟩, fun x hx => ?_⟩, fun x hx => ?_⟩
  · unfold normaliserTrpo
    rw [hn]
    exact fun x hx => absurd hx List.not_mem_nil
  · obtain ⟨l, hl, hx⟩ := List.mem_flatten.1 hx
    rw [(List.mem_replicate.1 hl).2] at hx
    exact hst x hx
  · obtain ⟨m, hmm, hx⟩ := List.mem_flatMap.1 hx
    exact episodes_use c Tr.state (fun t ht => (mem_seen ht).1) (hm m hmm) x hx

/-- **C134, ACER**, which has no such parameter, uses the library's function for everything. -/
theorem acer_uses (c : Ctx Obs X) (o : Obs) (segment : List Obs) :
    Spec.Uses (Spec.withUser c c.default) [o] (acerAct c o) ∧ Spec.Uses (Spec.withUser c c.default) segment (acerUpdate c segment) := by
  constructor <;> intro x hx
  · rw [List.mem_singleton.1 hx]
    exact .batch [o] fun _ h => h
  · obtain ⟨p, hp, rfl⟩ := List.mem_map.1 hx
    exact .batch [p] fun q hq => by rw [List.mem_singleton.1 hq]; exact hp

/-! ## Limits -/

/-- **C134, the updates of DDPG, TD3 and SAC ignore it.** Whatever `batch_states` is, they are the same. -/
theorem update_ignores (c : Ctx Obs X) (f : List Obs → X) (e : List (List (Tr Obs))) (actor : Bool) :
    ddpgUpdate (Spec.withUser c f) e = ddpgUpdate c e ∧ td3Update (Spec.withUser c f) actor e = td3Update c actor e ∧
    sacUpdate (Spec.withUser c f) e = sacUpdate c e := ⟨rfl, rfl, rfl⟩

/-- **C134, TRPO mixes the two.** The gain is computed from other inputs than the line search compares it with, and the value function
is trained on other inputs than it is asked for. -/
theorem trpo_mixes (c : Ctx Obs X) (d : List (Tr Obs)) (tries : Nat) (hn : c.norm = none)
    (h : c.user (d.map Tr.state) ≠ c.default (d.map Tr.state)) :
    (∀ x ∈ trpoPolicy c d, ∀ y ∈ trpoLineSearch c tries d, x ≠ y) ∧ ∀ x ∈ trpoVf c [d], x ∉ actNormalised c (d.map Tr.state) := by
  have hnorm : ∀ x, c.normalise x = x := fun x => by unfold Ctx.normalise; rw [hn]
  constructor
  · intro x hx y hy
    simp [trpoPolicy, hnorm] at hx
    have hy := (List.mem_replicate.1 hy).2
    rw [hnorm] at hy
    rw [hx, hy]
    exact fun e => h e.symm
  · intro x hx
    simp only [trpoVf, List.map_cons, List.map_nil, List.mem_singleton, hnorm] at hx
    simp only [actNormalised, List.mem_singleton, hnorm, hx]
    exact fun e => h e.symm

/-- Inputs as lists of features; the function given doubles the observations, as one that scales pixels would. -/
def doubling : Ctx Int (List Int) := ⟨fun l => l.map (2 * ·), fun l => l, none, List.flatten⟩

/-- **C134, the normaliser of TRPO** learns the statistics of what the library's function makes, recurrent or not, and is then applied to
what the given function makes. -/
theorem trpo_normaliser (c : Ctx Obs X) (g : X → X) (hn : c.norm = some g) (eps : List (List (Tr Obs))) (flat : List (Tr Obs))
    (tries : Nat) (ms : List (List (List (Tr Obs)))) : c.default (flat.map Tr.state) ∈ trpoUpdateRecurrent c eps flat tries ms := by
  have h : c.default (flat.map Tr.state) ∈ normaliserTrpo c flat := by
    unfold normaliserTrpo
    rw [hn]
    exact List.mem_singleton.2 rfl
  unfold trpoUpdateRecurrent
  simp only [List.mem_append]
  exact .inl (.inl (.inr h))

/-- **C134 is false for DDPG, TD3, SAC and TRPO.** They are trained on what they never act on. -/
theorem update_wrong : ∃ e : List (List (Tr Int)), ∃ s : List Int,
    ¬ Spec.Uses doubling (Spec.seen e.flatten) (ddpgUpdate doubling e) ∧
    ¬ Spec.Uses doubling (Spec.seen e.flatten) (td3Update doubling false e) ∧
    ¬ Spec.Uses doubling (Spec.seen e.flatten) (sacUpdate doubling e) ∧
    ¬ Spec.Uses doubling (Spec.seen e.flatten) (trpoUpdate doubling e.flatten 1 [e.flatten]) ∧
    act doubling s = [[2, 2]] ∧ ddpgUpdate doubling e = [[3, 3], [3, 3], [1, 1], [1, 1], [1, 1]] := by
  have hev : ∀ seen x, Spec.Made doubling.user doubling.norm doubling.join seen x → ∀ i ∈ x, i % 2 = 0 := by
    intro seen x hx
    induction hx with
    | batch l _ =>
      intro i hi
      obtain ⟨j, -, rfl⟩ := List.mem_map.1 hi
      omega
    | norm g x hg => cases hg
    | join xs _ ih =>
      intro i hi
      obtain ⟨l, hl, hi⟩ := List.mem_flatten.1 hi
      exact ih l hl i hi
  have hodd : ∀ seen inputs, ([1, 1] : List Int) ∈ inputs → ¬ Spec.Uses doubling seen inputs := fun seen inputs hm hu => by
    have := hev seen _ (hu _ hm) 1 (by simp)
    omega
  refine ⟨[[⟨1, 3⟩], [⟨1, 3⟩]], [1, 1], hodd _ _ (by decide), hodd _ _ (by decide), hodd _ _ (by decide), hodd _ _ (by decide), ?_, ?_⟩ <;>
  decide

/-! ## Non-vacuity -/

/-- A PPO update with a normaliser, two epochs of one minibatch. -/
example : ppoUpdate ⟨fun l : List Int => l.map (2 * ·), id, some (·.map (· + 1)), List.flatten⟩ [⟨1, 3⟩, ⟨3, 5⟩] [[⟨3, 5⟩], [⟨1, 3⟩]]
    = [[3, 7], [7, 11], [2, 6], [7], [3]] := by decide

/-- A double DQN update with two-step experiences: the first state and the last next state of each. -/
example : dqnUpdate doubling [true, true, false] [[⟨1, 3⟩, ⟨3, 5⟩], [⟨7, 9⟩]] = [[10, 18], [10, 18], [2, 14]] := by decide

example : c.user = c.default → Spec.Uses c (Spec.seen []) (ddpgUpdate c []) := fun h => (default_uses_partial c h [] true [] 0 [] (by simp)).1

end Pfrl.Inputs
