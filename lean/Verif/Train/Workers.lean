import Mathlib.Data.List.Induction
import Mathlib.Tactic.SplitIfs
import Mathlib.Tactic.NormNum

/-!
# Which parameters the workers of `train_agent_async` act with, save and leave behind

`A3C` and `ACER` agents hold two networks: `shared_model`, in memory shared by all processes, and `model`,
their own copy, with which they act, compute losses and which they save.  `train_agent_async` forks
`processes` workers, each with its own copy of the agent, and returns the agent of the parent.

Models `pfrl/agents/a3c.py`, `pfrl/agents/acer.py` (constructors, `sync_parameters`, the end of `update`,
`load`, `_act_train`/`_act_eval`) and `pfrl/experiments/train_agent_async.py`.  Parameters are an arbitrary
type; the gradient of a loss and the step of the optimiser are arbitrary functions; an update (copying the
gradient, stepping, copying back) is one event — `Verif.Train.Hogwild` refines it to single reads and writes.
-/

namespace Pfrl.Train.Workers

/-! ## Model -/

/-- What is learnt and how.  `grad` is `total_loss.backward()` on the local model (pfrl/agents/a3c.py:210-213,
acer.py:583-587), `opt` is `optimizer.step()` on the shared model (a3c.py:217, acer.py:590), `average` is
`soft_copy_param(shared_average_model, model)` (acer.py:398-402), which `A3C` does not have: there it is
`fun a _ => a`. -/
structure Algo (θ ω δ γ : Type) where
  grad : θ → δ → γ
  opt : θ → ω → γ → θ × ω
  average : θ → θ → θ

/-- The attributes of an agent that matter here (pfrl/agents/a3c.py:67-73, acer.py:335-344). -/
structure Agent (θ ω : Type) where
  shared : θ
  avg : θ
  opt : ω
  model : θ

variable {θ ω δ γ : Type}

/-- `A3C(model, optimizer, …)`, `ACER(model, optimizer, …)`: the model given is the shared one, the agent's own
and the average model are deep copies of it (pfrl/agents/a3c.py:67-73, acer.py:335-344). -/
def construct (m : θ) (o : ω) : Agent θ ω := ⟨m, m, o, m⟩

/-- `agent.load(dirname)`: the saved attributes are `model` and `optimizer`; then the shared model gets the
parameters of `model` (pfrl/agents/a3c.py:44, 304-306, acer.py:305, 821-823). -/
def Agent.load (a : Agent θ ω) (saved : θ × ω) : Agent θ ω := ⟨saved.1, a.avg, saved.2, saved.1⟩

/-- What `agent.save(dirname)` writes (pfrl/agents/a3c.py:44, acer.py:305; agent.py:81-106). -/
def Agent.save (a : Agent θ ω) : θ × ω := (a.model, a.opt)

/-- The network with which `agent.act` chooses, in training and in evaluation (pfrl/agents/a3c.py:242-258,
285-298, acer.py:713-757, 759-775). -/
def Agent.actsWith (a : Agent θ ω) : θ := a.model

/-- `agent.sync_parameters()` (pfrl/agents/a3c.py:108-109, acer.py:396-402). -/
def Agent.sync (A : Algo θ ω δ γ) (a : Agent θ ω) : Agent θ ω := ⟨a.shared, A.average a.avg a.shared, a.opt, a.shared⟩

/-- `agent.update(…)` on data `d`: the gradient of the loss of the local model is given to the shared model, the
optimiser steps, the parameters are copied back (pfrl/agents/a3c.py:210-221, acer.py:583-592). -/
def Agent.update (A : Algo θ ω δ γ) (a : Agent θ ω) (d : δ) : Agent θ ω :=
  (Agent.mk (A.opt a.shared a.opt (A.grad a.model d)).1 a.avg (A.opt a.shared a.opt (A.grad a.model d)).2 a.model).sync A

/-- What can be observed of a training. -/
inductive Entry (θ δ : Type) where
  /-- Process `p` chose an action, in training or in an evaluation, with the network `m`. -/
  | acted (p : Nat) (m : θ)
  /-- Process `p` updated: the loss was that of network `m` on data `d`, the shared network was `before`, then `after`. -/
  | updated (p : Nat) (m : θ) (d : δ) (before after : θ)
  /-- Process `p` saved an agent with network `m`. -/
  | saved (p : Nat) (m : θ)

/-- Memory: what the processes share, the local network of each worker, and the observations so far. -/
structure World (θ ω δ : Type) where
  shared : θ
  avg : θ
  opt : ω
  locals : Nat → θ
  log : List (Entry θ δ)

/-- What a scheduled worker does next. -/
inductive Event (δ : Type) where
  | act (p : Nat)
  | update (p : Nat) (d : δ)
  | save (p : Nat)

/-- The agent as process `p` sees it: the attributes named by `shared_attributes` are the shared ones
(pfrl/agents/a3c.py:126-128, acer.py:420-422; train_agent_async.py:228-245, 280-287). -/
def World.view (w : World θ ω δ) (p : Nat) : Agent θ ω := ⟨w.shared, w.avg, w.opt, w.locals p⟩

/-- Writing back what process `p` did to its agent. -/
def World.put (w : World θ ω δ) (p : Nat) (a : Agent θ ω) (e : Entry θ δ) : World θ ω δ :=
  ⟨a.shared, a.avg, a.opt, fun q => if q = p then a.model else w.locals q, w.log ++ [e]⟩

/-- One event of `train_loop` in process `p` (pfrl/experiments/train_agent_async.py:66-141).  Which events come,
in which order and with which data, is left open. -/
def step (A : Algo θ ω δ γ) (w : World θ ω δ) : Event δ → World θ ω δ
  | .act p => w.put p (w.view p) (.acted p (w.view p).actsWith)
  | .update p d => w.put p ((w.view p).update A d) (.updated p (w.locals p) d w.shared ((w.view p).update A d).shared)
  | .save p => w.put p (w.view p) (.saved p (w.view p).save.1)

/-- The local network with which process `p` starts: forked from the parent's agent, or built by
`make_agent(p)`, whose `shared_attributes` only are replaced (pfrl/experiments/train_agent_async.py:280-287). -/
def startsWith (make : Option (Nat → θ)) (agent : Agent θ ω) (p : Nat) : θ := (make.map (fun f => f p)).getD agent.model

/-- Memory when the workers have been forked. -/
def begin (make : Option (Nat → θ)) (agent : Agent θ ω) : World θ ω δ :=
  ⟨agent.shared, agent.avg, agent.opt, startsWith make agent, []⟩

/-- Memory after the events `sched`. -/
def run (A : Algo θ ω δ γ) (make : Option (Nat → θ)) (agent : Agent θ ω) (sched : List (Event δ)) : World θ ω δ :=
  sched.foldl (step A) (begin make agent)

/-- The agent `train_agent_async` returns: the parent's, of which only the shared attributes have been written by
the workers (pfrl/experiments/train_agent_async.py:321-328). -/
def returned (A : Algo θ ω δ γ) (make : Option (Nat → θ)) (agent : Agent θ ω) (sched : List (Event δ)) : Agent θ ω :=
  ⟨(run A make agent sched).shared, (run A make agent sched).avg, (run A make agent sched).opt, agent.model⟩

/-! ## Specification -/

/-- The entry is an update by process `p`. -/
def Spec.IsUpdateBy (p : Nat) : Entry θ δ → Prop
  | .updated q _ _ _ _ => q = p
  | _ => False

/-- The entry is an update. -/
def Spec.IsUpdate : Entry θ δ → Prop
  | .updated _ _ _ _ _ => True
  | _ => False

/-- `m` is what the shared network became at the last update process `p` made before, or, if it made none,
the network `m0` it started with. -/
def Spec.OwnLast (m0 : θ) (p : Nat) (before : List (Entry θ δ)) (m : θ) : Prop :=
  (m = m0 ∧ ∀ e ∈ before, ¬ Spec.IsUpdateBy p e) ∨
  ∃ older newer l d b, before = older ++ Entry.updated p l d b m :: newer ∧ ∀ e ∈ newer, ¬ Spec.IsUpdateBy p e

/-- `m` is what the shared network became at the last update any process made, or `m0` if there was none. -/
def Spec.Last (m0 : θ) (before : List (Entry θ δ)) (m : θ) : Prop :=
  (m = m0 ∧ ∀ e ∈ before, ¬ Spec.IsUpdate e) ∨
  ∃ older newer p l d b, before = older ++ Entry.updated p l d b m :: newer ∧ ∀ e ∈ newer, ¬ Spec.IsUpdate e

/-- The network of worker `p` when training starts: what the given agent acts with, or what `make_agent(p)` acts with. -/
def Spec.initial : Option (Nat → θ) → Agent θ ω → Nat → θ
  | none, agent, _ => agent.actsWith
  | some f, _, p => f p

/-! ## Lemmas -/

theorem startsWith_eq (make : Option (Nat → θ)) (agent : Agent θ ω) (p : Nat) :
    startsWith make agent p = Spec.initial make agent p := by cases make <;> rfl

theorem ownLast_snoc {m0 : θ} {p : Nat} {l : List (Entry θ δ)} {m : θ} (h : Spec.OwnLast m0 p l m) {e : Entry θ δ}
    (he : ¬ Spec.IsUpdateBy p e) : Spec.OwnLast m0 p (l ++ [e]) m := by
  rcases h with ⟨h1, h2⟩ | ⟨o, n, l', d, b, h1, h2⟩
  · left
    refine ⟨h1, fun x hx => ?_⟩
    rcases List.mem_append.1 hx with hx | hx
    · exact h2 x hx
    · rw [List.mem_singleton.1 hx]; exact he
  · right
    refine ⟨o, n ++ [e], l', d, b, by simp [h1], fun x hx => ?_⟩
    rcases List.mem_append.1 hx with hx | hx
    · exact h2 x hx
    · rw [List.mem_singleton.1 hx]; exact he

theorem last_snoc {m0 : θ} {l : List (Entry θ δ)} {m : θ} (h : Spec.Last m0 l m) {e : Entry θ δ}
    (he : ¬ Spec.IsUpdate e) : Spec.Last m0 (l ++ [e]) m := by
  rcases h with ⟨h1, h2⟩ | ⟨o, n, q, l', d, b, h1, h2⟩
  · left
    refine ⟨h1, fun x hx => ?_⟩
    rcases List.mem_append.1 hx with hx | hx
    · exact h2 x hx
    · rw [List.mem_singleton.1 hx]; exact he
  · right
    refine ⟨o, n ++ [e], q, l', d, b, by simp [h1], fun x hx => ?_⟩
    rcases List.mem_append.1 hx with hx | hx
    · exact h2 x hx
    · rw [List.mem_singleton.1 hx]; exact he

theorem run_snoc (A : Algo θ ω δ γ) (make : Option (Nat → θ)) (agent : Agent θ ω) (s : List (Event δ)) (e : Event δ) :
    run A make agent (s ++ [e]) = step A (run A make agent s) e := by simp [run]

/-- Memory agrees with the observations. -/
theorem memory (A : Algo θ ω δ γ) (make : Option (Nat → θ)) (agent : Agent θ ω) (s : List (Event δ)) :
    (∀ p, Spec.OwnLast (startsWith make agent p) p (run A make agent s).log ((run A make agent s).locals p)) ∧
    Spec.Last agent.shared (run A make agent s).log (run A make agent s).shared := by
  induction s using List.reverseRecOn with
  | nil => exact ⟨fun p => Or.inl ⟨rfl, by simp [run, begin]⟩, Or.inl ⟨rfl, by simp [run, begin]⟩⟩
  | append_singleton s e ih =>
    rw [run_snoc]
    obtain ⟨h1, h2⟩ := ih
    cases e with
    | act p =>
      refine ⟨fun q => ?_, last_snoc h2 (by simp [Spec.IsUpdate])⟩
      have hl : (step A (run A make agent s) (.act p)).locals q = (run A make agent s).locals q := by
        simp only [step, World.put, World.view]
        split_ifs with h
        · rw [h]
        · rfl
      rw [hl]
      exact ownLast_snoc (h1 q) (by simp [Spec.IsUpdateBy])
    | save p =>
      refine ⟨fun q => ?_, last_snoc h2 (by simp [Spec.IsUpdate])⟩
      have hl : (step A (run A make agent s) (.save p)).locals q = (run A make agent s).locals q := by
        simp only [step, World.put, World.view]
        split_ifs with h
        · rw [h]
        · rfl
      rw [hl]
      exact ownLast_snoc (h1 q) (by simp [Spec.IsUpdateBy])
    | update p d =>
      refine ⟨fun q => ?_, Or.inr ⟨_, [], p, _, d, _, rfl, by simp⟩⟩
      by_cases h : q = p
      · subst h
        have hl : (step A (run A make agent s) (.update q d)).locals q =
            (((run A make agent s).view q).update A d).shared := by
          simp only [step, World.put]
          split_ifs with h
          · rfl
          · exact absurd trivial h
        rw [hl]
        exact Or.inr ⟨_, [], _, d, _, rfl, by simp⟩
      · have hl : (step A (run A make agent s) (.update p d)).locals q = (run A make agent s).locals q := by
          simp only [step, World.put]
          split_ifs
          rfl
        rw [hl]
        exact ownLast_snoc (h1 q) (fun hc => h hc.symm)

/-- A split of an extended list at an element is a split at the new element or a split of the old list. -/
theorem snoc_split {α : Type} {l pre post : List α} {e x : α} (h : l ++ [e] = pre ++ x :: post) :
    (pre = l ∧ x = e ∧ post = []) ∨ ∃ post', post = post' ++ [e] ∧ l = pre ++ x :: post' := by
  rcases List.eq_nil_or_concat post with rfl | ⟨post', b, rfl⟩
  · left
    have := List.append_inj' h (by simp)
    simp only [List.cons.injEq, and_true] at this
    exact ⟨this.1.symm, this.2.symm, rfl⟩
  · right
    have h' : l ++ [e] = (pre ++ x :: post') ++ [b] := by simpa using h
    have := List.append_inj' h' (by simp)
    simp only [List.cons.injEq, and_true] at this
    exact ⟨post', by simp [this.2], this.1⟩

theorem log_snoc (A : Algo θ ω δ γ) (w : World θ ω δ) (e : Event δ) : ∃ x, (step A w e).log = w.log ++ [x] := by
  cases e <;> exact ⟨_, rfl⟩

/-! ## C130 -/

/-- **C130** Whatever the schedule: the network with which a worker chooses an action, the network whose loss it
differentiates and the network it saves are what the shared network became at that worker's own last update, or,
before its first update, the network it started with. -/
theorem workers_use_own_last_update (A : Algo θ ω δ γ) (make : Option (Nat → θ)) (agent : Agent θ ω)
    (sched : List (Event δ)) {before after : List (Entry θ δ)} {e : Entry θ δ} {p : Nat} {m : θ}
    (hlog : (run A make agent sched).log = before ++ e :: after)
    (he : e = .acted p m ∨ e = .saved p m ∨ ∃ d b a, e = .updated p m d b a) :
    Spec.OwnLast (Spec.initial make agent p) p before m := by
  rw [← startsWith_eq]
  induction sched using List.reverseRecOn generalizing after with
  | nil => simp [run, begin] at hlog
  | append_singleton s ev ih =>
    rw [run_snoc] at hlog
    obtain ⟨x, hx⟩ := log_snoc A (run A make agent s) ev
    rw [hx] at hlog
    rcases snoc_split hlog with ⟨h1, h2, -⟩ | ⟨post', -, h⟩
    · rw [h1]
      have key : m = (run A make agent s).locals p := by
        cases ev with
        | act q =>
          have : x = .acted q ((run A make agent s).locals q) := by
            simpa [step, World.put, World.view, Agent.actsWith] using hx.symm
          rw [← h2] at this
          rcases he with he | he | ⟨d, b, a, he⟩
          · rw [this] at he; injection he with h3 h4; rw [← h4, h3]
          · rw [this] at he; cases he
          · rw [this] at he; cases he
        | save q =>
          have : x = .saved q ((run A make agent s).locals q) := by
            simpa [step, World.put, World.view, Agent.save] using hx.symm
          rw [← h2] at this
          rcases he with he | he | ⟨d, b, a, he⟩
          · rw [this] at he; cases he
          · rw [this] at he; injection he with h3 h4; rw [← h4, h3]
          · rw [this] at he; cases he
        | update q d' =>
          have : x = .updated q ((run A make agent s).locals q) d' (run A make agent s).shared
              (((run A make agent s).view q).update A d').shared := by
            simpa [step, World.put] using hx.symm
          rw [← h2] at this
          rcases he with he | he | ⟨d, b, a, he⟩
          · rw [this] at he; cases he
          · rw [this] at he; cases he
          · rw [this] at he; injection he with h3 h4; rw [← h4, h3]
      rw [key]
      exact (memory A make agent s).1 p
    · exact ih h

/-- **C130** Whatever the schedule: every update starts from what the last update, by whichever process, made of the
shared network, and moves it by one optimiser step along the gradient of the worker's own loss; the agent
returned holds, as `shared_model`, the result of all updates. -/
theorem updates_are_chained (A : Algo θ ω δ γ) (make : Option (Nat → θ)) (agent : Agent θ ω) (sched : List (Event δ)) :
    (∀ before after p m d b a, (run A make agent sched).log = before ++ Entry.updated p m d b a :: after →
      Spec.Last agent.shared before b ∧ ∃ o, a = (A.opt b o (A.grad m d)).1) ∧
    Spec.Last agent.shared (run A make agent sched).log (returned A make agent sched).shared := by
  refine ⟨?_, (memory A make agent sched).2⟩
  intro before after p m d b a hlog
  induction sched using List.reverseRecOn generalizing after with
  | nil => simp [run, begin] at hlog
  | append_singleton s ev ih =>
    rw [run_snoc] at hlog
    obtain ⟨x, hx⟩ := log_snoc A (run A make agent s) ev
    rw [hx] at hlog
    rcases snoc_split hlog with ⟨h1, h2, -⟩ | ⟨post', -, h⟩
    · rw [h1]
      cases ev with
      | act q =>
        have : x = .acted q ((run A make agent s).locals q) := by
          simpa [step, World.put, World.view, Agent.actsWith] using hx.symm
        rw [this] at h2; cases h2
      | save q =>
        have : x = .saved q ((run A make agent s).locals q) := by
          simpa [step, World.put, World.view, Agent.save] using hx.symm
        rw [this] at h2; cases h2
      | update q d' =>
        have : x = .updated q ((run A make agent s).locals q) d' (run A make agent s).shared
            (((run A make agent s).view q).update A d').shared := by
          simpa [step, World.put] using hx.symm
        rw [this] at h2
        injection h2 with h3 h4 h5 h6 h7
        rw [h6, h7, h4, h5]
        exact ⟨(memory A make agent s).2, _, rfl⟩
    · exact ih _ h

/-- With one worker, made from the agent given, what it acts with and saves is the newest shared network.  With
more workers it need not be, see `saved_agent_stale`. -/
theorem saves_newest_partial (A : Algo θ ω δ γ) (agent : Agent θ ω) (hagent : agent.model = agent.shared)
    (sched : List (Event δ)) (hone : ∀ e ∈ sched, e = .act 0 ∨ e = .save 0 ∨ ∃ d, e = .update 0 d) :
    (run A none agent sched).locals 0 = (run A none agent sched).shared := by
  induction sched using List.reverseRecOn with
  | nil => simpa [run, begin, startsWith] using hagent
  | append_singleton s e ih =>
    rw [run_snoc]
    have ih' := ih (fun x hx => hone x (by simp [hx]))
    rcases hone e (by simp) with rfl | rfl | ⟨d, rfl⟩
    · simpa [step, World.put, World.view] using ih'
    · simpa [step, World.put, World.view] using ih'
    · simp [step, World.put, Agent.update, Agent.sync]

/-- **C130 (disagreement)** Whatever was learnt, the agent `train_agent_async` returns acts with, and saves, the
network it had before the training. -/
theorem returned_agent_untrained (A : Algo θ ω δ γ) (make : Option (Nat → θ)) (agent : Agent θ ω)
    (sched : List (Event δ)) :
    (returned A make agent sched).actsWith = agent.actsWith ∧
    (returned A make agent sched).save.1 = agent.actsWith := ⟨rfl, rfl⟩

/-- After `sync_parameters()` the returned agent acts with and saves the result of all updates. -/
theorem returned_agent_trained_partial (A : Algo θ ω δ γ) (make : Option (Nat → θ)) (agent : Agent θ ω)
    (sched : List (Event δ)) :
    Spec.Last agent.shared (run A make agent sched).log ((returned A make agent sched).sync A).actsWith ∧
    Spec.Last agent.shared (run A make agent sched).log ((returned A make agent sched).sync A).save.1 :=
  ⟨(memory A make agent sched).2, (memory A make agent sched).2⟩

/-- An agent loaded before the training and given as `agent`: every worker acts with what was loaded until its first
update, and the first update of all starts from what was loaded. -/
theorem resumes_from_loaded_partial (A : Algo θ ω δ γ) (agent : Agent θ ω) (file : θ × ω) (sched : List (Event δ)) :
    (∀ before after p m, (run A none (agent.load file) sched).log = before ++ Entry.acted p m :: after →
      (∀ e ∈ before, ¬ Spec.IsUpdateBy p e) → m = file.1) ∧
    (∀ before after p m d b a,
      (run A none (agent.load file) sched).log = before ++ Entry.updated p m d b a :: after →
      (∀ e ∈ before, ¬ Spec.IsUpdate e) → m = file.1 ∧ b = file.1) := by
  constructor
  · intro before after p m hlog hno
    rcases workers_use_own_last_update A none (agent.load file) sched hlog (Or.inl rfl) with h | ⟨o, n, l, d, b, h, -⟩
    · exact h.1
    · exact absurd rfl (hno (.updated p l d b m) (by simp [h]))
  · intro before after p m d b a hlog hno
    constructor
    · rcases workers_use_own_last_update A none (agent.load file) sched hlog (Or.inr (Or.inr ⟨_, _, _, rfl⟩)) with
        h | ⟨o, n, l, d', b', h, -⟩
      · exact h.1
      · exact absurd trivial (hno (.updated p l d' b' m) (by simp [h]))
    · rcases ((updates_are_chained A none (agent.load file) sched).1 _ _ _ _ _ _ _ hlog).1 with
        h | ⟨o, n, q, l, d', b', h, -⟩
      · exact h.1
      · exact absurd trivial (hno (.updated q l d' b' b) (by simp [h]))

/-! ### Disagreements -/

/-- A one-parameter network, data are gradients, plain gradient descent with rate 1, no average network. -/
def exampleAlgo : Algo Int Unit Int Int := ⟨fun _ d => d, fun θ _ g => (θ - g, ()), fun a _ => a⟩

/-- As `exampleAlgo`, with an average network that keeps half of its value (`ACER`, doubled to stay in `Int`). -/
def exampleAcer : Algo Int Unit Int Int := ⟨fun _ d => d, fun θ _ g => (θ - g, ()), fun a m => (a + m) / 2⟩

/-- **C130 (disagreement)** Training moved the shared network from 0 to -3, the agent returned acts with 0. -/
theorem returned_agent_not_trained :
    (returned exampleAlgo none (construct 0 ()) [.act 0, .update 0 1, .act 1, .update 1 2]).shared = -3 ∧
    (returned exampleAlgo none (construct 0 ()) [.act 0, .update 0 1, .act 1, .update 1 2]).actsWith = 0 := by
  decide

/-- **C130 (disagreement)** The agent saved at the end lacks the updates other workers made since the saving worker's
last one: shared network -3, saved -1. -/
theorem saved_agent_stale :
    (run exampleAlgo none (construct 0 ()) [.update 0 1, .update 1 2, .act 0, .save 0]).log.getLast? =
      some (.saved 0 (-1)) ∧
    (run exampleAlgo none (construct 0 ()) [.update 0 1, .update 1 2, .act 0, .save 0]).shared = -3 := ⟨rfl, rfl⟩

/-- **C130 (disagreement)** With `make_agent`, a loaded agent is not what the workers start from: 7 was loaded, worker 1
acts with the fresh network 5 that `make_agent(1)` built, and the gradient of that network is applied to 7. -/
theorem resumed_worker_acts_fresh :
    (run exampleAlgo (some (fun p => 4 + p)) ((construct 0 ()).load (7, ())) [.act 1, .update 1 2]).log =
      [.acted 1 5, .updated 1 5 2 7 5] := rfl

/-- **C130 (disagreement)** `load` leaves the average network of `ACER`, towards which its updates are kept close, as it
was built: the network loaded is 8, the average one still 0. -/
theorem loaded_average_untrained (a : Agent θ ω) (file : θ × ω) :
    (a.load file).avg = a.avg ∧ (a.load file).shared = file.1 ∧ (a.load file).actsWith = file.1 := ⟨rfl, rfl, rfl⟩

/-! ## Non-vacuity -/

/-- Two workers: worker 1 still acts with what it started with after worker 0 updated; each saves its own. -/
example : (run exampleAlgo none (construct 10 ()) [.act 0, .update 0 1, .act 1, .act 0, .update 1 2, .act 1, .save 0]).log =
    [.acted 0 10, .updated 0 10 1 10 9, .acted 1 10, .acted 0 9, .updated 1 10 2 9 7, .acted 1 7, .saved 0 9] := rfl

/-- The cases of `workers_use_own_last_update`. -/
example : (run exampleAlgo none (construct 10 ()) [.act 0, .update 0 1, .act 0]).log =
    [.acted 0 10, .updated 0 10 1 10 9] ++ Entry.acted 0 9 :: [] ∧
    Spec.OwnLast (10 : Int) 0 [.acted 0 10, .updated 0 10 (1 : Int) 10 9] 9 :=
  ⟨rfl, Or.inr ⟨[.acted 0 10], [], 10, 1, 10, rfl, by simp⟩⟩

/-- One worker: what it has is the newest. -/
example : (run exampleAlgo none (construct 10 ()) [.act 0, .update 0 1, .act 0, .update 0 3, .save 0]).shared = 6 ∧
    (run exampleAlgo none (construct 10 ()) [.act 0, .update 0 1, .act 0, .update 0 3, .save 0]).log.getLast? =
      some (.saved 0 6) := ⟨rfl, rfl⟩

/-- Synchronised, the returned agent has what was learnt. -/
example : ((returned exampleAlgo none (construct 0 ()) [.act 0, .update 0 1, .act 1, .update 1 2]).sync exampleAlgo).actsWith =
    -3 := rfl

/-- A loaded agent given as `agent` is where all workers start. -/
example : (run exampleAlgo none ((construct 0 ()).load (7, ())) [.act 1, .update 1 2, .act 0]).log =
    [.acted 1 7, .updated 1 7 2 7 5, .acted 0 7] := rfl

/-- The average network after `load` and after the first update. -/
example : ((construct (0 : Int) ()).load (8, ())).avg = 0 ∧
    (run exampleAcer none ((construct 0 ()).load (8, ())) [.update 0 0]).avg = 4 := ⟨rfl, by decide⟩

end Pfrl.Train.Workers
