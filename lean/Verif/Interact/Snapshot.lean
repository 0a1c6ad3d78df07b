import Verif.Interact.Props
import Verif.Weights.Props

/-!
# Resuming a DQN from a snapshot

Model of `DQN.save_snapshot` and `DQN.load_snapshot` (`pfrl/agents/dqn.py:794-810`) on top of the model of
`batch_act`/`batch_observe` and of `ReplayBuffer`.  A snapshot holds the saved attributes (the networks and
the optimizer, `dqn.py:165`), `t`, `optim_t`, `_cumulative_steps` and the memory of the replay buffer; it
holds neither the transitions which still wait for their n-step windows, nor the last observations and
actions, nor the `beta` of a prioritized buffer, nor the state of the random generators.  Files are trusted
to give back what was written (saved attributes: C59; the memory: C64).
-/

namespace Pfrl.Interact.Snapshot

variable {O A R N X : Type _}

/-! ## Model -/

/-- The replay buffer of the agent. -/
abbrev Buffer (O A R : Type _) := Replay.RB Nat (O × A × R × O) (Queue.RAQ (List (Replay.Tr (O × A × R × O))))

/-- What updates change: `nets` are the saved attributes, `optimT` is `optim_t`, `rest` is everything the
snapshot does not hold (random generators, statistics, the state of the explorer). -/
structure Learner (N X : Type _) where
  nets : N
  optimT : Nat
  rest : X
  deriving DecidableEq, Repr

/-- A DQN, `dqn.py:181-276`: the agent of `Verif.Interact` with its buffer and its learner, and
`_cumulative_steps`. -/
structure Dqn (O A R N X : Type _) where
  agent : Agent O A (Buffer O A R × Learner N X)
  cumulative : Nat

/-- `DQN.__init__`, `dqn.py:181-276`. -/
def Dqn.new (b : Buffer O A R) (l : Learner N X) : Dqn O A R N X := ⟨Agent.new (b, l), 0⟩

/-- `self._cumulative_steps += 1` for every row observed in training mode, `dqn.py:519`. -/
def counted : Ev O A R → Nat
  | .observe true rows => rows.length
  | _ => 0

/-- One call of `batch_act` or `batch_observe`, `dqn.py:490-593`; `other` is what synchronisations and
updates do with the buffer. -/
def Dqn.call (interval : Option Nat) (other : Buffer O A R → Learner N X → Eff O A R → Except PyErr (Learner N X))
    (d : Dqn O A R N X) (e : Ev O A R) : Except PyErr (Dqn O A R N X) :=
  (run interval (withBuffer Queue.RAQ.append other) d.agent [e]).map fun a => ⟨a, d.cumulative + counted e⟩

/-- A history of calls. -/
def Dqn.run (interval : Option Nat) (other : Buffer O A R → Learner N X → Eff O A R → Except PyErr (Learner N X)) :
    Dqn O A R N X → List (Ev O A R) → Except PyErr (Dqn O A R N X)
  | d, [] => .ok d
  | d, e :: h => (d.call interval other e).bind fun d' => Dqn.run interval other d' h

/-- The files written by `save_snapshot`. -/
structure Files (O A R N : Type _) where
  nets : N
  t : Nat
  optimT : Nat
  cumulative : Nat
  buffer : Replay.PickleFile (List (Replay.Tr (O × A × R × O)))

/-- `save_snapshot`, `dqn.py:794-801`. -/
def Dqn.saveSnapshot (d : Dqn O A R N X) : Files O A R N :=
  ⟨d.agent.world.2.nets, d.agent.t, d.agent.world.2.optimT, d.cumulative, d.agent.world.1.save⟩

/-- `load_snapshot`, `dqn.py:803-810`. -/
def Dqn.loadSnapshot (f : Files O A R N) (d : Dqn O A R N X) : Except PyErr (Dqn O A R N X) :=
  (d.agent.world.1.load f.buffer).map fun b =>
    ⟨{ d.agent with t := f.t, world := (b, { d.agent.world.2 with nets := f.nets, optimT := f.optimT }) },
     f.cumulative⟩

/-! ## Specification -/

/-- What a user can compare: the number of steps, the cumulative number of steps, the buffer, the networks
with the optimizer, the number of updates, and the rest. -/
def Spec.view (d : Dqn O A R N X) : Nat × Nat × Buffer O A R × Learner N X :=
  (d.agent.t, d.cumulative, d.agent.world.1, d.agent.world.2)

/-- No episode is running at the end of a history: for every environment the last thing it went through is
the end of an episode (or it went through nothing). -/
def Spec.BetweenEpisodes (h : List (Ev O A R)) : Prop :=
  ∀ i, ∀ x, (Spec.experience i none h).getLast? = some x → x = none

/-! ## Lemmas -/

theorem run_eq (interval : Option Nat)
    (other : Buffer O A R → Learner N X → Eff O A R → Except PyErr (Learner N X)) :
    ∀ (h : List (Ev O A R)) (d : Dqn O A R N X), d.run interval other h
      = (Interact.run interval (withBuffer Queue.RAQ.append other) d.agent h).map
          fun a => ⟨a, d.cumulative + Spec.steps h⟩
  | [], d => by simp [Dqn.run, Interact.run, Except.map, Spec.steps]
  | .act tr obs acts :: h, d => by
    simp only [Dqn.run, Dqn.call, Interact.run, Except.map, Except.bind, counted, Spec.steps]
    rw [run_eq interval other h]
    simp [Except.map]
  | .observe tr rows :: h, d => by
    simp only [Dqn.run, Dqn.call, Interact.run]
    cases ho : d.agent.observe interval (withBuffer Queue.RAQ.append other) tr rows with
    | error e => rfl
    | ok a =>
      simp only [Except.map, Except.bind]
      rw [run_eq interval other h]
      cases tr <;> simp [Except.map, counted, Spec.steps, Nat.add_assoc]

theorem run_forget {W : Type _} (interval : Option Nat) (perform : W → Eff O A R → Except PyErr W) :
    ∀ (h : List (Ev O A R)) (a : Agent O A W), Spec.Protocol none h →
      (Interact.run interval perform a h).map (fun a => (a.t, a.world))
        = (Interact.run interval perform ((Agent.new a.world).resumed a.t) h).map (fun a => (a.t, a.world))
  | [], a, _ => rfl
  | .act true obs acts :: h, a, _ => by
    simp [Interact.run, Agent.act, Agent.new, Agent.resumed]
  | .act false obs acts :: h, a, hp => by
    simp only [Interact.run, Agent.act]
    exact run_forget interval perform h a hp
  | .observe true rows :: h, a, hp => by
    obtain ⟨⟨p, hp, _⟩, _⟩ := hp
    cases hp
  | .observe false rows :: h, a, hp => by
    simp only [Interact.run, Agent.observe]
    exact run_forget interval perform h a hp

theorem map_view (interval : Option Nat)
    (other : Buffer O A R → Learner N X → Eff O A R → Except PyErr (Learner N X)) (h : List (Ev O A R))
    (hp : Spec.Protocol none h) {d d' : Dqn O A R N X} (ht : d'.agent.t = d.agent.t)
    (hc : d'.cumulative = d.cumulative) (hw : d'.agent.world = d.agent.world) :
    (d'.run interval other h).map Spec.view = (d.run interval other h).map Spec.view := by
  rw [run_eq, run_eq]
  have e1 := run_forget interval (withBuffer Queue.RAQ.append other) h d.agent hp
  have e2 := run_forget interval (withBuffer Queue.RAQ.append other) h d'.agent hp
  rw [ht, hw, ← e1] at e2
  revert e2
  cases Interact.run interval (withBuffer Queue.RAQ.append other) d.agent h <;>
    cases Interact.run interval (withBuffer Queue.RAQ.append other) d'.agent h <;>
    simp_all [Except.map, Spec.view]

theorem current_nil {cs : List (Option (Replay.Tr (O × A × R × O)))}
    (h : ∀ x, cs.getLast? = some x → x = none) : (Replay.Spec.episodes cs).current = [] := by
  rcases List.eq_nil_or_concat cs with rfl | ⟨l, x, rfl⟩
  · rfl
  · have : x = none := h x (by simp)
    subst this
    rw [List.concat_eq_append, Replay.episodes_snoc, Replay.Spec.Episodes.next]
    split
    · assumption
    · rfl

/-- After a history, the memory and the pending windows of the buffer. -/
theorem after (interval : Option Nat) (hk : interval ≠ some 0)
    (other : Buffer O A R → Learner N X → Eff O A R → Except PyErr (Learner N X))
    {c : Option Nat} {n : Nat} (hn : 0 < n) {b0 : Buffer O A R} (hb : Replay.Inv n [] b0) {l0}
    (hs : Queue.Sim c b0.memory l0) (v : Learner N X) (offset : Nat) (h : List (Ev O A R))
    (hp : Spec.Protocol none h) {a}
    (ha : Interact.run interval (withBuffer Queue.RAQ.append other) ((Agent.new (b0, v)).resumed offset) h = .ok a) :
    ∃ log : List (Nat × List (Replay.Tr (O × A × R × O))),
      a.t = offset + Spec.steps h ∧
      Queue.Sim c a.world.1.memory (Queue.Spec.keep c (l0 ++ log.map Prod.snd)) ∧
      (∀ i, Replay.Spec.ofEnv i log
        = Replay.Spec.stored n ((Spec.experience i none h).map (Option.map Spec.asBufferTr))) ∧
      a.world.1.numSteps = n ∧
      (Spec.BetweenEpisodes h → ∀ i, a.world.1.last i = []) := by
  obtain ⟨⟨los, las, hrun⟩, _⟩ := interaction_schedule hk (withBuffer Queue.RAQ.append other) offset h hp
  rw [hrun] at ha
  cases hw : performAll (withBuffer Queue.RAQ.append other) (b0, v) (Spec.trace interval offset none h) with
  | error e => rw [hw] at ha; cases ha
  | ok w =>
    rw [hw] at ha
    cases ha
    have hr := withBuffer_run Queue.RAQ.append other _ b0 v hw
    obtain ⟨q, h4, h5⟩ := Replay.pushAll_raq ((Replay.Spec.log n [] ((Spec.trace interval offset none h).filterMap Spec.bufferOp)).map Prod.snd) hs
    have h6 := Replay.run_spec Queue.RAQ.append hn ((Spec.trace interval offset none h).filterMap Spec.bufferOp) hb
    rw [h4, hr] at h6
    obtain ⟨b', g1, g2, g3⟩ := h6
    cases g1
    have hcalls : ∀ i, Replay.Spec.calls i ((Spec.trace interval offset none h).filterMap Spec.bufferOp)
        = (Spec.experience i none h).map (Option.map Spec.asBufferTr) := by
      intro i
      rw [calls_bufferOps, stored_transitions interval offset h hp]
    refine ⟨Replay.Spec.log n [] ((Spec.trace interval offset none h).filterMap Spec.bufferOp), rfl, ?_, ?_, g3.1, ?_⟩
    · rw [g2]; exact h5
    · intro i
      obtain ⟨_, _, _, _, _, g4⟩ := Replay.replay_buffer_stores_windows c hn ((Spec.trace interval offset none h).filterMap Spec.bufferOp)
      rw [g4 i, hcalls]
    · intro hbe i
      rw [g3.2 i, List.nil_append, hcalls, current_nil]
      · simp [Replay.tailN]
      · intro x hx
        rw [List.getLast?_map, Option.map_eq_some_iff] at hx
        obtain ⟨y, hy, rfl⟩ := hx
        rw [hbe i y hy]
        rfl

/-! ## C122 -/

/-- **C122** (between episodes).  Save a snapshot after any history at the end of which no episode is
running.  Loading it into a new agent with the same `num_steps` (whatever its own networks and the capacity
of its own buffer) never fails, and if the random generators are the ones of the first agent, every further
history gives the same steps, buffer, networks, optimizer and update counter, or the same exception, as if
the first agent had gone on.  Missing (see `snapshot_loses_window`): snapshots in the middle of an episode. -/
theorem snapshot_resume_partial {interval : Option Nat} (hk : interval ≠ some 0) (c c' : Option Nat) {n : Nat}
    (hn : 0 < n) (other : Buffer O A R → Learner N X → Eff O A R → Except PyErr (Learner N X))
    (l l' : Learner N X) (h1 h2 : List (Ev O A R)) (hp1 : Spec.Protocol none h1) (hp2 : Spec.Protocol none h2)
    (hb : Spec.BetweenEpisodes h1) :
    ∃ b b', Replay.RB.new (c.map Int.ofNat) n = .ok b ∧ Replay.RB.new (c'.map Int.ofNat) n = .ok b' ∧
      ∀ d, (Dqn.new b l).run interval other h1 = .ok d →
        ∃ d', (Dqn.new b' l').loadSnapshot d.saveSnapshot = .ok d' ∧
          d'.agent.world.2.rest = l'.rest ∧
          (l'.rest = d.agent.world.2.rest →
            (d'.run interval other h2).map Spec.view = (d.run interval other h2).map Spec.view) := by
  obtain ⟨b, g1, g2, g3⟩ := Replay.new_ok (ε := Nat) (π := O × A × R × O) c hn
  obtain ⟨b', g1', g2', g3'⟩ := Replay.new_ok (ε := Nat) (π := O × A × R × O) c' hn
  refine ⟨b, b', g1, g1', ?_⟩
  intro d hd
  rw [run_eq] at hd
  cases ha : Interact.run interval (withBuffer Queue.RAQ.append other) (Dqn.new b l).agent h1 with
  | error e => rw [ha] at hd; cases hd
  | ok a =>
    rw [ha] at hd
    cases hd
    obtain ⟨_, _, _, _, k1, k2⟩ := after interval hk other hn g2 g3 l 0 h1 hp1 ha
    refine ⟨_, rfl, rfl, ?_⟩
    intro hr
    refine map_view interval other h2 hp2 rfl rfl ?_
    have e1 : b'.numSteps = a.world.1.numSteps := by rw [g2'.1, k1]
    have e2 : b'.last = a.world.1.last := by
      funext i
      rw [g2'.2 i, k2 hb i]
      simp [Replay.tailN, Replay.Spec.calls, Replay.Spec.episodes]
    show (({ b' with memory := a.world.1.memory } : Buffer O A R), ({ l' with nets := a.world.2.nets, optimT := a.world.2.optimT } : Learner N X)) = a.world
    rw [show ({ b' with memory := a.world.1.memory } : Buffer O A R) = a.world.1 by
      cases b'; cases hm : a.world.1; simp_all]
    rw [show ({ l' with nets := a.world.2.nets, optimT := a.world.2.optimT } : Learner N X) = a.world.2 by
      cases l'; cases hm : a.world.2; simp_all]

/-- **C122** (any snapshot).  Save a snapshot after any history, in the middle of episodes or not, and load
it into a new agent with the same `num_steps`: after any further history without exception, the step counters
go on from those of the snapshot, the buffer has the capacity of the saved one, and for every environment it
has received the windows of the episodes before the snapshot, then those of the episodes after it: the
transitions before the snapshot which did not yet have their window are lost. -/
theorem snapshot_resume_any {interval : Option Nat} (hk : interval ≠ some 0) (c c' : Option Nat) {n : Nat}
    (hn : 0 < n) (other : Buffer O A R → Learner N X → Eff O A R → Except PyErr (Learner N X))
    (l l' : Learner N X) (h1 h2 : List (Ev O A R)) (hp1 : Spec.Protocol none h1) (hp2 : Spec.Protocol none h2) :
    ∃ b b', Replay.RB.new (c.map Int.ofNat) n = .ok b ∧ Replay.RB.new (c'.map Int.ofNat) n = .ok b' ∧
      ∀ d, (Dqn.new b l).run interval other h1 = .ok d →
        ∃ d', (Dqn.new b' l').loadSnapshot d.saveSnapshot = .ok d' ∧
          d'.agent.world.2 = ⟨d.agent.world.2.nets, d.agent.world.2.optimT, l'.rest⟩ ∧
          ∀ e, d'.run interval other h2 = .ok e →
            e.agent.t = Spec.steps h1 + Spec.steps h2 ∧ e.cumulative = Spec.steps h1 + Spec.steps h2 ∧
            ∃ log1 log2 : List (Nat × List (Replay.Tr (O × A × R × O))),
              e.agent.world.1.memory.iter = Queue.Spec.keep c ((log1 ++ log2).map Prod.snd) ∧
              ∀ i, Replay.Spec.ofEnv i log1 = Replay.Spec.stored n
                  ((Spec.experience i none h1).map (Option.map Spec.asBufferTr)) ∧
                Replay.Spec.ofEnv i log2 = Replay.Spec.stored n
                  ((Spec.experience i none h2).map (Option.map Spec.asBufferTr)) := by
  obtain ⟨b, g1, g2, g3⟩ := Replay.new_ok (ε := Nat) (π := O × A × R × O) c hn
  obtain ⟨b', g1', g2', g3'⟩ := Replay.new_ok (ε := Nat) (π := O × A × R × O) c' hn
  refine ⟨b, b', g1, g1', ?_⟩
  intro d hd
  rw [run_eq] at hd
  cases ha : Interact.run interval (withBuffer Queue.RAQ.append other) (Dqn.new b l).agent h1 with
  | error e => rw [ha] at hd; cases hd
  | ok a =>
    rw [ha] at hd
    cases hd
    obtain ⟨log1, t1, k1, k2, k3, _⟩ := after interval hk other hn g2 g3 l 0 h1 hp1 ha
    refine ⟨_, rfl, rfl, ?_⟩
    intro e he
    rw [run_eq] at he
    cases ha2 : Interact.run interval (withBuffer Queue.RAQ.append other)
        ((Agent.new (({ b' with memory := a.world.1.memory } : Buffer O A R),
          ({ l' with nets := a.world.2.nets, optimT := a.world.2.optimT } : Learner N X))).resumed a.t) h2 with
    | error er =>
      have : (Except.error er : Except PyErr _) = .ok e := by
        rw [← he]; exact (congrArg (Except.map _) ha2).symm
      cases this
    | ok a2 =>
      have hee : e = ⟨a2, 0 + Spec.steps h1 + Spec.steps h2⟩ := by
        have : Except.ok e = (Except.ok a2 : Except PyErr _).map (fun a => (⟨a, 0 + Spec.steps h1 + Spec.steps h2⟩ : Dqn O A R N X)) := by
          rw [← he]; exact congrArg (Except.map _) ha2
        cases this
        rfl
      subst hee
      have hinv : Replay.Inv n [] ({ b' with memory := a.world.1.memory } : Buffer O A R) := ⟨g2'.1, g2'.2⟩
      obtain ⟨log2, t2, m1, m2, _, _⟩ := after interval hk other hn hinv k1 _ a.t h2 hp2 ha2
      refine ⟨by simp only [t2, t1]; omega, by simp, log1, log2, ?_, fun i => ⟨k2 i, m2 i⟩⟩
      rw [m1.1, List.nil_append, Queue.keep_append_keep, List.map_append]

/-- What synchronisations and updates do in the examples: count the updates. -/
def count (_ : Buffer Nat Nat Nat) (l : Learner Unit Unit) : Eff Nat Nat Nat → Except PyErr (Learner Unit Unit)
  | .update _ => .ok { l with optimT := l.optimT + 1 }
  | _ => .ok l

/-- The memory at the end of `h2` of the agent that goes on, and of the one resumed from a snapshot taken
after `h1`. -/
def twoWays (n : Int) (h1 h2 : List (Ev Nat Nat Nat)) :
    Except PyErr (List (List (Replay.Tr (Nat × Nat × Nat × Nat))) × List (List (Replay.Tr (Nat × Nat × Nat × Nat)))) :=
  (Replay.RB.new none n).bind fun b =>
    ((Dqn.new b ⟨(), 0, ()⟩).run (some 2) count h1).bind fun d =>
      (d.run (some 2) count h2).bind fun e =>
        ((Dqn.new b ⟨(), 0, ()⟩).loadSnapshot d.saveSnapshot).bind fun d' =>
          (d'.run (some 2) count h2).map fun e' => (e.agent.world.1.memory.iter, e'.agent.world.1.memory.iter)

/-- **C122** (the full statement is false).  With `num_steps = 2`, a snapshot in the middle of an episode
loses the window that starts with the last transition before the snapshot. -/
theorem snapshot_loses_window : ∃ h1 h2 : List (Ev Nat Nat Nat), Spec.Protocol none h1 ∧ Spec.Protocol none h2 ∧
    twoWays 2 h1 h2 = .ok
      ([[⟨(0, 7, 5, 1), false⟩, ⟨(1, 8, 6, 2), true⟩], [⟨(1, 8, 6, 2), true⟩]], [[⟨(1, 8, 6, 2), true⟩]]) :=
  ⟨[.act true [0] [7], .observe true [⟨1, 5, false, false⟩]],
   [.act true [1] [8], .observe true [⟨2, 6, true, false⟩]],
   ⟨rfl, ⟨_, rfl, rfl⟩, trivial⟩, ⟨rfl, ⟨_, rfl, rfl⟩, trivial⟩, by rfl⟩

/-- A `PrioritizedReplayBuffer`, `pfrl/replay_buffers/prioritized.py:69-115`: its memory and the attributes
it has as a `PriorityWeightError`. -/
structure Prioritized (M : Type _) where
  memory : M
  weights : Weights.PWE

/-- `save`, inherited: `replay_buffer.py:85-87`. -/
def Prioritized.save {M : Type _} (p : Prioritized M) : M := p.memory

/-- `load`, inherited: `replay_buffer.py:89-94`. -/
def Prioritized.load {M : Type _} (m : M) (p : Prioritized M) : Prioritized M := { p with memory := m }

/-- **C122** (prioritized buffer).  The annealing of `beta` is not part of the snapshot: whatever number of
batches was sampled before it, the resumed buffer starts again from `beta0`, although the saved buffer had a
larger `beta`. -/
theorem snapshot_restarts_beta {M : Type _} {alpha beta0 steps eps : ℝ} {norm : Weights.Norm} {emin emax : Option ℝ}
    {w : Weights.PWE} (hsteps : 0 < steps) (hbeta : beta0 < 1)
    (hnew : Weights.PWE.new alpha beta0 (some steps) eps norm emin emax = .ok w)
    {batches : List (Nat × List ℝ × ℝ)} (hne : batches ≠ []) {wss : List (List ℝ)} {w' : Weights.PWE}
    (hrun : w.run batches = .ok (wss, w')) (m0 m : M) :
    let resumed := (⟨m0, w⟩ : Prioritized M).load (⟨m, w'⟩ : Prioritized M).save
    resumed.memory = m ∧ resumed.weights.beta = beta0 ∧ beta0 < w'.beta := by
  refine ⟨rfl, ?_, ?_⟩
  · have := (Weights.beta_anneals hsteps hnew (batches := []) (wss := []) (w' := w) rfl).1
    simp only [Prioritized.load, this, List.length_nil, Nat.cast_zero, zero_mul, add_zero]
    exact min_eq_right hbeta.le
  · rw [(Weights.beta_anneals hsteps hnew hrun).1]
    have hl : (0 : ℝ) < batches.length := by exact_mod_cast List.length_pos_iff.mpr hne
    have : 0 < batches.length * ((1 - beta0) / steps) := by
      have := div_pos (sub_pos.mpr hbeta) hsteps
      positivity
    exact lt_min hbeta (by linarith)

/-! ## Non-vacuity -/

/-- A history with a finished episode and an evaluation. -/
def demo : List (Ev Nat Nat Nat) :=
  [.act true [0] [7], .observe true [⟨1, 5, false, false⟩], .act false [3] [4],
   .act true [1] [8], .observe true [⟨2, 6, false, true⟩]]

theorem demo_protocol : Spec.Protocol none demo :=
  ⟨rfl, ⟨_, rfl, rfl⟩, rfl, ⟨_, rfl, rfl⟩, trivial⟩

theorem demo_between : Spec.BetweenEpisodes demo := by
  intro i x
  rcases i with _ | i
  · rw [show (Spec.experience 0 none demo).getLast? = some none by decide +kernel]
    intro h; cases h; rfl
  · rw [show Spec.experience (i + 1) none demo = [] by simp [Spec.experience, demo]]
    intro h; cases h

example := snapshot_resume_partial (interval := some 2) (by decide) none (some 3) (n := 2) (by decide) count
  ⟨(), 0, ()⟩ ⟨(), 0, ()⟩ demo demo demo_protocol demo_protocol demo_between

/-- After the demo, both ways give the same memory. -/
example : ∃ m, twoWays 2 demo demo = .ok (m, m) ∧ m.length = 4 :=
  ⟨[[⟨(0, 7, 5, 1), false⟩, ⟨(1, 8, 6, 2), false⟩], [⟨(1, 8, 6, 2), false⟩],
    [⟨(0, 7, 5, 1), false⟩, ⟨(1, 8, 6, 2), false⟩], [⟨(1, 8, 6, 2), false⟩]], by rfl, rfl⟩

example := snapshot_resume_any (interval := some 2) (by decide) none (some 3) (n := 2) (by decide) count
  ⟨(), 0, ()⟩ ⟨(), 0, ()⟩ (demo.take 2) demo ⟨rfl, ⟨_, rfl, rfl⟩, trivial⟩ demo_protocol

end Pfrl.Interact.Snapshot
