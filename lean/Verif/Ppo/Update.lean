import Verif.Ppo.Loss
import Verif.Returns.Gae
import Verif.Numeric.EmpiricalNorm
import Mathlib.Analysis.Calculus.FDeriv.Add
import Mathlib.Analysis.Calculus.FDeriv.Mul
import Mathlib.Analysis.Calculus.FDeriv.Pow
import Mathlib.Analysis.SpecialFunctions.ExpDeriv
import Mathlib.Analysis.Calculus.Deriv.Pow

/-!
# A PPO update from the collected transitions to the first loss (C119)

Numbers are exact.  That the packed and sorted computation gives each transition the output of the machine at its own place is C77, and is
used here: the networks are run sequence by sequence.
-/

namespace Pfrl.Ppo.Update

open Pfrl.Ppo.Loss

variable {Θ σ O X A N : Type _}

/-! ## Model -/

/-- A model with policy and value function, as a machine: what it does with an observation, given its parameters and its recurrent state.
For a feed-forward model `σ` is a type with one element.  `start` is the recurrent state `None`. -/
structure Net (Θ σ X A : Type _) where
  start : σ
  step : Θ → σ → X → σ
  logProb : Θ → σ → X → A → ℝ
  value : Θ → σ → X → ℝ
  entropy : Θ → σ → X → ℝ

/-- An observation normaliser in state `N`: `obs_normalizer(x, update=False)` and `obs_normalizer.experience(xs)`.  Without normaliser,
`norm` forgets its first argument. -/
structure Normalizer (N O X : Type _) where
  norm : N → O → X
  learn : N → List O → N

/-- What happens in one environment between two calls of `batch_act`: the observation, the action taken, and what `batch_observe` is told. -/
structure Tick (O A : Type _) where
  obs : O
  action : A
  reward : ℝ
  next : O
  done : Bool
  reset : Bool

/-- A stored transition, `pfrl/agents/ppo.py:771-784`. -/
structure Tr (σ O A : Type _) where
  state : O
  action : A
  reward : ℝ
  nextState : O
  nonterminal : Bool
  rs : σ
  nextRs : σ

/-- A transition with what `_make_dataset` adds to it. -/
structure Entry (σ O A : Type _) where
  tr : Tr σ O A
  logProb : ℝ
  vPred : ℝ
  nextVPred : ℝ
  adv : ℝ
  vTeacher : ℝ

variable (net : Net Θ σ X A) (nz : Normalizer N O X)

/-- `_batch_act_train` and `_batch_observe_train`, `ppo.py:714-741` and `756-793`, in one environment while the parameters `θ` and the
normaliser `ν` do not change, and `_flush_last_episode`, lines 450-458, at the end: the episodes in the memory.  `s` is the recurrent
state, `cur` the episode so far. -/
def collect (θ : Θ) (ν : N) (s : σ) (cur : List (Tr σ O A)) : List (Tick O A) → List (List (Tr σ O A))
  | [] => if cur.isEmpty then [] else [cur]
  | k :: ks =>
    if k.done || k.reset then
      (cur ++ [⟨k.obs, k.action, k.reward, k.next, !k.done, s, net.step θ s (nz.norm ν k.obs)⟩]) :: collect θ ν net.start [] ks
    else
      collect θ ν (net.step θ s (nz.norm ν k.obs))
        (cur ++ [⟨k.obs, k.action, k.reward, k.next, !k.done, s, net.step θ s (nz.norm ν k.obs)⟩]) ks

/-- The log-probability, the value and the value of the next state for each transition, `ppo.py:81-104` and `118-142`: the model is run over
the states from `s`, and over the next states from `s'`. -/
def predictFrom (θ : Θ) (ν : N) (s s' : σ) : List (Tr σ O A) → List (Tr σ O A × ℝ × ℝ × ℝ)
  | [] => []
  | tr :: ep =>
    (tr, net.logProb θ s (nz.norm ν tr.state) tr.action, net.value θ s (nz.norm ν tr.state), net.value θ s' (nz.norm ν tr.nextState)) ::
      predictFrom θ ν (net.step θ s (nz.norm ν tr.state)) (net.step θ s' (nz.norm ν tr.nextState)) ep

/-- `_add_log_prob_and_value_to_episodes` and `_add_log_prob_and_value_to_episodes_recurrent`, `ppo.py:56-142`, for one episode: the
recurrent states are those stored with its first transition. -/
def predict (θ : Θ) (ν : N) : List (Tr σ O A) → List (Tr σ O A × ℝ × ℝ × ℝ)
  | [] => []
  | tr :: ep => predictFrom net nz θ ν tr.rs tr.nextRs (tr :: ep)

/-- What `_add_advantage_and_value_target_to_episode` reads of a transition. -/
def gaeOf (p : Tr σ O A × ℝ × ℝ × ℝ) : Returns.Step ℝ := ⟨p.1.reward, if p.1.nonterminal then 1 else 0, p.2.2.1, p.2.2.2⟩

/-- One episode of the data set. -/
noncomputable def entries (γ lam : ℝ) (θ : Θ) (ν : N) (ep : List (Tr σ O A)) : List (Entry σ O A) :=
  List.zipWith (fun p a => ⟨p.1, p.2.1, p.2.2.1, p.2.2.2, a.adv, a.vTeacher⟩) (predict net nz θ ν ep)
    (Returns.gaeEpisode γ lam ((predict net nz θ ν ep).map gaeOf))

/-- `_make_dataset` and `_make_dataset_recurrent`, `ppo.py:196-244`; for the former each transition is a sequence. -/
noncomputable def makeDataset (γ lam : ℝ) (θ : Θ) (ν : N) (recurrent : Bool) (maxLen : Option Nat) (memory : List (List (Tr σ O A))) :
    Except PyErr (List (List (Entry σ O A))) :=
  if recurrent then
    match maxLen with
    | none => .ok (memory.map (entries net nz γ lam θ ν))
    | some n => limitSequenceLength (memory.map (entries net nz γ lam θ ν)) n
  else .ok ((memory.map (entries net nz γ lam θ ν)).flatten.map fun e => [e])

/-- The arguments of `_lossfun` for the transitions of a sequence, computed with the current parameters, `ppo.py:482-523` and
`540-587`; `adv` is the advantage after standardisation. -/
def rowsFrom (adv : ℝ → ℝ) (ν : N) (θ : Θ) (s : σ) : List (Entry σ O A) → List Row
  | [] => []
  | e :: es =>
    ⟨net.entropy θ s (nz.norm ν e.tr.state), net.value θ s (nz.norm ν e.tr.state), net.logProb θ s (nz.norm ν e.tr.state) e.tr.action,
      e.vPred, e.logProb, adv e.adv, e.vTeacher⟩ :: rowsFrom adv ν θ (net.step θ s (nz.norm ν e.tr.state)) es

/-- The same from the recurrent state stored with the first transition. -/
def rowsSeq (adv : ℝ → ℝ) (ν : N) (θ : Θ) : List (Entry σ O A) → List Row
  | [] => []
  | e :: es => rowsFrom net nz adv ν θ e.tr.rs (e :: es)

/-- The loss of a minibatch of sequences as a function of the parameters.  The order of the transitions does not matter for means. -/
noncomputable def batchLoss (h : Hyper) (adv : ℝ → ℝ) (ν : N) (batch : List (List (Entry σ O A))) (θ : Θ) : ℝ :=
  loss h (batch.map (rowsSeq net nz adv ν θ)).flatten

/-- The minibatches: `_yield_minibatches` with the results of `random.sample`, or those of the first epoch of `_update_recurrent` with the
shuffled data set. -/
def minibatches {α : Type _} (recurrent : Bool) (draws : Nat → List (List α)) (dataset : List (List α)) (mb epochs : Nat) :
    Except PyErr (List (List (List α))) :=
  if recurrent then yieldSubsets (draws 0) mb else yieldMinibatches draws dataset mb epochs

/-- `_update` and `_update_recurrent`, `ppo.py:464-528` and `605-630`: the normaliser learns from the states of the data set, then the loss
of each minibatch is given to the optimiser, in this order.  For recurrent models only the first epoch is modelled. -/
noncomputable def update (h : Hyper) (standardize recurrent : Bool) (ν : N) (draws : Nat → List (List (Entry σ O A)))
    (dataset : List (List (Entry σ O A))) (mb epochs : Nat) : Except PyErr (N × List (Θ → ℝ)) :=
  match minibatches recurrent draws dataset mb epochs with
  | .error e => .error e
  | .ok batches => .ok (nz.learn ν (dataset.flatten.map fun e => e.tr.state),
      batches.map (batchLoss net nz h (standard standardize (dataset.flatten.map Entry.adv))
        (nz.learn ν (dataset.flatten.map fun e => e.tr.state))))

/-! ## Specification -/

/-- The policy that chose the action and the value of the state at each tick, with the recurrent state carried through episodes. -/
def Spec.acting (θ : Θ) (ν : N) (s : σ) : List (Tick O A) → List ((A → ℝ) × ℝ)
  | [] => []
  | k :: ks => (net.logProb θ s (nz.norm ν k.obs), net.value θ s (nz.norm ν k.obs)) ::
      Spec.acting θ ν (if k.done || k.reset then net.start else net.step θ s (nz.norm ν k.obs)) ks

/-- Within an episode the next observation is the following observation. -/
def Spec.Connected : List (Tick O A) → Prop
  | k :: k' :: ks => ((k.done || k.reset) = false → k.next = k'.obs) ∧ Spec.Connected (k' :: ks)
  | _ => True

/-- The objective of an on-policy actor-critic for the same rows: log-probability times advantage, squared error of the value, entropy. -/
noncomputable def Spec.plain (h : Hyper) (rows : List Row) : ℝ :=
  -mean (rows.map fun r => r.logProb * r.adv) + h.valueCoef * mean (rows.map fun r => (r.vPred - r.vTeacher) ^ 2) +
    h.entropyCoef * -mean (rows.map Row.entropy)

/-- The data of `n` environments: each episode in the memory comes from some run of one of them. -/
def Spec.Memory (θ : Θ) (ν : N) (memory : List (List (Tr σ O A))) : Prop :=
  ∀ ep ∈ memory, ∃ s ks, ep ∈ collect net nz θ ν s [] ks


/-! ## Lemmas -/

/-- A piece of an episode as it was collected and completed. -/
inductive Linked (θ : Θ) (ν : N) : List (Entry σ O A) → Prop
  | nil : Linked θ ν []
  | one (e : Entry σ O A) (h1 : e.tr.nextRs = net.step θ e.tr.rs (nz.norm ν e.tr.state))
      (h2 : e.logProb = net.logProb θ e.tr.rs (nz.norm ν e.tr.state) e.tr.action)
      (h3 : e.vPred = net.value θ e.tr.rs (nz.norm ν e.tr.state)) : Linked θ ν [e]
  | cons (e e' : Entry σ O A) (es : List (Entry σ O A)) (h1 : e.tr.nextRs = net.step θ e.tr.rs (nz.norm ν e.tr.state))
      (h2 : e.logProb = net.logProb θ e.tr.rs (nz.norm ν e.tr.state) e.tr.action)
      (h3 : e.vPred = net.value θ e.tr.rs (nz.norm ν e.tr.state)) (h4 : e'.tr.rs = e.tr.nextRs) (h5 : Linked θ ν (e' :: es)) :
      Linked θ ν (e :: e' :: es)

/-- The same for transitions. -/
inductive Chain (θ : Θ) (ν : N) : List (Tr σ O A) → Prop
  | nil : Chain θ ν []
  | one (e : Tr σ O A) (h1 : e.nextRs = net.step θ e.rs (nz.norm ν e.state)) : Chain θ ν [e]
  | cons (e e' : Tr σ O A) (es : List (Tr σ O A)) (h1 : e.nextRs = net.step θ e.rs (nz.norm ν e.state)) (h4 : e'.rs = e.nextRs)
      (h5 : Chain θ ν (e' :: es)) : Chain θ ν (e :: e' :: es)

variable {net nz}

theorem linked_tail {θ : Θ} {ν : N} {e : Entry σ O A} {es : List (Entry σ O A)} (h : Linked net nz θ ν (e :: es)) : Linked net nz θ ν es := by
  cases h with
  | one => exact .nil
  | cons _ _ _ _ _ _ h5 => assumption

theorem linked_drop {θ : Θ} {ν : N} : ∀ {pre es : List (Entry σ O A)}, Linked net nz θ ν (pre ++ es) → Linked net nz θ ν es
  | [], _, h => h
  | _ :: _, _, h => linked_drop (linked_tail h)

theorem linked_take {θ : Θ} {ν : N} : ∀ {es post : List (Entry σ O A)}, Linked net nz θ ν (es ++ post) → Linked net nz θ ν es
  | [], _, _ => .nil
  | [e], post, h => by
    cases post with
    | nil => exact h
    | cons e' post =>
      cases h with
      | cons _ _ _ h1 h2 h3 h4 h5 => exact .one e h1 h2 h3
  | e :: e' :: es, post, h => by
    cases h with
    | cons _ _ _ h1 h2 h3 h4 h5 => exact .cons e e' es h1 h2 h3 h4 (linked_take (es := e' :: es) h5)

theorem linked_infix {θ : Θ} {ν : N} {p es : List (Entry σ O A)} (hp : p <:+: es) (h : Linked net nz θ ν es) : Linked net nz θ ν p := by
  obtain ⟨pre, post, rfl⟩ := hp
  rw [List.append_assoc] at h
  exact linked_take (linked_drop h)

theorem chain_snoc {θ : Θ} {ν : N} {x : Tr σ O A} (hx : x.nextRs = net.step θ x.rs (nz.norm ν x.state)) :
    ∀ {es : List (Tr σ O A)}, Chain net nz θ ν es → (∀ l, es.getLast? = some l → x.rs = l.nextRs) → Chain net nz θ ν (es ++ [x])
  | [], _, _ => .one x hx
  | [e], h, hl => by
    cases h with
    | one _ h1 => exact .cons e x [] h1 (hl e rfl) (.one x hx)
  | e :: e' :: es, h, hl => by
    cases h with
    | cons _ _ _ h1 h4 h5 =>
      exact .cons e e' (es ++ [x]) h1 h4 (chain_snoc (es := e' :: es) hx h5 (by
        intro l hh
        exact hl l (by rw [List.getLast?_cons_cons]; exact hh)))

theorem collect_chain {θ : Θ} {ν : N} : ∀ (ks : List (Tick O A)) (s : σ) (cur : List (Tr σ O A)), Chain net nz θ ν cur →
    (∀ l, cur.getLast? = some l → s = l.nextRs) → ∀ ep ∈ collect net nz θ ν s cur ks, Chain net nz θ ν ep ∧ ep ≠ []
  | [], s, cur, hc, hl, ep, hep => by
    unfold collect at hep
    split at hep
    · simp at hep
    · rename_i hne
      rw [List.mem_singleton] at hep
      subst hep
      exact ⟨hc, by simpa using hne⟩
  | k :: ks, s, cur, hc, hl, ep, hep => by
    have hsnoc := chain_snoc (x := ⟨k.obs, k.action, k.reward, k.next, !k.done, s, net.step θ s (nz.norm ν k.obs)⟩) rfl hc hl
    unfold collect at hep
    split at hep
    · rcases List.mem_cons.mp hep with rfl | hep
      · exact ⟨hsnoc, by simp⟩
      · exact collect_chain ks net.start [] .nil (by simp) ep hep
    · refine collect_chain ks _ _ hsnoc ?_ ep hep
      intro l hh
      rw [List.getLast?_append, List.getLast?_singleton, Option.some_or, Option.some.injEq] at hh
      rw [← hh]

theorem predictFrom_map {θ : Θ} {ν : N} : ∀ (ep : List (Tr σ O A)) (s s' : σ), (predictFrom net nz θ ν s s' ep).map Prod.fst = ep
  | [], _, _ => rfl
  | tr :: ep, s, s' => by
    rw [predictFrom, List.map_cons, predictFrom_map ep]

theorem predict_map {θ : Θ} {ν : N} (ep : List (Tr σ O A)) : (predict net nz θ ν ep).map Prod.fst = ep := by
  cases ep with
  | nil => rfl
  | cons tr ep => exact predictFrom_map _ _ _

/-- What is predicted for a transition of a chain. -/
theorem predictFrom_chain {θ : Θ} {ν : N} : ∀ (ep : List (Tr σ O A)) (s s' : σ), Chain net nz θ ν ep → (∀ x, ep.head? = some x → x.rs = s) →
    ∀ p ∈ predictFrom net nz θ ν s s' ep, p.2.1 = net.logProb θ p.1.rs (nz.norm ν p.1.state) p.1.action ∧
      p.2.2.1 = net.value θ p.1.rs (nz.norm ν p.1.state)
  | [], _, _, _, _, p, hp => by simp [predictFrom] at hp
  | tr :: ep, s, s', hc, hh, p, hp => by
    have hs := hh tr rfl
    rw [predictFrom, List.mem_cons] at hp
    rcases hp with rfl | hp
    · simp [hs]
    · cases hc with
      | one _ h1 => simp [predictFrom] at hp
      | cons _ e' es h1 h4 h5 =>
        refine predictFrom_chain _ _ _ h5 ?_ p hp
        intro x hx
        rw [List.head?_cons, Option.some.injEq] at hx
        subst hx
        rw [h4, h1, hs]

theorem entries_length (γ lam : ℝ) {θ : Θ} {ν : N} (ep : List (Tr σ O A)) : (entries net nz γ lam θ ν ep).length = ep.length := by
  unfold entries
  rw [List.length_zipWith, Returns.gaeEpisode_length, List.length_map, Nat.min_self]
  rw [← List.length_map (f := Prod.fst), predict_map]

theorem entries_pred (γ lam : ℝ) {θ : Θ} {ν : N} (ep : List (Tr σ O A)) :
    (entries net nz γ lam θ ν ep).map (fun e => (e.tr, e.logProb, e.vPred, e.nextVPred)) = predict net nz θ ν ep := by
  unfold entries
  rw [List.map_zipWith]
  have : ∀ (l : List (Tr σ O A × ℝ × ℝ × ℝ)) (m : List (Returns.AdvTarget ℝ)), m.length = l.length →
      List.zipWith (fun (x : Tr σ O A × ℝ × ℝ × ℝ) (_ : Returns.AdvTarget ℝ) => (x.1, x.2.1, x.2.2.1, x.2.2.2)) l m = l := by
    intro l
    induction l with
    | nil => intro m _; simp
    | cons x l ih =>
      intro m hm
      cases m with
      | nil => simp at hm
      | cons y m => rw [List.zipWith_cons_cons, ih m (by simpa using hm)]
  exact this _ _ (by rw [Returns.gaeEpisode_length, List.length_map])

theorem entries_tr (γ lam : ℝ) {θ : Θ} {ν : N} (ep : List (Tr σ O A)) : (entries net nz γ lam θ ν ep).map Entry.tr = ep := by
  have := congrArg (List.map Prod.fst) (entries_pred (net := net) (nz := nz) γ lam (θ := θ) (ν := ν) ep)
  rw [List.map_map, predict_map] at this
  exact this

theorem linked_of {θ : Θ} {ν : N} : ∀ (es : List (Entry σ O A)), Chain net nz θ ν (es.map Entry.tr) →
    (∀ e ∈ es, e.logProb = net.logProb θ e.tr.rs (nz.norm ν e.tr.state) e.tr.action ∧ e.vPred = net.value θ e.tr.rs (nz.norm ν e.tr.state)) →
    Linked net nz θ ν es
  | [], _, _ => .nil
  | [e], hc, he => by
    cases hc with
    | one _ h1 => exact .one e h1 (he e (by simp)).1 (he e (by simp)).2
  | e :: e' :: es, hc, he => by
    cases hc with
    | cons _ _ _ h1 h4 h5 => exact .cons e e' es h1 (he e (by simp)).1 (he e (by simp)).2 h4 (linked_of (e' :: es) h5 fun x hx => he x (by simp [hx]))

theorem entries_linked (γ lam : ℝ) {θ : Θ} {ν : N} {ep : List (Tr σ O A)} (hc : Chain net nz θ ν ep) :
    Linked net nz θ ν (entries net nz γ lam θ ν ep) := by
  refine linked_of _ (by rw [entries_tr]; exact hc) ?_
  intro e he
  have hm : (e.tr, e.logProb, e.vPred, e.nextVPred) ∈ predict net nz θ ν ep := by
    rw [← entries_pred (net := net) (nz := nz) γ lam ep]
    exact List.mem_map.mpr ⟨e, he, rfl⟩
  cases ep with
  | nil => simp [predict] at hm
  | cons tr ep =>
    exact predictFrom_chain _ _ _ hc (by simp) _ hm

/-- The rows of a piece, when the parameters and the normaliser are still those it was collected with. -/
theorem rowsFrom_same {adv : ℝ → ℝ} {θ : Θ} {ν : N} : ∀ (es : List (Entry σ O A)) (s : σ), Linked net nz θ ν es →
    (∀ e, es.head? = some e → e.tr.rs = s) → ∀ r ∈ rowsFrom net nz adv ν θ s es, r.logProb = r.logProbOld ∧ r.vPred = r.vPredOld
  | [], _, _, _, r, hr => by simp [rowsFrom] at hr
  | e :: es, s, hl, hh, r, hr => by
    have hs := hh e rfl
    rw [rowsFrom, List.mem_cons] at hr
    rcases hr with rfl | hr
    · cases hl with
      | one _ h1 h2 h3 => simp [h2, h3, hs]
      | cons _ _ _ h1 h2 h3 h4 h5 => simp [h2, h3, hs]
    · cases hl with
      | one _ h1 h2 h3 => simp [rowsFrom] at hr
      | cons _ e' es h1 h2 h3 h4 h5 =>
        refine rowsFrom_same _ _ h5 ?_ r hr
        intro x hx
        rw [List.head?_cons, Option.some.injEq] at hx
        subst hx
        rw [h4, h1, hs]

theorem rowsSeq_same {adv : ℝ → ℝ} {θ : Θ} {ν : N} {es : List (Entry σ O A)} (hl : Linked net nz θ ν es) :
    ∀ r ∈ rowsSeq net nz adv ν θ es, r.logProb = r.logProbOld ∧ r.vPred = r.vPredOld := by
  cases es with
  | nil => simp [rowsSeq]
  | cons e es => exact rowsFrom_same _ _ hl (by simp)

theorem yieldMinibatches_mem {α : Type _} {samples : Nat → List α} {dataset : List α} {mb epochs : Nat} {batches : List (List α)}
    (hs : ∀ j, ∀ x ∈ samples j, x ∈ dataset) (h : yieldMinibatches samples dataset mb epochs = .ok batches) : ∀ b ∈ batches, ∀ x ∈ b, x ∈ dataset := by
  have fill : ∀ (fuel k : Nat) (buf : List α), (∀ x ∈ buf, x ∈ dataset) → ∀ k' buf', fillBuf samples mb fuel k buf = .ok (k', buf') →
      ∀ x ∈ buf', x ∈ dataset := by
    intro fuel
    induction fuel with
    | zero => intro k buf hb k' buf' hf; simp [fillBuf] at hf
    | succ fuel ih =>
      intro k buf hb k' buf' hf
      unfold fillBuf at hf
      split at hf
      · refine ih (k + 1) (samples k ++ buf) ?_ k' buf' hf
        intro x hx
        rcases List.mem_append.mp hx with hx | hx
        · exact hs k x hx
        · exact hb x hx
      · rw [Except.ok.injEq, Prod.mk.injEq] at hf
        rw [← hf.2]
        exact hb
  have loop : ∀ (total fuel n k : Nat) (buf : List α), (∀ x ∈ buf, x ∈ dataset) → ∀ batches, minibatchLoop samples mb total fuel n k buf = .ok batches →
      ∀ b ∈ batches, ∀ x ∈ b, x ∈ dataset := by
    intro total fuel
    induction fuel with
    | zero => intro n k buf hb batches hf; simp [minibatchLoop] at hf
    | succ fuel ih =>
      intro n k buf hb batches hf
      unfold minibatchLoop at hf
      split at hf
      · cases hfill : fillBuf samples mb (mb + 1) k buf with
        | error e => rw [hfill] at hf; simp at hf
        | ok r =>
          obtain ⟨k', buf'⟩ := r
          rw [hfill] at hf
          simp only at hf
          have hb' := fill _ _ _ hb _ _ hfill
          split at hf
          · cases hrec : minibatchLoop samples mb total fuel (n + mb) k' (buf'.take (buf'.length - mb)) with
            | error e => rw [hrec] at hf; simp at hf
            | ok rest =>
              rw [hrec] at hf
              simp only [Except.ok.injEq] at hf
              subst hf
              intro b hbm
              rcases List.mem_cons.mp hbm with rfl | hbm
              · intro x hx
                exact hb' x (List.mem_of_mem_drop hx)
              · exact ih _ _ _ (fun x hx => hb' x (List.mem_of_mem_take hx)) _ hrec b hbm
          · simp at hf
      · rw [Except.ok.injEq] at hf
        subst hf
        simp
  unfold yieldMinibatches at h
  split at h
  · simp at h
  · exact loop _ _ _ _ _ (by simp) _ h

theorem minibatches_parts {α : Type _} {recurrent : Bool} {draws : Nat → List (List α)} {dataset : List (List α)} {mb epochs : Nat}
    {batches : List (List (List α))} (hmb : 0 < mb) (hd : ∀ j, (draws j).Perm dataset) (hne : ∀ p ∈ dataset, p ≠ [])
    (h : minibatches recurrent draws dataset mb epochs = .ok batches) : ∀ b ∈ batches, ∀ p ∈ b, ∃ s ∈ dataset, p <:+: s := by
  unfold minibatches at h
  split at h
  · obtain ⟨groups, rest, h1, h2, h3, h4, h5⟩ := subsets_fixed_size (draws 0) mb hmb fun s hs => hne s ((hd 0).mem_iff.mp hs)
    rw [h1, Except.ok.injEq] at h
    subst h
    intro b hb p hp
    obtain ⟨_, s, hs, hps⟩ := h3 b hb p hp
    exact ⟨s, (hd 0).mem_iff.mp hs, hps⟩
  · intro b hb p hp
    exact ⟨p, yieldMinibatches_mem (fun j x hx => (hd j).mem_iff.mp hx) h b hb p hp, List.infix_refl p⟩

theorem dataset_linked {γ lam : ℝ} {θ : Θ} {ν : N} {recurrent : Bool} {maxLen : Option Nat} {memory : List (List (Tr σ O A))}
    {dataset : List (List (Entry σ O A))} (hm : Spec.Memory net nz θ ν memory)
    (h : makeDataset net nz γ lam θ ν recurrent maxLen memory = .ok dataset) : ∀ p ∈ dataset, p ≠ [] ∧ Linked net nz θ ν p := by
  have hall : ∀ ep ∈ memory.map (entries net nz γ lam θ ν), ep ≠ [] ∧ Linked net nz θ ν ep := by
    intro ep hep
    obtain ⟨m, hmm, rfl⟩ := List.mem_map.mp hep
    obtain ⟨s, ks, hk⟩ := hm m hmm
    obtain ⟨hc, hn⟩ := collect_chain ks s [] .nil (by simp) m hk
    refine ⟨?_, entries_linked γ lam hc⟩
    intro h0
    have := entries_length (net := net) (nz := nz) γ lam (θ := θ) (ν := ν) m
    rw [h0, List.length_nil] at this
    exact hn (List.eq_nil_of_length_eq_zero this.symm)
  unfold makeDataset at h
  split at h
  · cases maxLen with
    | none =>
      simp only [Except.ok.injEq] at h
      subst h
      exact hall
    | some n =>
      simp only at h
      by_cases hn : 0 < n
      · obtain ⟨pieces, h1, h2, h3, h4⟩ := limit_sequence_length_pieces _ n hn fun s hs => (hall s hs).1
        rw [h1, Except.ok.injEq] at h
        subst h
        intro p hp
        obtain ⟨ps, hps, hpp⟩ := List.mem_flatten.mp hp
        have hlen := (h3 ps hps p hpp).1
        refine ⟨List.ne_nil_of_length_pos hlen, ?_⟩
        have hfl : ps.flatten ∈ memory.map (entries net nz γ lam θ ν) := by
          rw [← h2]
          exact List.mem_map.mpr ⟨ps, hps, rfl⟩
        exact linked_infix (List.infix_of_mem_flatten hpp) (hall _ hfl).2
      · have : n = 0 := by omega
        subst this
        rw [(limit_sequence_length_rejects _).1] at h
        simp at h
  · rw [Except.ok.injEq] at h
    subst h
    intro p hp
    obtain ⟨e, he, rfl⟩ := List.mem_map.mp hp
    obtain ⟨ep, hep, hee⟩ := List.mem_flatten.mp he
    refine ⟨by simp, ?_⟩
    obtain ⟨pre, post, rfl⟩ := List.append_of_mem hee
    exact linked_infix ⟨pre, post, by simp⟩ (hall _ hep).2

/-! ### Derivatives -/

variable {E : Type _} [NormedAddCommGroup E] [NormedSpace ℝ E]

theorem mean_hasFDeriv {ι : Type _} (l : List ι) (f : ι → E → ℝ) (f' : ι → E →L[ℝ] ℝ) (θ₀ : E) (h : ∀ i ∈ l, HasFDerivAt (f i) (f' i) θ₀) :
    HasFDerivAt (fun θ => mean (l.map fun i => f i θ)) ((l.length : ℝ)⁻¹ • (l.map f').sum) θ₀ := by
  have hs : ∀ l : List ι, (∀ i ∈ l, HasFDerivAt (f i) (f' i) θ₀) → HasFDerivAt (fun θ => (l.map fun i => f i θ).sum) (l.map f').sum θ₀ := by
    intro l
    induction l with
    | nil => intro _; simpa using hasFDerivAt_const (0 : ℝ) θ₀
    | cons i l ih =>
      intro h
      simp only [List.map_cons, List.sum_cons]
      exact (h i (by simp)).fun_add (ih fun j hj => h j (by simp [hj]))
  have := (hs l h).const_smul ((l.length : ℝ)⁻¹)
  refine this.congr_of_eventuallyEq (Filter.Eventually.of_forall fun θ => ?_)
  simp only [mean, List.length_map, Pi.smul_apply, smul_eq_mul]
  rw [div_eq_inv_mul]


/-- A row as a function of the parameters: outputs differentiable at `θ₀`, stored entries constant, and both equal at `θ₀`. -/
structure Fresh (θ₀ : E) (f : E → Row) : Prop where
  dl : DifferentiableAt ℝ (fun θ => (f θ).logProb) θ₀
  dv : DifferentiableAt ℝ (fun θ => (f θ).vPred) θ₀
  de : DifferentiableAt ℝ (fun θ => (f θ).entropy) θ₀
  lo : ∀ θ, (f θ).logProbOld = (f θ₀).logProbOld
  vo : ∀ θ, (f θ).vPredOld = (f θ₀).vPredOld
  ad : ∀ θ, (f θ).adv = (f θ₀).adv
  vt : ∀ θ, (f θ).vTeacher = (f θ₀).vTeacher
  sl : (f θ₀).logProb = (f θ₀).logProbOld
  sv : (f θ₀).vPred = (f θ₀).vPredOld

theorem policyTerm_fderiv {h : Hyper} (he : 0 < h.clipEps) {θ₀ : E} {f : E → Row} (hf : Fresh θ₀ f) :
    HasFDerivAt (fun θ => policyTerm h (f θ)) ((f θ₀).adv • fderiv ℝ (fun θ => (f θ).logProb) θ₀) θ₀ := by
  have hr : ratio (f θ₀) = 1 := by unfold ratio; rw [hf.sl, sub_self, Real.exp_zero]
  have hd : HasDerivAt (fun x => policyTerm h { f θ₀ with logProb := x }) (f θ₀).adv (f θ₀).logProb := by
    have := (policyTerm_deriv (h := h) he.le (f θ₀)).2 (by
      rw [hr]
      rcases le_total 0 (f θ₀).adv with ha | ha
      · exact Or.inl ⟨ha, by linarith⟩
      · exact Or.inr ⟨ha, by linarith⟩)
    rwa [hr, one_mul] at this
  have := HasDerivAt.comp_hasFDerivAt (f := fun θ => (f θ).logProb) θ₀ hd hf.dl.hasFDerivAt
  refine this.congr_of_eventuallyEq (Filter.Eventually.of_forall fun θ => ?_)
  simp only [Function.comp_apply, policyTerm, ratio]
  rw [hf.lo θ, hf.ad θ]

theorem plainTerm_fderiv {θ₀ : E} {f : E → Row} (hf : Fresh θ₀ f) :
    HasFDerivAt (fun θ => (f θ).logProb * (f θ).adv) ((f θ₀).adv • fderiv ℝ (fun θ => (f θ).logProb) θ₀) θ₀ := by
  have := hf.dl.hasFDerivAt.mul_const (f θ₀).adv
  refine this.congr_of_eventuallyEq (Filter.Eventually.of_forall fun θ => ?_)
  simp only [hf.ad θ]

theorem plainValue_fderiv {θ₀ : E} {f : E → Row} (hf : Fresh θ₀ f) :
    HasFDerivAt (fun θ => ((f θ).vPred - (f θ).vTeacher) ^ 2)
      ((2 * ((f θ₀).vPred - (f θ₀).vTeacher)) • fderiv ℝ (fun θ => (f θ).vPred) θ₀) θ₀ := by
  have := HasDerivAt.comp_hasFDerivAt (f := fun θ => (f θ).vPred) θ₀ (sq_deriv (f θ₀).vTeacher (f θ₀).vPred) hf.dv.hasFDerivAt
  refine this.congr_of_eventuallyEq (Filter.Eventually.of_forall fun θ => ?_)
  simp only [Function.comp_apply, hf.vt θ]

theorem valueTerm_fderiv {h : Hyper} (he : ∀ e, h.clipEpsVf = some e → 0 < e) {θ₀ : E} {f : E → Row} (hf : Fresh θ₀ f) :
    HasFDerivAt (fun θ => valueTerm h (f θ)) ((2 * ((f θ₀).vPred - (f θ₀).vTeacher)) • fderiv ℝ (fun θ => (f θ).vPred) θ₀) θ₀ := by
  cases hc : h.clipEpsVf with
  | none =>
    refine (plainValue_fderiv hf).congr_of_eventuallyEq (Filter.Eventually.of_forall fun θ => ?_)
    simp only [valueTerm, hc]
  | some e =>
    have hd := (valueTerm_deriv hc (he e hc).le (f θ₀)).2 (Or.inl (by rw [hf.sv, sub_self, abs_zero]; exact he e hc))
    have := HasDerivAt.comp_hasFDerivAt (f := fun θ => (f θ).vPred) θ₀ hd hf.dv.hasFDerivAt
    refine this.congr_of_eventuallyEq (Filter.Eventually.of_forall fun θ => ?_)
    simp only [Function.comp_apply, valueTerm, hc]
    rw [hf.vt θ, hf.vo θ]

/-- The derivative of the loss of fresh rows, and that of the plain objective. -/
theorem loss_fderiv {h : Hyper} (hp : 0 < h.clipEps) (hv : ∀ e, h.clipEpsVf = some e → 0 < e) {θ₀ : E} (fs : List (E → Row))
    (hfs : ∀ f ∈ fs, Fresh θ₀ f) : ∃ D : E →L[ℝ] ℝ, HasFDerivAt (fun θ => loss h (fs.map fun f => f θ)) D θ₀ ∧
      HasFDerivAt (fun θ => Spec.plain h (fs.map fun f => f θ)) D θ₀ := by
  have h1 := (mean_hasFDeriv fs (fun f θ => policyTerm h (f θ)) _ θ₀ fun f hf => policyTerm_fderiv hp (hfs f hf)).fun_neg
  have h2 := (mean_hasFDeriv fs (fun f θ => valueTerm h (f θ)) _ θ₀ fun f hf => valueTerm_fderiv hv (hfs f hf)).const_mul h.valueCoef
  have h3 := ((mean_hasFDeriv fs (fun f θ => (f θ).entropy) _ θ₀ fun f hf => (hfs f hf).de.hasFDerivAt).fun_neg).const_mul h.entropyCoef
  have k1 := (mean_hasFDeriv fs (fun f θ => (f θ).logProb * (f θ).adv) _ θ₀ fun f hf => plainTerm_fderiv (hfs f hf)).fun_neg
  have k2 := (mean_hasFDeriv fs (fun f θ => ((f θ).vPred - (f θ).vTeacher) ^ 2) _ θ₀ fun f hf => plainValue_fderiv (hfs f hf)).const_mul
    h.valueCoef
  refine ⟨_, ((h1.fun_add h2).fun_add h3).congr_of_eventuallyEq (Filter.Eventually.of_forall fun θ => ?_),
    ((k1.fun_add k2).fun_add h3).congr_of_eventuallyEq (Filter.Eventually.of_forall fun θ => ?_)⟩
  · simp only [loss, lossPolicy, lossValue, List.map_map]
    rfl
  · simp only [Spec.plain, List.map_map]
    rfl

/-- The recurrent state after some observations. -/
def Spec.stateAfter {Θ : Type _} (net : Net Θ σ X A) (θ : Θ) (s : σ) (xs : List X) : σ := xs.foldl (net.step θ) s

/-- Whatever observations have been seen, the outputs of the model are differentiable functions of its parameters at `θ₀`. -/
structure Spec.Smooth (net : Net E σ X A) (θ₀ : E) : Prop where
  logProb : ∀ s xs x a, DifferentiableAt ℝ (fun θ => net.logProb θ (Spec.stateAfter net θ s xs) x a) θ₀
  value : ∀ s xs x, DifferentiableAt ℝ (fun θ => net.value θ (Spec.stateAfter net θ s xs) x) θ₀
  entropy : ∀ s xs x, DifferentiableAt ℝ (fun θ => net.entropy θ (Spec.stateAfter net θ s xs) x) θ₀

/-- The arguments of the loss for a piece of an episode: the model with parameters `θ` has seen the states of the piece before this one,
from the recurrent state that was stored with the first. -/
def Spec.pieceRows {Θ : Type _} (net : Net Θ σ X A) (nz : Normalizer N O X) (ν : N) (adv : ℝ → ℝ) (θ : Θ) (p : List (Entry σ O A)) : List Row :=
  p.mapIdx fun i e =>
    ⟨net.entropy θ (Spec.stateAfter net θ ((p.head?.map fun e => e.tr.rs).getD net.start) ((p.take i).map fun e => nz.norm ν e.tr.state)) (nz.norm ν e.tr.state),
      net.value θ (Spec.stateAfter net θ ((p.head?.map fun e => e.tr.rs).getD net.start) ((p.take i).map fun e => nz.norm ν e.tr.state)) (nz.norm ν e.tr.state),
      net.logProb θ (Spec.stateAfter net θ ((p.head?.map fun e => e.tr.rs).getD net.start) ((p.take i).map fun e => nz.norm ν e.tr.state)) (nz.norm ν e.tr.state)
        e.tr.action, e.vPred, e.logProb, adv e.adv, e.vTeacher⟩

theorem rowsFrom_idx {Θ : Type _} {net : Net Θ σ X A} {nz : Normalizer N O X} {ν : N} {adv : ℝ → ℝ} {θ : Θ} : ∀ (es : List (Entry σ O A)) (s : σ),
    rowsFrom net nz adv ν θ s es = es.mapIdx fun i e =>
      ⟨net.entropy θ (Spec.stateAfter net θ s ((es.take i).map fun e => nz.norm ν e.tr.state)) (nz.norm ν e.tr.state),
        net.value θ (Spec.stateAfter net θ s ((es.take i).map fun e => nz.norm ν e.tr.state)) (nz.norm ν e.tr.state),
        net.logProb θ (Spec.stateAfter net θ s ((es.take i).map fun e => nz.norm ν e.tr.state)) (nz.norm ν e.tr.state) e.tr.action,
        e.vPred, e.logProb, adv e.adv, e.vTeacher⟩
  | [], s => rfl
  | e :: es, s => by
    rw [rowsFrom, List.mapIdx_cons, rowsFrom_idx es]
    rfl

theorem rowsSeq_idx {Θ : Type _} {net : Net Θ σ X A} {nz : Normalizer N O X} {ν : N} {adv : ℝ → ℝ} {θ : Θ} (p : List (Entry σ O A)) :
    rowsSeq net nz adv ν θ p = Spec.pieceRows net nz ν adv θ p := by
  cases p with
  | nil => rfl
  | cons e es => exact rowsFrom_idx _ _

theorem rowsFrom_funs {net : Net E σ X A} {adv : ℝ → ℝ} {ν : N} {θ₀ : E} (hs : Spec.Smooth net θ₀) : ∀ (es : List (Entry σ O A)) (s : σ) (xs : List X),
    (∀ r ∈ rowsFrom net nz adv ν θ₀ (Spec.stateAfter net θ₀ s xs) es, r.logProb = r.logProbOld ∧ r.vPred = r.vPredOld) →
    ∃ fs : List (E → Row), (∀ θ, rowsFrom net nz adv ν θ (Spec.stateAfter net θ s xs) es = fs.map fun f => f θ) ∧ ∀ f ∈ fs, Fresh θ₀ f
  | [], s, xs, _ => ⟨[], fun θ => rfl, by simp⟩
  | e :: es, s, xs, h => by
    have hst : ∀ θ, net.step θ (Spec.stateAfter net θ s xs) (nz.norm ν e.tr.state) = Spec.stateAfter net θ s (xs ++ [nz.norm ν e.tr.state]) := by
      intro θ
      simp [Spec.stateAfter]
    obtain ⟨fs, h1, h2⟩ := rowsFrom_funs (adv := adv) (ν := ν) hs es s (xs ++ [nz.norm ν e.tr.state]) (by
      rw [← hst]
      intro r hr
      exact h r (by rw [rowsFrom]; exact List.mem_cons_of_mem _ hr))
    refine ⟨(fun θ => ⟨net.entropy θ (Spec.stateAfter net θ s xs) (nz.norm ν e.tr.state), net.value θ (Spec.stateAfter net θ s xs) (nz.norm ν e.tr.state),
      net.logProb θ (Spec.stateAfter net θ s xs) (nz.norm ν e.tr.state) e.tr.action, e.vPred, e.logProb, adv e.adv, e.vTeacher⟩) :: fs, ?_, ?_⟩
    · intro θ
      rw [rowsFrom, hst, h1, List.map_cons]
    · intro f hf
      rcases List.mem_cons.mp hf with rfl | hf
      · have hh := h _ (by rw [rowsFrom]; exact List.mem_cons_self ..)
        exact ⟨hs.logProb .., hs.value .., hs.entropy .., fun _ => rfl, fun _ => rfl, fun _ => rfl, fun _ => rfl, hh.1, hh.2⟩
      · exact h2 f hf

theorem batch_funs {net : Net E σ X A} {adv : ℝ → ℝ} {ν : N} {θ₀ : E} (hs : Spec.Smooth net θ₀) : ∀ (batch : List (List (Entry σ O A))),
    (∀ p ∈ batch, Linked net nz θ₀ ν p) →
    ∃ fs : List (E → Row), (∀ θ, (batch.map (rowsSeq net nz adv ν θ)).flatten = fs.map fun f => f θ) ∧ ∀ f ∈ fs, Fresh θ₀ f
  | [], _ => ⟨[], fun θ => rfl, by simp⟩
  | p :: batch, h => by
    obtain ⟨fs, h1, h2⟩ := batch_funs (adv := adv) hs batch fun q hq => h q (by simp [hq])
    have hp := rowsSeq_same (adv := adv) (h p (by simp))
    have hx : ∃ gs : List (E → Row), (∀ θ, rowsSeq net nz adv ν θ p = gs.map fun f => f θ) ∧ ∀ f ∈ gs, Fresh θ₀ f := by
      cases p with
      | nil => exact ⟨[], fun θ => rfl, by simp⟩
      | cons e es => exact rowsFrom_funs (nz := nz) (adv := adv) (ν := ν) hs (e :: es) e.tr.rs [] hp
    obtain ⟨gs, g1, g2⟩ := hx
    refine ⟨gs ++ fs, fun θ => ?_, fun f hf => ?_⟩
    · rw [List.map_cons, List.flatten_cons, g1, h1, List.map_append]
    · rcases List.mem_append.mp hf with hf | hf
      · exact g2 f hf
      · exact h2 f hf

/-! ## C119 -/

/-- The tick a transition comes from, with what acting knew, and the entry of the data set made of it. -/
def Spec.Matches (k : Tick O A × (A → ℝ) × ℝ) (e : Entry σ O A) : Prop :=
  e.tr.state = k.1.obs ∧ e.tr.action = k.1.action ∧ e.tr.reward = k.1.reward ∧ e.tr.nextState = k.1.next ∧ e.tr.nonterminal = !k.1.done ∧
    e.logProb = k.2.1 k.1.action ∧ e.vPred = k.2.2

theorem collect_flatten {Θ : Type _} {net : Net Θ σ X A} {θ : Θ} {ν : N} : ∀ (ks : List (Tick O A)) (s : σ) (cur : List (Tr σ O A)),
    ∃ trs, (collect net nz θ ν s cur ks).flatten = cur ++ trs ∧
      List.Forall₂ (fun (k : Tick O A × (A → ℝ) × ℝ) (tr : Tr σ O A) => tr.state = k.1.obs ∧ tr.action = k.1.action ∧ tr.reward = k.1.reward ∧
        tr.nextState = k.1.next ∧ tr.nonterminal = (!k.1.done) ∧ net.logProb θ tr.rs (nz.norm ν tr.state) = k.2.1 ∧
        net.value θ tr.rs (nz.norm ν tr.state) = k.2.2) (ks.zip (Spec.acting net nz θ ν s ks)) trs
  | [], s, cur => by
    refine ⟨[], ?_, by simp⟩
    unfold collect
    split
    · rename_i h
      simp [List.isEmpty_iff.mp h]
    · simp
  | k :: ks, s, cur => by
    unfold collect Spec.acting
    split
    · rename_i hd
      obtain ⟨trs, h1, h2⟩ := collect_flatten (net := net) (θ := θ) (ν := ν) ks net.start []
      refine ⟨⟨k.obs, k.action, k.reward, k.next, !k.done, s, net.step θ s (nz.norm ν k.obs)⟩ :: trs, ?_, ?_⟩
      · rw [List.flatten_cons, h1]
        simp
      · rw [List.zip_cons_cons]
        exact .cons ⟨rfl, rfl, rfl, rfl, rfl, rfl, rfl⟩ h2
    · rename_i hd
      obtain ⟨trs, h1, h2⟩ := collect_flatten (net := net) (θ := θ) (ν := ν) ks (net.step θ s (nz.norm ν k.obs))
        (cur ++ [⟨k.obs, k.action, k.reward, k.next, !k.done, s, net.step θ s (nz.norm ν k.obs)⟩])
      refine ⟨⟨k.obs, k.action, k.reward, k.next, !k.done, s, net.step θ s (nz.norm ν k.obs)⟩ :: trs, ?_, ?_⟩
      · rw [h1]
        simp
      · rw [List.zip_cons_cons]
        exact .cons ⟨rfl, rfl, rfl, rfl, rfl, rfl, rfl⟩ h2

/-- **C119 (data set).** What an environment went through between two updates gives one entry of the data set per step, in order, for
recurrent and other models, wherever the episodes end and whatever recurrent state was carried over from before: with the
log-probability under the very policy the action was sampled from, and the value predicted when acting. -/
theorem ppo_dataset_faithful {Θ : Type _} (net : Net Θ σ X A) (nz : Normalizer N O X) (γ lam : ℝ) (θ : Θ) (ν : N) (s : σ) (ks : List (Tick O A)) :
    List.Forall₂ Spec.Matches (ks.zip (Spec.acting net nz θ ν s ks))
      ((collect net nz θ ν s [] ks).map (entries net nz γ lam θ ν)).flatten := by
  obtain ⟨trs, h1, h2⟩ := collect_flatten (net := net) (nz := nz) (θ := θ) (ν := ν) ks s []
  rw [List.nil_append] at h1
  have htr : (((collect net nz θ ν s [] ks).map (entries net nz γ lam θ ν)).flatten).map Entry.tr = trs := by
    rw [← h1, List.map_flatten, List.map_map]
    congr 1
    conv_rhs => rw [← List.map_id (collect net nz θ ν s [] ks)]
    exact List.map_congr_left fun ep _ => entries_tr γ lam ep
  have hlink : ∀ e ∈ ((collect net nz θ ν s [] ks).map (entries net nz γ lam θ ν)).flatten,
      e.logProb = net.logProb θ e.tr.rs (nz.norm ν e.tr.state) e.tr.action ∧ e.vPred = net.value θ e.tr.rs (nz.norm ν e.tr.state) := by
    intro e he
    obtain ⟨l, hl, hel⟩ := List.mem_flatten.mp he
    obtain ⟨ep, hep, rfl⟩ := List.mem_map.mp hl
    have hk := entries_linked γ lam (collect_chain (net := net) (nz := nz) ks s [] .nil (by simp) ep hep).1
    obtain ⟨pre, post, hpp⟩ := List.append_of_mem hel
    have := linked_infix (p := [e]) ⟨pre, post, by rw [hpp]; simp⟩ hk
    cases this with
    | one _ a b c => exact ⟨b, c⟩
  rw [← htr, List.forall₂_map_right_iff] at h2
  rw [List.forall₂_iff_get] at h2 ⊢
  refine ⟨h2.1, fun i hi hj => ?_⟩
  obtain ⟨a, b, c, d, e, f, g⟩ := h2.2 i hi hj
  obtain ⟨l1, l2⟩ := hlink _ (List.get_mem _ ⟨i, hj⟩)
  refine ⟨a, b, c, d, e, ?_, ?_⟩
  · rw [l1, f, b]
  · rw [l2, g]

/-- **C119 (partial): an update begins on-policy.** Let the memory hold any episodes or parts of episodes of any number of environments,
collected with the parameters `θ₀`, and let the normaliser not change what it does (there is none, or it has stopped learning).  Then every
minibatch loss of the update, for recurrent and other models, with any lengths of sequences and any draws, has at `θ₀` likelihood
ratio 1 for each transition and the same derivative as the objective of an on-policy actor-critic: nothing is clipped.  The optimiser
minimises the first of them from `θ₀`.

What is missing: a normaliser that learns; see `ppo_normalizer_off_policy`. -/
theorem ppo_first_step_on_policy_partial (net : Net E σ X A) (nz : Normalizer N O X) (h : Hyper) (hp : 0 < h.clipEps)
    (hv : ∀ e, h.clipEpsVf = some e → 0 < e) (standardize recurrent : Bool) (γ lam : ℝ) (maxLen : Option Nat) (mb epochs : Nat) (hmb : 0 < mb) (θ₀ : E)
    (hs : Spec.Smooth net θ₀) (ν : N) (memory : List (List (Tr σ O A))) (hm : Spec.Memory net nz θ₀ ν memory)
    {dataset : List (List (Entry σ O A))} (hd : makeDataset net nz γ lam θ₀ ν recurrent maxLen memory = .ok dataset)
    (hn : ∀ o, nz.norm (nz.learn ν (dataset.flatten.map fun e => e.tr.state)) o = nz.norm ν o)
    (draws : Nat → List (List (Entry σ O A))) (hdr : ∀ j, (draws j).Perm dataset) {ν' : N} {losses : List (E → ℝ)}
    (hu : update net nz h standardize recurrent ν draws dataset mb epochs = .ok (ν', losses)) :
    ∀ L ∈ losses, ∃ batch : List (List (Entry σ O A)), (∀ p ∈ batch, ∃ q ∈ dataset, p <:+: q) ∧
      ∃ rows : E → List Row, (∀ θ, rows θ = (batch.map (Spec.pieceRows net nz ν (standard standardize (dataset.flatten.map Entry.adv)) θ)).flatten) ∧
      (∀ θ, L θ = loss h (rows θ)) ∧ (∀ r ∈ rows θ₀, ratio r = 1) ∧
      ∃ D : E →L[ℝ] ℝ, HasFDerivAt L D θ₀ ∧ HasFDerivAt (fun θ => Spec.plain h (rows θ)) D θ₀ := by
  unfold update at hu
  cases hb : minibatches recurrent draws dataset mb epochs with
  | error e => rw [hb] at hu; simp at hu
  | ok batches =>
    rw [hb] at hu
    simp only [Except.ok.injEq, Prod.mk.injEq] at hu
    obtain ⟨rfl, rfl⟩ := hu
    intro L hL
    obtain ⟨batch, hbm, rfl⟩ := List.mem_map.mp hL
    have hlk := dataset_linked hm hd
    have hparts := minibatches_parts hmb hdr (fun p hp => (hlk p hp).1) hb batch hbm
    have hlinked : ∀ p ∈ batch, Linked net nz θ₀ ν p := by
      intro p hp
      obtain ⟨s, hs, hps⟩ := hparts p hp
      exact linked_infix hps (hlk s hs).2
    generalize standard standardize (dataset.flatten.map Entry.adv) = adv
    generalize nz.learn ν (dataset.flatten.map fun e => e.tr.state) = ν' at hn
    have hrf : ∀ (es : List (Entry σ O A)) (θ : E) (s : σ), rowsFrom net nz adv ν' θ s es = rowsFrom net nz adv ν θ s es := by
      intro es
      induction es with
      | nil => intro θ s; rfl
      | cons e es ih => intro θ s; rw [rowsFrom, rowsFrom, hn, ih]
    have hrows : ∀ θ (p : List (Entry σ O A)), rowsSeq net nz adv ν' θ p = rowsSeq net nz adv ν θ p := by
      intro θ p
      cases p with
      | nil => rfl
      | cons e es => exact hrf _ _ _
    obtain ⟨fs, f1, f2⟩ := batch_funs (adv := adv) hs batch hlinked
    obtain ⟨D, d1, d2⟩ := loss_fderiv hp hv fs f2
    have hL' : ∀ θ, batchLoss net nz h adv ν' batch θ = loss h (fs.map fun f => f θ) := by
      intro θ
      unfold batchLoss
      rw [← f1 θ]
      congr 2
      exact List.map_congr_left fun p _ => hrows θ p
    refine ⟨batch, hparts, fun θ => fs.map fun f => f θ, ?_, hL', ?_, D, ?_, d2⟩
    · intro θ
      refine (f1 θ).symm.trans ?_
      congr 1
      exact List.map_congr_left fun p _ => rowsSeq_idx p
    · intro r hr
      obtain ⟨f, hf, rfl⟩ := List.mem_map.mp hr
      unfold ratio
      rw [(f2 f hf).sl, sub_self, Real.exp_zero]
    · have : batchLoss net nz h adv ν' batch = fun θ => loss h (fs.map fun f => f θ) := funext hL'
      rw [this]
      exact d1


/-- Consecutive transitions of a piece of an episode. -/
def Conn : List (Tr σ O A) → Prop
  | e :: e' :: es => e.nextState = e'.state ∧ e.nonterminal = true ∧ Conn (e' :: es)
  | _ => True

theorem conn_snoc {x : Tr σ O A} : ∀ {es : List (Tr σ O A)}, Conn es → (∀ l, es.getLast? = some l → l.nonterminal = true ∧ l.nextState = x.state) →
    Conn (es ++ [x])
  | [], _, _ => trivial
  | [e], _, hl => ⟨(hl e rfl).2, (hl e rfl).1, trivial⟩
  | e :: e' :: es, h, hl => ⟨h.1, h.2.1, conn_snoc (es := e' :: es) h.2.2 (by
      intro l hh
      exact hl l (by rw [List.getLast?_cons_cons]; exact hh))⟩

theorem collect_conn {Θ : Type _} {net : Net Θ σ X A} {θ : Θ} {ν : N} : ∀ (ks : List (Tick O A)) (s : σ) (cur : List (Tr σ O A)), Conn cur →
    (∀ l, cur.getLast? = some l → l.nonterminal = true ∧ ∀ k, ks.head? = some k → l.nextState = k.obs) → Spec.Connected ks →
    ∀ ep ∈ collect net nz θ ν s cur ks, Conn ep
  | [], s, cur, hc, _, _, ep, hep => by
    unfold collect at hep
    split at hep
    · simp at hep
    · rw [List.mem_singleton] at hep
      subst hep
      exact hc
  | k :: ks, s, cur, hc, hl, hk, ep, hep => by
    have hsnoc := conn_snoc (x := ⟨k.obs, k.action, k.reward, k.next, !k.done, s, net.step θ s (nz.norm ν k.obs)⟩) hc
      (fun l hh => ⟨(hl l hh).1, (hl l hh).2 k rfl⟩)
    have htail : Spec.Connected ks := by
      cases ks with
      | nil => trivial
      | cons k' ks => exact hk.2
    unfold collect at hep
    split at hep
    · rcases List.mem_cons.mp hep with rfl | hep
      · exact hsnoc
      · exact collect_conn ks net.start [] trivial (by simp) htail ep hep
    · rename_i hd
      refine collect_conn ks _ _ hsnoc ?_ htail ep hep
      intro l hh
      rw [List.getLast?_append, List.getLast?_singleton, Option.some_or, Option.some.injEq] at hh
      subst hh
      simp only [Bool.or_eq_true, not_or, Bool.not_eq_true] at hd
      refine ⟨by simp [hd.1], ?_⟩
      intro k' hk'
      cases ks with
      | nil => simp at hk'
      | cons k'' ks =>
        rw [List.head?_cons, Option.some.injEq] at hk'
        subst hk'
        exact hk.1 (by simp [hd.1, hd.2])

theorem consecutive_cons {a b : Returns.Step ℝ} {l : List (Returns.Step ℝ)} (h1 : a.nextVPred = b.vPred) (h2 : a.nonterminal = 1)
    (h : Returns.Spec.Consecutive (b :: l)) : Returns.Spec.Consecutive (a :: b :: l) := by
  intro t ht
  cases t with
  | zero => exact ⟨h1, h2⟩
  | succ t => exact h t (by simpa using ht)

theorem predictFrom_consecutive {Θ : Type _} {net : Net Θ σ X A} {θ : Θ} {ν : N} : ∀ (ep : List (Tr σ O A)) (s s' : σ), Conn ep →
    (∀ x, ep.head? = some x → s' = net.step θ s (nz.norm ν x.state)) →
    Returns.Spec.Consecutive ((predictFrom net nz θ ν s s' ep).map gaeOf)
  | [], _, _, _, _ => by intro t ht; simp [predictFrom] at ht
  | [x], _, _, _, _ => by intro t ht; simp [predictFrom] at ht
  | x :: y :: ep, s, s', hc, hs => by
    have h0 := hs x rfl
    have ih := predictFrom_consecutive (net := net) (θ := θ) (ν := ν) (y :: ep) (net.step θ s (nz.norm ν x.state)) (net.step θ s' (nz.norm ν x.nextState)) hc.2.2
      (by
        intro z hz
        rw [List.head?_cons, Option.some.injEq] at hz
        subst hz
        rw [hc.1, h0])
    rw [predictFrom, predictFrom] at *
    refine consecutive_cons ?_ ?_ ih
    · simp only [gaeOf]
      rw [hc.1, h0]
    · simp [gaeOf, hc.2.1]

/-- **C119 (values along an episode).** If within episodes each observation is the next observation of the step before, the value
predicted for the next state of a transition is the value predicted for the state of the following one, with recurrent models too, and only
the last transition of a piece may be terminal: the advantages are sums of temporal differences along the episode (C24). -/
theorem ppo_values_consecutive {Θ : Type _} (net : Net Θ σ X A) (nz : Normalizer N O X) (θ : Θ) (ν : N) (s : σ) (ks : List (Tick O A))
    (hk : Spec.Connected ks) : ∀ ep ∈ collect net nz θ ν s [] ks, Returns.Spec.Consecutive ((predict net nz θ ν ep).map gaeOf) := by
  intro ep hep
  have hc := collect_conn ks s [] trivial (by simp) hk ep hep
  have hch := (collect_chain ks s [] .nil (by simp) ep hep).1
  cases ep with
  | nil => intro t ht; simp [predict] at ht
  | cons x ep =>
    refine predictFrom_consecutive (x :: ep) x.rs x.nextRs hc ?_
    intro y hy
    rw [List.head?_cons, Option.some.injEq] at hy
    subst hy
    cases hch with
    | one _ h1 => exact h1
    | cons _ _ _ h1 => exact h1

/-- The temporal difference error of an entry: nothing is expected after a terminal state. -/
noncomputable def Spec.td (γ : ℝ) (e : Entry σ O A) : ℝ := e.tr.reward + (if e.tr.nonterminal then γ * e.nextVPred else 0) - e.vPred

/-- **C119 (advantages).** The advantage of each entry is the sum, discounted by `γλ`, of the temporal differences from it to the end of its
episode, nothing is bootstrapped after a terminal state, and the value target is the sum of advantage and value. -/
theorem ppo_advantages {Θ : Type _} (net : Net Θ σ X A) (nz : Normalizer N O X) (γ lam : ℝ) (θ : Θ) (ν : N) (ep : List (Tr σ O A)) :
    ∀ t (e : Entry σ O A), (entries net nz γ lam θ ν ep)[t]? = some e →
      e.adv = Returns.Spec.disc (γ * lam) (((entries net nz γ lam θ ν ep).drop t).map (Spec.td γ)) ∧ e.vTeacher = e.adv + e.vPred := by
  intro t e he
  have hp := entries_pred (net := net) (nz := nz) γ lam (θ := θ) (ν := ν) ep
  have hg : (predict net nz θ ν ep).map gaeOf = (entries net nz γ lam θ ν ep).map fun e => gaeOf (e.tr, e.logProb, e.vPred, e.nextVPred) := by
    rw [← hp, List.map_map]
    rfl
  have htd : ∀ e : Entry σ O A, Returns.Spec.tdError γ (gaeOf (e.tr, e.logProb, e.vPred, e.nextVPred)) = Spec.td γ e := by
    intro e
    unfold Returns.Spec.tdError Spec.td gaeOf
    cases e.tr.nonterminal <;> simp
  obtain ⟨ht, hx⟩ := List.getElem?_eq_some_iff.mp he
  have hl : t < ((predict net nz θ ν ep).map gaeOf).length := by rw [hg, List.length_map]; exact ht
  have hl' : t < (Returns.gaeEpisode γ lam ((predict net nz θ ν ep).map gaeOf)).length := by rw [Returns.gaeEpisode_length]; exact hl
  obtain ⟨h1, h2⟩ := (Returns.gae_is_discounted_td_sum γ lam ((predict net nz θ ν ep).map gaeOf)).2 t hl hl'
  have h3 : e.adv = (Returns.gaeEpisode γ lam ((predict net nz θ ν ep).map gaeOf))[t].adv ∧
      e.vTeacher = (Returns.gaeEpisode γ lam ((predict net nz θ ν ep).map gaeOf))[t].vTeacher := by
    have hlp : t < (predict net nz θ ν ep).length := by simpa using hl
    have : (entries net nz γ lam θ ν ep)[t]? = some e := he
    unfold entries at this
    rw [List.getElem?_zipWith, List.getElem?_eq_getElem hlp, List.getElem?_eq_getElem hl'] at this
    cases this
    exact ⟨rfl, rfl⟩
  rw [h3.1, h3.2, h2, h1]
  refine ⟨?_, ?_⟩
  · rw [hg, ← List.map_drop, List.map_map]
    congr 1
    exact List.map_congr_left fun e _ => htd e
  · congr 1
    simp only [hg, List.getElem_map, hx]
    rfl

/-! ### A normaliser that learns -/

/-- `EmpiricalNormalization(1)` with its defaults. -/
noncomputable def demoNorm : Normalizer (EmpNorm.St Unit) (Unit → ℝ) (Unit → ℝ) where
  norm := fun ν o => (EmpNorm.forward ⟨1 / 100, none, none⟩ ν [o] false).2.headD o
  learn := fun ν os => EmpNorm.experience ⟨1 / 100, none, none⟩ ν os

/-- A Gaussian policy with mean `θ x` and variance 1 (up to the constant in the logarithm of its density), and a value function that is 0. -/
noncomputable def demoNet : Net ℝ Unit (Unit → ℝ) ℝ where
  start := ()
  step := fun _ _ _ => ()
  logProb := fun θ _ x a => -(a - θ * x ()) ^ 2 / 2
  value := fun _ _ _ => 0
  entropy := fun _ _ _ => 0

/-- The factor of the normaliser. -/
noncomputable def scale : ℝ := (Real.sqrt (1 + 1 / 100))⁻¹

theorem scale_sq : scale ^ 2 = 100 / 101 := by
  unfold scale
  rw [inv_pow, Real.sq_sqrt (by norm_num)]
  norm_num

/-- Two episodes of one step with reward -1, the actions a little above the mean. -/
noncomputable def demoTicks : List (Tick (Unit → ℝ) ℝ) :=
  [⟨fun _ => 3, 4 * scale, -1, fun _ => 0, true, false⟩, ⟨fun _ => 5, 6 * scale, -1, fun _ => 0, true, false⟩]

noncomputable def demoMemory : List (List (Tr Unit (Unit → ℝ) ℝ)) := collect demoNet demoNorm 1 EmpNorm.init () [] demoTicks

/-- The defaults of PPO. -/
noncomputable def demoHyper : Hyper := ⟨1 / 5, none, 1, 1 / 100⟩

theorem demo_norm_init (x : ℝ) : demoNorm.norm EmpNorm.init (fun _ => x) = fun _ => x * scale := by
  simp [demoNorm, EmpNorm.forward, EmpNorm.stdInverse, EmpNorm.init, scale]

theorem demo_norm_learned (x : ℝ) : demoNorm.norm (demoNorm.learn EmpNorm.init [fun _ => 3, fun _ => 5]) (fun _ => x) = fun _ => (x - 4) * scale := by
  have hm : EmpNorm.batchMean [(fun _ => 3 : Unit → ℝ), fun _ => 5] () = 4 := by norm_num [EmpNorm.batchMean]
  have hv : EmpNorm.batchVar [(fun _ => 3 : Unit → ℝ), fun _ => 5] () = 1 := by
    unfold EmpNorm.batchVar
    rw [hm]
    norm_num
  funext u
  cases u
  simp [demoNorm, EmpNorm.forward, EmpNorm.stdInverse, EmpNorm.init, EmpNorm.experience, EmpNorm.experience.learn, hm, hv, scale]

/-- The data set. -/
noncomputable def demoEntry (x a : ℝ) : Entry Unit (Unit → ℝ) ℝ :=
  ⟨⟨fun _ => x, a, -1, fun _ => 0, false, (), ()⟩, -(a - x * scale) ^ 2 / 2, 0, 0, -1, -1⟩

theorem demo_dataset : makeDataset demoNet demoNorm 1 1 1 EmpNorm.init false none demoMemory =
    .ok [[demoEntry 3 (4 * scale)], [demoEntry 5 (6 * scale)]] := by
  have hm : demoMemory = [[⟨fun _ => 3, 4 * scale, -1, fun _ => 0, false, (), ()⟩], [⟨fun _ => 5, 6 * scale, -1, fun _ => 0, false, (), ()⟩]] := rfl
  rw [hm]
  simp [makeDataset, entries, predict, predictFrom, gaeOf, Returns.gaeEpisode, Returns.gaeStep, demo_norm_init, demoNet, demoEntry]

theorem demo_term {x a : ℝ} (hx : a - (x - 4) * scale = 5 * scale) (ha : a - x * scale = scale) :
    HasDerivAt (fun θ : ℝ => policyTerm demoHyper ⟨0, 0, -(a - θ * ((x - 4) * scale)) ^ 2 / 2, 0, -(a - x * scale) ^ 2 / 2, -1, -1⟩) 0 1 := by
  have hr : ratio ⟨0, 0, -(a - 1 * ((x - 4) * scale)) ^ 2 / 2, 0, -(a - x * scale) ^ 2 / 2, -1, -1⟩ < 1 - demoHyper.clipEps := by
    simp only [ratio, demoHyper]
    rw [one_mul, hx, ha]
    have e : -(5 * scale) ^ 2 / 2 - -scale ^ 2 / 2 = -(1200 / 101) := by
      rw [mul_pow, scale_sq]
      norm_num
    rw [e, Real.exp_neg]
    have h1 : (1200 / 101 : ℝ) + 1 ≤ Real.exp (1200 / 101) := Real.add_one_le_exp _
    have h2 : (Real.exp (1200 / 101))⁻¹ ≤ ((1200 / 101 : ℝ) + 1)⁻¹ := inv_anti₀ (by norm_num) h1
    refine lt_of_le_of_lt h2 (by norm_num)
  have hd := (policyTerm_deriv (h := demoHyper) (by norm_num [demoHyper])
    ⟨0, 0, -(a - 1 * ((x - 4) * scale)) ^ 2 / 2, 0, -(a - x * scale) ^ 2 / 2, -1, -1⟩).1 (Or.inr ⟨by norm_num, hr⟩)
  have hl : DifferentiableAt ℝ (fun θ : ℝ => -(a - θ * ((x - 4) * scale)) ^ 2 / 2) 1 := by fun_prop
  have := HasDerivAt.comp (1 : ℝ) hd hl.hasDerivAt
  rw [zero_mul] at this
  exact this

/-- **C119 fails with a normaliser that learns.** With `EmpiricalNormalization` and the defaults of PPO, after two steps with advantage -1:
the update first feeds the states to the normaliser, so that the policy it differentiates is no longer the one that acted.  Both
likelihood ratios are below `1 - clip_eps`, and the derivative of the loss is 0, although that of the on-policy objective, which the
first step has without normaliser, is not. -/
theorem ppo_normalizer_off_policy : ∃ dataset ν' L, makeDataset demoNet demoNorm 1 1 1 EmpNorm.init false none demoMemory = .ok dataset ∧
    update demoNet demoNorm demoHyper false false EmpNorm.init (fun _ => dataset) dataset 2 1 = .ok (ν', [L]) ∧
    HasDerivAt L 0 1 ∧
    ∃ g, g ≠ 0 ∧ HasDerivAt (fun θ => Spec.plain demoHyper (dataset.map (rowsSeq demoNet demoNorm id EmpNorm.init θ)).flatten) g 1 := by
  refine ⟨_, _, _, demo_dataset, rfl, ?_, 4 * scale ^ 2, by rw [scale_sq]; norm_num, ?_⟩
  · have hrow : ∀ x a θ : ℝ, rowsSeq demoNet demoNorm (standard false [(-1 : ℝ), -1])
        (demoNorm.learn EmpNorm.init [fun _ => 3, fun _ => 5]) θ [demoEntry x a] =
        [⟨0, 0, -(a - θ * ((x - 4) * scale)) ^ 2 / 2, 0, -(a - x * scale) ^ 2 / 2, -1, -1⟩] := by
      intro x a θ
      simp [rowsSeq, rowsFrom, demoEntry, demo_norm_learned, demoNet, standard]
    have hL : (fun θ => batchLoss demoNet demoNorm demoHyper (standard false [(-1 : ℝ), -1])
        (demoNorm.learn EmpNorm.init [fun _ => 3, fun _ => 5]) [[demoEntry 3 (4 * scale)], [demoEntry 5 (6 * scale)]] θ) =
        fun θ => -((policyTerm demoHyper ⟨0, 0, -(4 * scale - θ * ((3 - 4) * scale)) ^ 2 / 2, 0, -(4 * scale - 3 * scale) ^ 2 / 2, -1, -1⟩ +
          policyTerm demoHyper ⟨0, 0, -(6 * scale - θ * ((5 - 4) * scale)) ^ 2 / 2, 0, -(6 * scale - 5 * scale) ^ 2 / 2, -1, -1⟩) / 2) + 1 := by
      funext θ
      unfold batchLoss
      rw [List.map_cons, List.map_cons, List.map_nil, hrow, hrow]
      simp [loss, lossPolicy, lossValue, mean, valueTerm, demoHyper]
    have h1 := demo_term (x := 3) (a := 4 * scale) (by ring) (by ring)
    have h2 := demo_term (x := 5) (a := 6 * scale) (by ring) (by ring)
    have h3 := (((h1.fun_add h2).div_const 2).fun_neg).add_const 1
    simp only [add_zero, zero_div, neg_zero] at h3
    rw [← hL] at h3
    exact h3
  · have hrow : ∀ x a θ : ℝ, rowsSeq demoNet demoNorm id EmpNorm.init θ [demoEntry x a] =
        [⟨0, 0, -(a - θ * (x * scale)) ^ 2 / 2, 0, -(a - x * scale) ^ 2 / 2, -1, -1⟩] := by
      intro x a θ
      simp [rowsSeq, rowsFrom, demoEntry, demo_norm_init, demoNet]
    have hterm : ∀ a x : ℝ, HasDerivAt (fun θ : ℝ => -(a - θ * (x * scale)) ^ 2 / 2) ((a - x * scale) * (x * scale)) 1 := by
      intro a x
      have h1 : HasDerivAt (fun θ : ℝ => a - θ * (x * scale)) (-(1 * (x * scale))) 1 := ((hasDerivAt_id (1 : ℝ)).mul_const _).const_sub a
      have h2 := ((h1.fun_pow 2).fun_neg).div_const 2
      have e : (a - x * scale) * (x * scale) = -(((2 : ℕ) : ℝ) * (a - 1 * (x * scale)) ^ (2 - 1) * -(1 * (x * scale))) / 2 := by
        norm_num
        ring
      rw [e]
      exact h2
    have h := (((hterm (4 * scale) 3).fun_add (hterm (6 * scale) 5)).div_const 2).add_const 1
    have he : (fun θ => Spec.plain demoHyper ([[demoEntry 3 (4 * scale)], [demoEntry 5 (6 * scale)]].map
        (rowsSeq demoNet demoNorm id EmpNorm.init θ)).flatten) =
        fun θ => (-(4 * scale - θ * (3 * scale)) ^ 2 / 2 + -(6 * scale - θ * (5 * scale)) ^ 2 / 2) / 2 + 1 := by
      funext θ
      rw [List.map_cons, List.map_cons, List.map_nil, hrow, hrow]
      simp [Spec.plain, mean, demoHyper]
      ring
    rw [he]
    have e : 4 * scale ^ 2 = ((4 * scale - 3 * scale) * (3 * scale) + (6 * scale - 5 * scale) * (5 * scale)) / 2 := by ring
    rw [e]
    exact h

/-! ## Non-vacuity -/

/-- A recurrent model whose state is the sum of what it has seen, without normaliser. -/
noncomputable def sumNet : Net ℝ ℝ ℝ ℝ where
  start := 0
  step := fun θ s x => s + θ * x
  logProb := fun θ s x a => -(a - θ * x - s) ^ 2 / 2
  value := fun θ s x => θ * s + x
  entropy := fun _ _ _ => 0

def noNorm : Normalizer Unit ℝ ℝ := ⟨fun _ o => o, fun ν _ => ν⟩

theorem sumNet_state (s : ℝ) (xs : List ℝ) : Differentiable ℝ fun θ => Spec.stateAfter sumNet θ s xs := by
  induction xs using List.reverseRecOn with
  | nil => exact differentiable_const s
  | append_singleton xs x ih =>
    have : (fun θ => Spec.stateAfter sumNet θ s (xs ++ [x])) = fun θ => Spec.stateAfter sumNet θ s xs + θ * x := by
      funext θ
      simp [Spec.stateAfter, sumNet]
    rw [this]
    exact ih.add (by fun_prop)

example (θ₀ : ℝ) : Spec.Smooth sumNet θ₀ where
  logProb := fun s xs x a => by
    have := (sumNet_state s xs) θ₀
    simp only [sumNet] at this ⊢
    fun_prop
  value := fun s xs x => by
    have := (sumNet_state s xs) θ₀
    simp only [sumNet] at this ⊢
    fun_prop
  entropy := fun _ _ _ => differentiableAt_const _

/-- A run with one whole episode and the beginning of another. -/
def sumTicks : List (Tick ℝ ℝ) := [⟨1, 2, 1, 3, false, false⟩, ⟨3, 1, 1, 0, true, false⟩, ⟨5, 2, 1, 6, false, false⟩]

example : Spec.Connected sumTicks := ⟨fun _ => rfl, fun h => by simp at h, trivial⟩

example : Spec.Memory sumNet noNorm 1 () (collect sumNet noNorm 1 () 7 [] sumTicks) := fun _ hep => ⟨7, sumTicks, hep⟩

example : (collect sumNet noNorm 1 () 7 [] sumTicks).map List.length = [2, 1] := rfl

example : ∃ dataset, makeDataset sumNet noNorm 1 1 1 () true (some 1) (collect sumNet noNorm 1 () 7 [] sumTicks) = .ok dataset := ⟨_, rfl⟩

end Pfrl.Ppo.Update
