import Verif.Agents.Trpo
import Verif.Recurrent.Cell
import Verif.Ppo.Loss

/-!
# The updates of recurrent TRPO (C128)

Numbers are exact and `torch.autograd.grad` gives the gradient, as in C116.
-/

namespace Pfrl.Trpo.Recurrent

open Pfrl.Recurrent Pfrl.Trpo.Update
open scoped InnerProductSpace Gradient

set_option linter.unusedSectionVars false

variable {E : Type} [NormedAddCommGroup E] [InnerProductSpace ℝ E] [CompleteSpace E]
variable {σ τ X D Act : Type}

/-! ## Model -/

/-- A transition of the data set made by `_make_dataset_recurrent`, `pfrl/agents/ppo.py:196-225`.  `obs` is the state after `phi`,
`batch_states` and the normaliser; `rs` and `vrs` are the recurrent states of the policy and of the value function that are stored with it. -/
structure Entry (σ τ X Act : Type) where
  obs : X
  action : Act
  logProb : ℝ
  adv : ℝ
  vTeacher : ℝ
  rs : σ
  vrs : τ

/-- The methods of the distributions that the policy returns. -/
structure Heads (D Act : Type) where
  logProb : D → Act → ℝ
  entropy : D → ℝ
  kl : D → D → ℝ

/-- `_collect_first_recurrent_states_of_policy` and `_of_vf`, `pfrl/agents/trpo.py:76-87`.  A missing state is among the states here. -/
def firsts {ρ : Type} (rs : Entry σ τ X Act → ρ) : List (List (Entry σ τ X Act)) → Except PyErr (List ρ)
  | [] => .ok []
  | ep :: eps =>
    match first ep, firsts rs eps with
    | .ok e, .ok l => .ok (rs e :: l)
    | .error e, _ => .error e
    | _, .error e => .error e

/-- `pack_and_forward`, `pfrl/utils/recurrent.py:160-174`, as a function of the network: sequences are packed and the network goes
through the packed rows, with these states.  Concatenating the states is C34, nested observations and several layers are C76. -/
def packAndForward {ρ W : Type} (rs : List ρ) (seqs : List (List X)) : Except PyErr ((ρ → X → ρ × W) → List W) :=
  match packSequence seqs with
  | .ok ⟨.packed sizes, rows⟩ => .ok fun net => (cellLoop net sizes rows rs).1
  | .ok _ => .error .runtimeError
  | .error e => .error e

/-- `_compute_gain`, `trpo.py:415-420`, on flat lists. -/
noncomputable def gainOf (H : Heads D Act) (coef : ℝ) (distribs : List D) (actions : List Act) (old advs : List ℝ) : ℝ :=
  Ppo.Loss.mean (List.zipWith (fun ratio adv => ratio * adv)
      (List.zipWith (fun lp lpOld => Real.exp (lp - lpOld)) (List.zipWith H.logProb distribs actions) old) advs)
    + coef * Ppo.Loss.mean (distribs.map H.entropy)

/-- `torch.mean(torch.distributions.kl_divergence(old, new))`, `trpo.py:560-562` and `666-670`. -/
noncomputable def klOf (H : Heads D Act) (old new : List D) : ℝ := Ppo.Loss.mean (List.zipWith H.kl old new)

/-- `_update_policy_recurrent`, `trpo.py:479-555`, with `_compute_kl_constrained_step`, lines 557-598, and the recurrent branch of
`_line_search`, lines 600-690, which runs the policy on the same sorted data set.  `none`: the step is NaN. -/
noncomputable def updatePolicyRecurrent {n : Nat} (H : Heads D Act) (net : EuclideanSpace ℝ (Fin n) → σ → X → σ × D) (standardize : Bool)
    (dataset : List (List (Entry σ τ X Act))) (coef damping tol : ℝ) (maxIter : Nat) (maxKl : ℝ) (maxBacktrack : Nat)
    (params : List (List ℝ)) : Except PyErr (Option (Result ℝ)) :=
  let sorted := sortedDesc dataset
  let flat := flattenTimeFirst sorted
  let actions := flat.map Entry.action
  let old := flat.map Entry.logProb
  let advs := flat.map fun e => Ppo.Loss.standard standardize (flat.map Entry.adv) e.adv
  match firsts Entry.rs sorted with
  | .error e => .error e
  | .ok rs =>
    match packAndForward rs (sorted.map (List.map Entry.obs)) with
    | .error e => .error e
    | .ok forward =>
      let gain := fun θ => gainOf H coef (forward (net θ)) actions old advs
      let θ₀ := ofParams n params
      let kl := fun θ => klOf H (forward (net θ₀)) (forward (net θ))
      .ok ((klStep (fisherVectorProduct kl damping θ₀) (∇ gain θ₀) tol maxIter maxKl).map fun d =>
        lineSearch ⟨fun a s b => a + s * b, fun p => .fin (gain (ofParams n p)), fun p => .fin (kl (ofParams n p))⟩
          (.fin (gain θ₀)) maxKl maxBacktrack params (List.ofFn fun i => d i))

/-- The loss in `_update_vf_once_recurrent`, `trpo.py:346-376`, for one minibatch of sequences, as a function of the network. -/
noncomputable def vfLossRecurrent (episodes : List (List (Entry σ τ X Act))) : Except PyErr ((τ → X → τ × ℝ) → ℝ) :=
  let sorted := sortedDesc episodes
  match firsts Entry.vrs sorted with
  | .error e => .error e
  | .ok rs =>
    match packAndForward rs (sorted.map (List.map Entry.obs)) with
    | .error e => .error e
    | .ok forward => .ok fun net => Ppo.Loss.mean (List.zipWith (fun v target => (v - target) ^ 2) (forward net)
        ((flattenTimeFirst sorted).map Entry.vTeacher))

/-! ## Specification -/

/-- What a recurrent network has seen when it answers: the state it started from, the earlier observations and the current one. -/
abbrev History (ρ X : Type) := ρ × List X × X

/-- Its answer. -/
def Spec.output {ρ W : Type} (net : ρ → X → ρ × W) (h : History ρ X) : W :=
  (net (h.2.1.foldl (fun s x => (net s x).1) h.1) h.2.2).2

/-- The steps of a sequence that follow these observations, each with its history. -/
def Spec.steps {ρ : Type} (s : ρ) : List X → List (Entry σ τ X Act) → List (Entry σ τ X Act × History ρ X)
  | _, [] => []
  | past, e :: es => (e, s, past, e.obs) :: Spec.steps s (past ++ [e.obs]) es

/-- The transitions of a data set, each with its history since the beginning of its own sequence, which starts from the state stored
with the first transition. -/
def Spec.transitions {ρ : Type} (rs : Entry σ τ X Act → ρ) : List (List (Entry σ τ X Act)) → List (Entry σ τ X Act × History ρ X)
  | [] => []
  | [] :: eps => Spec.transitions rs eps
  | (e :: es) :: eps => Spec.steps (rs e) [] (e :: es) ++ Spec.transitions rs eps

/-- A recurrent policy, as a policy whose states are histories. -/
def Spec.policy (H : Heads D Act) (net : E → σ → X → σ × D) : Update.Policy E (History σ X) Act where
  logProb θ h a := H.logProb (Spec.output (net θ) h) a
  entropy θ h := H.entropy (Spec.output (net θ) h)
  kl h θ₀ θ := H.kl (Spec.output (net θ₀) h) (Spec.output (net θ) h)

/-- The advantage used for a transition. -/
noncomputable def Spec.advantage (standardize : Bool) (dataset : List (List (Entry σ τ X Act))) (e : Entry σ τ X Act) : ℝ :=
  let all := dataset.flatten.map Entry.adv
  let m := all.sum / all.length
  if standardize then (e.adv - m) / (Real.sqrt ((all.map fun x => (x - m) ^ 2).sum / all.length) + 1 / 100000000) else e.adv

/-- The batch has the transitions of the data set, each once, in some order. -/
def Spec.Lists {N : Nat} (standardize : Bool) (dataset : List (List (Entry σ τ X Act))) (batch : Fin N → Transition (History σ X) Act) : Prop :=
  (List.ofFn batch).Perm ((Spec.transitions Entry.rs dataset).map fun p =>
    ⟨p.2, p.1.action, p.1.logProb, Spec.advantage standardize dataset p.1⟩)

/-- The surrogate gain: the mean over all transitions, each with its history. -/
noncomputable def Spec.gain (H : Heads D Act) (net : E → σ → X → σ × D) (standardize : Bool) (dataset : List (List (Entry σ τ X Act)))
    (coef : ℝ) (θ : E) : ℝ :=
  ((Spec.transitions Entry.rs dataset).map fun p => Real.exp (H.logProb (Spec.output (net θ) p.2) p.1.action - p.1.logProb) *
      Spec.advantage standardize dataset p.1).sum / dataset.flatten.length
    + coef * (((Spec.transitions Entry.rs dataset).map fun p => H.entropy (Spec.output (net θ) p.2)).sum / dataset.flatten.length)

/-- The mean divergence of the policy with parameters `θ₀` from that with parameters `θ`. -/
noncomputable def Spec.divergence (H : Heads D Act) (net : E → σ → X → σ × D) (dataset : List (List (Entry σ τ X Act))) (θ₀ θ : E) : ℝ :=
  ((Spec.transitions Entry.rs dataset).map fun p => H.kl (Spec.output (net θ₀) p.2) (Spec.output (net θ) p.2)).sum / dataset.flatten.length

/-! ## Lemmas -/

/-- The steps of one sequence. -/
def seqSteps {ρ : Type} (rs : Entry σ τ X Act → ρ) : List (Entry σ τ X Act) → List (Entry σ τ X Act × History ρ X)
  | [] => []
  | e :: es => Spec.steps (rs e) [] (e :: es)

theorem transitions_eq {ρ : Type} (rs : Entry σ τ X Act → ρ) : ∀ dataset : List (List (Entry σ τ X Act)),
    Spec.transitions rs dataset = (dataset.map (seqSteps rs)).flatten
  | [] => rfl
  | [] :: eps => by
    rw [Spec.transitions, transitions_eq rs eps]; simp [seqSteps]
  | (e :: es) :: eps => by
    rw [Spec.transitions, transitions_eq rs eps]; simp [seqSteps]

theorem steps_fst {ρ : Type} (s : ρ) : ∀ (past : List X) (es : List (Entry σ τ X Act)), (Spec.steps s past es).map Prod.fst = es
  | _, [] => rfl
  | past, e :: es => by rw [Spec.steps, List.map_cons, steps_fst s _ es]

theorem seqSteps_fst {ρ : Type} (rs : Entry σ τ X Act → ρ) : ∀ es : List (Entry σ τ X Act), (seqSteps rs es).map Prod.fst = es
  | [] => rfl
  | _ :: _ => steps_fst _ _ _

theorem transitions_fst {ρ : Type} (rs : Entry σ τ X Act → ρ) (dataset : List (List (Entry σ τ X Act))) :
    (Spec.transitions rs dataset).map Prod.fst = dataset.flatten := by
  rw [transitions_eq, List.map_flatten, List.map_map]
  congr 1
  conv_rhs => rw [← List.map_id dataset]
  exact List.map_congr_left fun es _ => seqSteps_fst rs es

theorem run_steps {ρ W : Type} (net : ρ → X → ρ × W) (s : ρ) : ∀ (past : List X) (es : List (Entry σ τ X Act)),
    (Pfrl.Recurrent.Spec.runSeq net (past.foldl (fun s x => (net s x).1) s) (es.map Entry.obs)).2
      = (Spec.steps s past es).map fun p => Spec.output net p.2
  | _, [] => rfl
  | past, e :: es => by
    have ih := run_steps net s (past ++ [e.obs]) es
    rw [List.foldl_append, List.foldl_cons, List.foldl_nil] at ih
    rw [List.map_cons, Pfrl.Recurrent.Spec.runSeq, Spec.steps, List.map_cons, ih]
    rfl

/-- The first transitions of sequences that are not empty. -/
theorem firsts_ok {ρ : Type} (rs : Entry σ τ X Act → ρ) : ∀ eps : List (List (Entry σ τ X Act)), (∀ ep ∈ eps, ep ≠ []) →
    ∃ l, firsts rs eps = .ok l ∧ l.length = eps.length ∧ ∀ {W : Type} (net : ρ → X → ρ × W),
      List.zipWith (fun s xs => (Pfrl.Recurrent.Spec.runSeq net s xs).2) l (eps.map (List.map Entry.obs))
        = (eps.map (seqSteps rs)).map (List.map fun p => Spec.output net p.2)
  | [], _ => ⟨[], rfl, rfl, fun _ => rfl⟩
  | [] :: eps, h => absurd rfl (h [] List.mem_cons_self)
  | (e :: es) :: eps, h => by
    obtain ⟨l, h1, h2, h3⟩ := firsts_ok rs eps fun ep hep => h ep (List.mem_cons_of_mem _ hep)
    refine ⟨rs e :: l, by simp only [firsts, first, h1], by simp [h2], fun net => ?_⟩
    rw [List.map_cons, List.zipWith_cons_cons, h3 net, List.map_cons, List.map_cons]
    congr 1
    exact run_steps net (rs e) [] (e :: es)

/-- All transitions in the order of the packed rows. -/
def rows {ρ : Type} (rs : Entry σ τ X Act → ρ) (sorted : List (List (Entry σ τ X Act))) : List (Entry σ τ X Act × History ρ X) :=
  flattenTimeFirst (sorted.map (seqSteps rs))

theorem rows_fst {ρ : Type} (rs : Entry σ τ X Act → ρ) (sorted : List (List (Entry σ τ X Act))) :
    flattenTimeFirst sorted = (rows rs sorted).map Prod.fst := by
  unfold rows
  rw [← flatten_map, List.map_map]
  congr 1
  conv_lhs => rw [← List.map_id sorted]
  exact List.map_congr_left fun es _ => (seqSteps_fst rs es).symm

theorem forward_ok {ρ : Type} (rs : Entry σ τ X Act → ρ) {dataset : List (List (Entry σ τ X Act))} (hne : ∀ ep ∈ dataset, ep ≠ []) :
    ∃ l, firsts rs (sortedDesc dataset) = .ok l ∧ ∀ {W : Type}, ∃ forward : (ρ → X → ρ × W) → List W,
      packAndForward l ((sortedDesc dataset).map (List.map Entry.obs)) = .ok forward ∧
      ∀ net, forward net = (rows rs (sortedDesc dataset)).map fun p => Spec.output net p.2 := by
  have hne' : ∀ ep ∈ sortedDesc dataset, ep ≠ [] := fun ep hep => hne ep ((sortedDesc_perm dataset).mem_iff.mp hep)
  obtain ⟨l, h1, h2, h3⟩ := firsts_ok rs (sortedDesc dataset) hne'
  have hsort : ((sortedDesc dataset).map (List.map Entry.obs)).Pairwise fun a b => b.length ≤ a.length := by
    rw [List.pairwise_map]
    simpa using sortedDesc_sorted dataset
  refine ⟨l, h1, fun {W} => ?_⟩
  have hp : packSequence ((sortedDesc dataset).map (List.map Entry.obs)) =
      .ok ⟨.packed (batchSizes ((sortedDesc dataset).map (List.map Entry.obs))), flattenTimeFirst ((sortedDesc dataset).map (List.map Entry.obs))⟩ := by
    unfold packSequence
    rw [if_pos ⟨by
      rw [List.all_eq_true]
      intro s hs
      obtain ⟨ep, hep, rfl⟩ := List.mem_map.mp hs
      have := hne' ep hep
      cases ep with
      | nil => exact absurd rfl this
      | cons e es => rfl, hsort⟩]
  unfold packAndForward
  rw [hp]
  refine ⟨_, rfl, fun net => ?_⟩
  have hl : l.length = ((sortedDesc dataset).map (List.map Entry.obs)).length := by rw [h2, List.length_map]
  have hspec := cellLoop_spec net (maxLen ((sortedDesc dataset).map (List.map Entry.obs))) _ l hsort (length_le_maxLen _) hl
  have hfin : (cellLoop net (batchSizes ((sortedDesc dataset).map (List.map Entry.obs)))
      (flattenTimeFirst ((sortedDesc dataset).map (List.map Entry.obs))) l).1
      = flattenTimeFirst (List.zipWith (fun s xs => (Pfrl.Recurrent.Spec.runSeq net s xs).2) l ((sortedDesc dataset).map (List.map Entry.obs))) := by
    rw [flatten_eq, batchSizes, hspec, flatten_eq, maxLen_congr (sameLengths_run net l _ hl)]
  rw [hfin, h3 net, flatten_map]
  rfl

theorem rows_perm {ρ : Type} (rs : Entry σ τ X Act → ρ) (dataset : List (List (Entry σ τ X Act))) :
    (rows rs (sortedDesc dataset)).Perm (Spec.transitions rs dataset) := by
  unfold rows
  have hsort : ((sortedDesc dataset).map (seqSteps rs)).Pairwise fun a b => b.length ≤ a.length := by
    rw [List.pairwise_map]
    refine (sortedDesc_sorted dataset).imp fun {a b} h => ?_
    rw [← List.length_map (f := Prod.fst) (as := seqSteps rs b), ← List.length_map (f := Prod.fst) (as := seqSteps rs a),
      seqSteps_fst, seqSteps_fst]
    exact h
  refine (flatten_time_first_packed _ hsort).2.trans ?_
  rw [transitions_eq]
  exact ((sortedDesc_perm dataset).map _).flatten

theorem mean_perm {l l' : List ℝ} (h : l.Perm l') : Ppo.Loss.mean l = Ppo.Loss.mean l' := by
  unfold Ppo.Loss.mean
  rw [h.sum_eq, h.length_eq]

theorem std_perm {l l' : List ℝ} (h : l.Perm l') : Ppo.Loss.std l = Ppo.Loss.std l' := by
  unfold Ppo.Loss.std
  rw [mean_perm h, mean_perm (h.map _)]

theorem flat_advs_perm (dataset : List (List (Entry σ τ X Act))) :
    ((flattenTimeFirst (sortedDesc dataset)).map Entry.adv).Perm (dataset.flatten.map Entry.adv) :=
  ((flatten_time_first_packed _ (sortedDesc_sorted dataset)).2.trans (sortedDesc_perm dataset).flatten).map _

theorem advantage_eq (standardize : Bool) (dataset : List (List (Entry σ τ X Act))) (e : Entry σ τ X Act) :
    Ppo.Loss.standard standardize ((flattenTimeFirst (sortedDesc dataset)).map Entry.adv) e.adv = Spec.advantage standardize dataset e := by
  unfold Ppo.Loss.standard Spec.advantage
  rw [mean_perm (flat_advs_perm dataset), std_perm (flat_advs_perm dataset)]
  unfold Ppo.Loss.std Ppo.Loss.mean
  simp only [List.length_map]

theorem mean_transitions {ρ : Type} (rs : Entry σ τ X Act → ρ) (dataset : List (List (Entry σ τ X Act)))
    (f : Entry σ τ X Act × History ρ X → ℝ) :
    Ppo.Loss.mean ((rows rs (sortedDesc dataset)).map f) = ((Spec.transitions rs dataset).map f).sum / dataset.flatten.length := by
  rw [mean_perm ((rows_perm rs dataset).map f)]
  unfold Ppo.Loss.mean
  rw [List.length_map, ← List.length_map (f := Prod.fst) (as := Spec.transitions rs dataset), transitions_fst]

theorem gainOf_eq (H : Heads D Act) (net : E → σ → X → σ × D) (standardize : Bool) (dataset : List (List (Entry σ τ X Act)))
    (coef : ℝ) (θ : E) :
    gainOf H coef ((rows Entry.rs (sortedDesc dataset)).map fun p => Spec.output (net θ) p.2)
      ((flattenTimeFirst (sortedDesc dataset)).map Entry.action) ((flattenTimeFirst (sortedDesc dataset)).map Entry.logProb)
      ((flattenTimeFirst (sortedDesc dataset)).map fun e =>
        Ppo.Loss.standard standardize ((flattenTimeFirst (sortedDesc dataset)).map Entry.adv) e.adv)
      = Spec.gain H net standardize dataset coef θ := by
  unfold gainOf Spec.gain
  simp only [advantage_eq]
  rw [rows_fst Entry.rs]
  simp only [List.map_map, List.zipWith_map, List.zipWith_self]
  rw [← mean_transitions Entry.rs dataset, ← mean_transitions Entry.rs dataset]
  rfl

theorem klOf_eq (H : Heads D Act) (net : E → σ → X → σ × D) (dataset : List (List (Entry σ τ X Act))) (θ₀ θ : E) :
    klOf H ((rows Entry.rs (sortedDesc dataset)).map fun p => Spec.output (net θ₀) p.2)
      ((rows Entry.rs (sortedDesc dataset)).map fun p => Spec.output (net θ) p.2) = Spec.divergence H net dataset θ₀ θ := by
  unfold klOf Spec.divergence
  rw [List.zipWith_map, List.zipWith_self, ← mean_transitions Entry.rs dataset]

/-- The update, in terms of the means over all transitions. -/
theorem update_eq {n : Nat} (H : Heads D Act) (net : EuclideanSpace ℝ (Fin n) → σ → X → σ × D) (standardize : Bool)
    {dataset : List (List (Entry σ τ X Act))} (hne : ∀ ep ∈ dataset, ep ≠ []) (coef damping tol : ℝ) (maxIter : Nat) (maxKl : ℝ)
    (maxBacktrack : Nat) (params : List (List ℝ)) :
    updatePolicyRecurrent H net standardize dataset coef damping tol maxIter maxKl maxBacktrack params =
      .ok ((klStep (fisherVectorProduct (Spec.divergence H net dataset (ofParams n params)) damping (ofParams n params))
        (∇ (Spec.gain H net standardize dataset coef) (ofParams n params)) tol maxIter maxKl).map fun d =>
          lineSearch ⟨fun a s b => a + s * b, fun p => .fin (Spec.gain H net standardize dataset coef (ofParams n p)),
            fun p => .fin (Spec.divergence H net dataset (ofParams n params) (ofParams n p))⟩
          (.fin (Spec.gain H net standardize dataset coef (ofParams n params))) maxKl maxBacktrack params (List.ofFn fun i => d i)) := by
  obtain ⟨l, h1, h2⟩ := forward_ok Entry.rs hne
  obtain ⟨forward, h3, h4⟩ := h2 (W := D)
  unfold updatePolicyRecurrent
  simp only [h1, h3, h4, gainOf_eq, klOf_eq]

theorem mean_ofFn {N : Nat} {α : Type} (f : Fin N → α) (g : α → ℝ) : mean (fun i => g (f i)) = Ppo.Loss.mean ((List.ofFn f).map g) := by
  unfold mean Ppo.Loss.mean
  rw [List.map_ofFn, List.sum_ofFn, List.length_ofFn]
  rfl

theorem lists_mean {N : Nat} {standardize : Bool} {dataset : List (List (Entry σ τ X Act))} {batch : Fin N → Transition (History σ X) Act}
    (h : Spec.Lists standardize dataset batch) (g : Transition (History σ X) Act → ℝ) :
    mean (fun i => g (batch i)) = ((Spec.transitions Entry.rs dataset).map fun p =>
      g ⟨p.2, p.1.action, p.1.logProb, Spec.advantage standardize dataset p.1⟩).sum / dataset.flatten.length := by
  rw [mean_ofFn batch g, mean_perm (h.map g), List.map_map]
  unfold Ppo.Loss.mean
  rw [List.length_map, ← transitions_fst Entry.rs dataset, List.length_map]
  rfl

theorem gain_lists {N : Nat} {H : Heads D Act} {net : E → σ → X → σ × D} {standardize : Bool} {dataset : List (List (Entry σ τ X Act))}
    {batch : Fin N → Transition (History σ X) Act} (h : Spec.Lists standardize dataset batch) (coef : ℝ) :
    Update.gain (Spec.policy H net) batch coef = Spec.gain H net standardize dataset coef := by
  funext θ
  unfold Update.gain Spec.gain
  rw [lists_mean h fun t => Real.exp ((Spec.policy H net).logProb θ t.state t.action - t.logProb) * t.adv,
    lists_mean h fun t => (Spec.policy H net).entropy θ t.state]
  rfl

theorem kl_lists {N : Nat} {H : Heads D Act} {net : E → σ → X → σ × D} {standardize : Bool} {dataset : List (List (Entry σ τ X Act))}
    {batch : Fin N → Transition (History σ X) Act} (h : Spec.Lists standardize dataset batch) (θ₀ : E) :
    meanKl (Spec.policy H net) batch θ₀ = Spec.divergence H net dataset θ₀ := by
  funext θ
  unfold meanKl Spec.divergence
  rw [lists_mean h fun t => (Spec.policy H net).kl t.state θ₀ θ]
  rfl

/-! ## C128 -/

/-- **C128 (the policy).** For every data set of sequences that are not empty, in whatever order: the update of a recurrent policy is the
update of C116 for the policy as a function of histories, on a batch that has every transition once, with its own action, stored
log-probability and advantage, and with the history that it has in its own sequence. -/
theorem trpo_recurrent_is_update_on_histories {n N : Nat} (H : Heads D Act) (net : EuclideanSpace ℝ (Fin n) → σ → X → σ × D)
    (standardize : Bool) {dataset : List (List (Entry σ τ X Act))} (hne : ∀ ep ∈ dataset, ep ≠ [])
    (batch : Fin N → Transition (History σ X) Act) (hb : Spec.Lists standardize dataset batch)
    (coef damping tol : ℝ) (maxIter : Nat) (maxKl : ℝ) (maxBacktrack : Nat) (params : List (List ℝ)) :
    updatePolicyRecurrent H net standardize dataset coef damping tol maxIter maxKl maxBacktrack params =
      .ok (updatePolicy (Spec.policy H net) batch coef damping tol maxIter maxKl maxBacktrack params) := by
  rw [update_eq H net standardize hne]
  unfold updatePolicy fullStep searched
  simp only [gain_lists hb, kl_lists hb]

/-- **C128 (the order of the sequences).** It does not depend on the order of the sequences in the data set. -/
theorem trpo_recurrent_order {n : Nat} (H : Heads D Act) (net : EuclideanSpace ℝ (Fin n) → σ → X → σ × D)
    (standardize : Bool) {dataset dataset' : List (List (Entry σ τ X Act))} (hp : dataset.Perm dataset') (hne : ∀ ep ∈ dataset, ep ≠ [])
    (coef damping tol : ℝ) (maxIter : Nat) (maxKl : ℝ) (maxBacktrack : Nat) (params : List (List ℝ)) :
    updatePolicyRecurrent H net standardize dataset coef damping tol maxIter maxKl maxBacktrack params =
      updatePolicyRecurrent H net standardize dataset' coef damping tol maxIter maxKl maxBacktrack params := by
  have ht : (Spec.transitions Entry.rs dataset).Perm (Spec.transitions Entry.rs dataset') := by
    rw [transitions_eq, transitions_eq]
    exact (hp.map _).flatten
  have ha : ∀ e, Spec.advantage standardize dataset e = Spec.advantage standardize dataset' e := by
    intro e
    have hall : (dataset.flatten.map Entry.adv).Perm (dataset'.flatten.map Entry.adv) := hp.flatten.map _
    unfold Spec.advantage
    simp only [hall.sum_eq, hall.length_eq, (hall.map _).sum_eq]
  have hg : Spec.gain H net standardize dataset coef = Spec.gain H net standardize dataset' coef := by
    funext θ
    unfold Spec.gain
    simp only [ha]
    rw [(ht.map _).sum_eq, (ht.map fun p => H.entropy (Spec.output (net θ) p.2)).sum_eq, hp.flatten.length_eq]
  have hk : ∀ θ₀, Spec.divergence H net dataset θ₀ = Spec.divergence H net dataset' θ₀ := by
    intro θ₀
    funext θ
    unfold Spec.divergence
    rw [(ht.map _).sum_eq, hp.flatten.length_eq]
  rw [update_eq H net standardize hne, update_eq H net standardize fun ep hep => hne ep (hp.mem_iff.mpr hep), hg, hk]

/-- **C128 (the guarantee).** Let the policy be smooth as a function of its parameters for every history, the gradient of the surrogate gain
not zero, and the settings positive.  If the line search may backtrack often enough, the update ends with parameters of the same shapes
for which the gain over all transitions is not smaller and the mean divergence over all histories does not exceed the bound. -/
theorem trpo_recurrent_guarantee {n : Nat} (H : Heads D Act) (net : EuclideanSpace ℝ (Fin n) → σ → X → σ × D)
    (hP : Update.Spec.Smooth (Spec.policy H net)) (standardize : Bool) {dataset : List (List (Entry σ τ X Act))} (hne : ∀ ep ∈ dataset, ep ≠ [])
    {coef damping tol maxKl : ℝ} {maxIter : Nat} {params : List (List ℝ)} (hn : params.flatten.length = n)
    (hg : ∇ (Spec.gain H net standardize dataset coef) (ofParams n params) ≠ 0) (hdamp : 0 < damping) (htol : 0 < tol) (hkl : 0 < maxKl)
    (hit : 0 < maxIter) :
    ∃ enough, ∀ maxBacktrack, enough ≤ maxBacktrack →
      ∃ i params', updatePolicyRecurrent H net standardize dataset coef damping tol maxIter maxKl maxBacktrack params
          = .ok (some ⟨params', (1 / 2) ^ i⟩) ∧
        params'.map List.length = params.map List.length ∧
        Spec.gain H net standardize dataset coef (ofParams n params) ≤ Spec.gain H net standardize dataset coef (ofParams n params') ∧
        Spec.divergence H net dataset (ofParams n params) (ofParams n params') ≤ maxKl := by
  set L := (Spec.transitions Entry.rs dataset).map fun p =>
    (⟨p.2, p.1.action, p.1.logProb, Spec.advantage standardize dataset p.1⟩ : Transition (History σ X) Act) with hL
  have hb : Spec.Lists standardize dataset L.get := by
    unfold Spec.Lists
    rw [List.ofFn_get]
  have hg' : ∇ (Update.gain (Spec.policy H net) L.get coef) (ofParams n params) ≠ 0 := by rw [gain_lists hb]; exact hg
  obtain ⟨d, -, -, -, enough, h⟩ := trpo_update hP L.get hn hg' hdamp htol hkl hit
  refine ⟨enough, fun mb hmb => ?_⟩
  obtain ⟨i, params', h1, h2, -, h4, h5⟩ := h mb hmb
  refine ⟨i, params', ?_, h2, ?_, ?_⟩
  · rw [trpo_recurrent_is_update_on_histories H net standardize hne L.get hb, h1]
  · rw [gain_lists hb] at h4; exact h4
  · rw [kl_lists hb] at h5; exact h5

/-- **C128 (the value function).** The loss of the value function on a minibatch of sequences that are not empty, in whatever order, is the mean
over their transitions of the squared difference between the target and what the network answers to the history of the transition
in its own sequence. -/
theorem trpo_recurrent_vf_loss {episodes : List (List (Entry σ τ X Act))} (hne : ∀ ep ∈ episodes, ep ≠ []) :
    ∃ loss, vfLossRecurrent episodes = .ok loss ∧ ∀ net : τ → X → τ × ℝ,
      loss net = ((Spec.transitions Entry.vrs episodes).map fun p => (Spec.output net p.2 - p.1.vTeacher) ^ 2).sum / episodes.flatten.length := by
  obtain ⟨l, h1, h2⟩ := forward_ok Entry.vrs hne
  obtain ⟨forward, h3, h4⟩ := h2 (W := ℝ)
  unfold vfLossRecurrent
  simp only [h1, h3]
  refine ⟨_, rfl, fun net => ?_⟩
  rw [h4, rows_fst Entry.vrs, List.map_map, List.zipWith_map, List.zipWith_self, ← mean_transitions Entry.vrs episodes]
  rfl

/-! ### Non-vacuity -/

/-- Categorical distributions given by their probabilities. -/
noncomputable def catHeads {A : Type} [Fintype A] : Heads (A → ℝ) A where
  logProb p a := Real.log (p a)
  entropy p := - ∑ a, p a * Real.log (p a)
  kl p q := ∑ a, p a * (Real.log (p a) - Real.log (q a))

/-- The probabilities of two actions with logits `x` and 0. -/
noncomputable def sigmoid (x : ℝ) (a : Bool) : ℝ := if a then Real.exp x / (Real.exp x + 1) else 1 / (Real.exp x + 1)

/-- A recurrent policy with one parameter: its state is the sum of the observations. -/
noncomputable def exNet (θ : EuclideanSpace ℝ (Fin 1)) (s x : ℝ) : ℝ × (Bool → ℝ) := (s + x, sigmoid (θ 0 * (s + x)))

theorem ex_smooth : Update.Spec.Smooth (Spec.policy catHeads exNet) := by
  have h : Spec.policy catHeads exNet = categorical fun θ (h : History ℝ ℝ) a => Spec.output (exNet θ) h a := rfl
  have hs : ∀ (θ : EuclideanSpace ℝ (Fin 1)) (l : List ℝ) (s : ℝ), l.foldl (fun s x => (exNet θ s x).1) s = s + l.sum := by
    intro θ l
    induction l with
    | nil => intro s; simp
    | cons x l ih =>
      intro s
      rw [List.foldl_cons, ih, List.sum_cons]
      simp only [exNet]
      ring
  have ho : ∀ (θ : EuclideanSpace ℝ (Fin 1)) (h : History ℝ ℝ), Spec.output (exNet θ) h = sigmoid (θ 0 * (h.1 + h.2.1.sum + h.2.2)) := by
    intro θ h
    unfold Spec.output
    rw [hs]
    rfl
  have h0 : ∀ x : ℝ, 0 < Real.exp x + 1 := fun x => by positivity
  rw [h]
  refine Update.Spec.Smooth.categorical _ ?_ ?_ ?_
  · intro θ h a
    rw [ho]
    have := h0 (θ 0 * (h.1 + h.2.1.sum + h.2.2))
    unfold sigmoid
    split <;> positivity
  · intro θ h
    rw [ho]
    have := (h0 (θ 0 * (h.1 + h.2.1.sum + h.2.2))).ne'
    simp only [Fintype.univ_bool, Finset.mem_singleton, Bool.true_eq_false, not_false_eq_true, Finset.sum_insert, Finset.sum_singleton,
      sigmoid, ite_true, Bool.false_eq_true, ite_false]
    field_simp
  · intro h a
    simp only [ho]
    have hc : ContDiff ℝ 2 fun θ : EuclideanSpace ℝ (Fin 1) => Real.exp (θ 0 * (h.1 + h.2.1.sum + h.2.2)) := by fun_prop
    unfold sigmoid
    cases a
    · exact contDiff_const.div (hc.add contDiff_const) fun θ => (h0 _).ne'
    · exact hc.div (hc.add contDiff_const) fun θ => (h0 _).ne'

noncomputable def exEntry (x : ℝ) : Entry ℝ Unit ℝ Bool := ⟨x, true, Real.log (1 / 2), 1, 0, 0, ()⟩

/-- Two sequences, not sorted by length. -/
noncomputable def exData : List (List (Entry ℝ Unit ℝ Bool)) := [[exEntry 1], [exEntry 1, exEntry 2]]

theorem exData_gain (θ : EuclideanSpace ℝ (Fin 1)) : Spec.gain catHeads exNet false exData 0 θ =
    (2 * sigmoid (θ 0 * 1) true + 2 * sigmoid (θ 0 * 1) true + 2 * sigmoid (θ 0 * 3) true) / 3 := by
  have hp : ∀ x : ℝ, Real.exp (Real.log (sigmoid x true) - Real.log (1 / 2)) = 2 * sigmoid x true := by
    intro x
    have : 0 < sigmoid x true := by unfold sigmoid; simp only [if_true]; positivity
    rw [Real.exp_sub, Real.exp_log this, Real.exp_log (by norm_num)]
    ring
  have e3 : (0 : ℝ) + 1 + 2 = 3 := by norm_num
  simp only [Spec.gain, exData, Spec.transitions, Spec.steps, Spec.advantage, exEntry, Spec.output, exNet, catHeads, List.map_cons, List.map_nil,
    List.append_nil, List.cons_append, List.nil_append, List.foldl_nil, List.foldl_cons, List.sum_cons, List.sum_nil, List.flatten_cons,
    List.flatten_nil, List.length_cons, List.length_nil, Bool.false_eq_true, if_false, zero_mul, add_zero, mul_one, zero_add, hp]
  norm_num
  ring

theorem ex_gradient : ∇ (Spec.gain catHeads exNet false exData 0) (ofParams 1 [[0]]) ≠ 0 := by
  intro h
  have hd : DifferentiableAt ℝ (Spec.gain catHeads exNet false exData 0) (ofParams 1 [[0]]) := by
    rw [funext exData_gain]
    have hs : ∀ k : ℝ, ContDiff ℝ 1 (fun θ : EuclideanSpace ℝ (Fin 1) => sigmoid (θ 0 * k) true) := by
      intro k
      unfold sigmoid
      simp only [if_true]
      have he : ContDiff ℝ 1 (fun θ : EuclideanSpace ℝ (Fin 1) => Real.exp (θ 0 * k)) := by fun_prop
      exact he.div (he.add contDiff_const) fun θ => by positivity
    exact ((((contDiff_const.mul (hs 1)).add (contDiff_const.mul (hs 1))).add (contDiff_const.mul (hs 3))).div_const 3).differentiable
      (by norm_num) _
  have hl : HasDerivAt (fun t : ℝ => Spec.gain catHeads exNet false exData 0 (ofParams 1 [[0]] + t • EuclideanSpace.single 0 1)) 0 0 := by
    have hf : HasFDerivAt (Spec.gain catHeads exNet false exData 0) (fderiv ℝ (Spec.gain catHeads exNet false exData 0) (ofParams 1 [[0]]))
        (ofParams 1 [[0]] + (0 : ℝ) • EuclideanSpace.single 0 1) := by
      rw [zero_smul, add_zero]
      exact hd.hasFDerivAt
    have := hf.comp_hasDerivAt (0 : ℝ) (line_hasDerivAt (ofParams 1 [[0]]) (EuclideanSpace.single 0 1) 0)
    rwa [← inner_gradient_left, h, inner_zero_left] at this
  have he : (fun t : ℝ => Spec.gain catHeads exNet false exData 0 (ofParams 1 [[0]] + t • EuclideanSpace.single 0 1))
      = fun t => (2 * sigmoid (t * 1) true + 2 * sigmoid (t * 1) true + 2 * sigmoid (t * 3) true) / 3 := by
    funext t
    rw [exData_gain]
    have : (ofParams 1 [[0]] + t • EuclideanSpace.single (0 : Fin 1) (1 : ℝ)) 0 = t := by simp [ofParams]
    rw [this]
  rw [he] at hl
  have hs : ∀ k : ℝ, HasDerivAt (fun t : ℝ => sigmoid (t * k) true) (k / 4) 0 := by
    intro k
    unfold sigmoid
    simp only [if_true]
    have he : HasDerivAt (fun t : ℝ => Real.exp (t * k)) k 0 := by
      have := ((hasDerivAt_id (0 : ℝ)).mul_const k).exp
      simpa using this
    refine (he.fun_div (he.add_const 1) (by positivity)).congr_deriv ?_
    rw [zero_mul, Real.exp_zero]
    ring
  have h2 := ((((hs 1).const_mul 2).fun_add ((hs 1).const_mul 2)).fun_add ((hs 3).const_mul 2)).div_const 3
  have := hl.unique h2
  norm_num at this

/-- The guarantee for this policy. -/
example : ∃ enough, ∀ maxBacktrack, enough ≤ maxBacktrack →
    ∃ i params', updatePolicyRecurrent catHeads exNet false exData 0 (1 / 100) (1 / 10 ^ 10) 10 (1 / 100) maxBacktrack [[0]]
        = .ok (some ⟨params', (1 / 2) ^ i⟩) ∧ params'.map List.length = [1] ∧
      Spec.gain catHeads exNet false exData 0 (ofParams 1 [[0]]) ≤ Spec.gain catHeads exNet false exData 0 (ofParams 1 params') ∧
      Spec.divergence catHeads exNet exData (ofParams 1 [[0]]) (ofParams 1 params') ≤ 1 / 100 :=
  trpo_recurrent_guarantee catHeads exNet ex_smooth false (by simp [exData]) rfl ex_gradient (by norm_num) (by norm_num) (by norm_num)
    (by norm_num)

/-- The histories of the sequences above. -/
example : (Spec.transitions Entry.rs exData).map Prod.snd = [(0, [], 1), (0, [], 1), (0, [1], 2)] := rfl

end Pfrl.Trpo.Recurrent
