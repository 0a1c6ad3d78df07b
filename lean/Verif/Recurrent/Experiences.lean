import Verif.Recurrent.Cell
import Mathlib.Data.List.Sort

/-!
# Batches of sequences for recurrent models (C77)
-/

namespace Pfrl.Recurrent

variable {σ V X A R : Type _}

/-! ## Model -/

/-- A stored transition: the keys of the dicts that `batch_recurrent_experiences` reads. -/
structure Tr (σ X A R : Type _) where
  state : X
  action : A
  reward : R
  terminal : Bool
  nextState : X
  nextAction : Option A
  recurrentState : State σ
  nextRecurrentState : State σ

/-- The dict that `batch_recurrent_experiences` returns. -/
structure RecBatch (σ V A R : Type _) where
  state : List (Tree (Block V))
  action : List A
  reward : List R
  nextState : List (Tree (Block V))
  terminal : List Bool
  discount : List R
  recurrentState : Batched σ
  nextRecurrentState : Batched σ
  nextAction : Option (List A)

/-- `_is_sorted_desc_by_lengths`, `pfrl/replay_buffer.py:215-216`. -/
def isSortedDesc {α : Type _} : List (List α) → Bool
  | a :: b :: rest => decide (b.length ≤ a.length) && isSortedDesc (b :: rest)
  | _ => true

/-- `ep[0]`. -/
def first {α : Type _} : List α → Except PyErr α
  | [] => .error .indexError
  | x :: _ => .ok x

/-- `batch_recurrent_experiences`, `replay_buffer.py:219-287`.  `batchStates` is `batch_states` with `phi`; moving between numpy
and torch is the identity on values. -/
def batchRecurrent [Zero σ] (batchStates : List X → Tree (Block V)) (gamma : R) (experiences : List (List (Tr σ X A R))) :
    Except PyErr (RecBatch σ V A R) :=
  if isSortedDesc experiences then
    match mapE first experiences with
    | .error e => .error e
    | .ok firsts =>
      match concatenate (firsts.map Tr.recurrentState) with
      | .error e => .error e
      | .ok rs =>
        match concatenate (firsts.map Tr.nextRecurrentState) with
        | .error e => .error e
        | .ok nrs => .ok
          { state := experiences.map fun ep => batchStates (ep.map Tr.state)
            action := (flattenTimeFirst experiences).map Tr.action
            reward := (flattenTimeFirst experiences).map Tr.reward
            nextState := experiences.map fun ep => batchStates (ep.map Tr.nextState)
            terminal := (flattenTimeFirst experiences).map Tr.terminal
            discount := List.replicate (flattenTimeFirst experiences).length gamma
            recurrentState := rs
            nextRecurrentState := nrs
            nextAction := if (flattenTimeFirst experiences).all fun tr => tr.nextAction.isSome
              then some ((flattenTimeFirst experiences).filterMap Tr.nextAction) else none }
  else .error .assertionError

/-- `sorted(episodes, key=len, reverse=True)`, which is stable: `pfrl/agents/dqn.py:371`, `ppo.py:65`, `540`, `trpo.py:348`,
`486`. -/
def sortedDesc {α : Type _} (episodes : List (List α)) : List (List α) :=
  episodes.mergeSort fun a b => decide (b.length ≤ a.length)

/-! ## Specification -/

/-- Batching the observations of an episode gives the tensors of these items. -/
def Spec.Batches (batchStates : List X → Tree (Block V)) (item : X → Item V) : Prop :=
  ∀ xs, xs ≠ [] → Spec.Holds .tensor (batchStates xs) (xs.map item)

/-- What a machine puts out at time `t` of a sequence that begins in some state. -/
def Spec.outputAt (step : State σ → Item V → State σ × Item V) (s : State σ) (xs : List (Item V)) (t : Nat) :
    Option (Item V) := (Spec.runSeq step s xs).2[t]?

/-! ## Lemmas -/

theorem isSortedDesc_iff {α : Type _} : ∀ seqs : List (List α),
    isSortedDesc seqs = true ↔ seqs.Pairwise fun a b => b.length ≤ a.length
  | [] => by simp [isSortedDesc]
  | [a] => by simp [isSortedDesc]
  | a :: b :: rest => by
    rw [isSortedDesc, Bool.and_eq_true, isSortedDesc_iff (b :: rest), List.pairwise_cons (a := a), decide_eq_true_iff]
    constructor
    · rintro ⟨h1, h2⟩
      refine ⟨?_, h2⟩
      intro c hc
      rcases List.mem_cons.mp hc with rfl | hc
      · exact h1
      · exact Nat.le_trans ((List.pairwise_cons.mp h2).1 c hc) h1
    · rintro ⟨h1, h2⟩
      exact ⟨h1 b (by simp), h2⟩

theorem sortedDesc_sorted {α : Type _} (episodes : List (List α)) :
    (sortedDesc episodes).Pairwise fun a b => b.length ≤ a.length := by
  have := List.pairwise_mergeSort (le := fun a b : List α => decide (b.length ≤ a.length)) (by
    intro a b c h1 h2
    simp only [decide_eq_true_eq] at *
    omega) (by
    intro a b
    simp only [Bool.or_eq_true, decide_eq_true_eq]
    omega) episodes
  simpa [sortedDesc] using this

theorem sortedDesc_perm {α : Type _} (episodes : List (List α)) : (sortedDesc episodes).Perm episodes :=
  List.mergeSort_perm _ _

theorem mapE_first {α : Type _} {seqs : List (List α)} (h : ∀ s ∈ seqs, s ≠ []) :
    ∃ fs, mapE first seqs = .ok fs ∧ List.Forall₂ (fun s x => s.head? = some x) seqs fs := by
  apply mapE_ok
  intro s hs
  cases s with
  | nil => exact absurd rfl (h [] hs)
  | cons x s => exact ⟨x, rfl, rfl⟩

theorem flatten_index {β : Type _} (f : Nat → List β) : ∀ (n k : Nat), k < ((List.range n).map f).flatten.length →
    ∃ t i, t < n ∧ i < (f t).length ∧ k = ((List.range t).map fun j => (f j).length).sum + i
  | 0, k, h => by simp at h
  | n + 1, k, h => by
    rw [List.range_succ, List.map_append, List.flatten_append, List.length_append] at h
    by_cases hk : k < ((List.range n).map f).flatten.length
    · obtain ⟨t, i, h1, h2, h3⟩ := flatten_index f n k hk
      exact ⟨t, i, by omega, h2, h3⟩
    · have hlen : ((List.range n).map f).flatten.length = ((List.range n).map fun j => (f j).length).sum := by
        rw [List.length_flatten, List.map_map]
        rfl
      refine ⟨n, k - ((List.range n).map f).flatten.length, by omega, ?_, ?_⟩
      · simp only [List.map_cons, List.map_nil, List.flatten_cons, List.flatten_nil, List.append_nil] at h
        omega
      · rw [← hlen]
        omega

theorem batchSize_index {α : Type _} : ∀ {seqs : List (List α)}, seqs.Pairwise (fun a b => b.length ≤ a.length) →
    ∀ {t i : Nat}, i < Spec.batchSize seqs t → ∃ hi : i < seqs.length, t < seqs[i].length
  | [], _, t, i, h => by simp [Spec.batchSize] at h
  | s :: seqs, hs, t, i, h => by
    rw [List.pairwise_cons] at hs
    have hst : t < s.length := by
      by_contra hn
      have : Spec.batchSize (s :: seqs) t = 0 := by
        unfold Spec.batchSize
        rw [List.countP_eq_zero]
        intro s' hs'
        rcases List.mem_cons.mp hs' with rfl | hs'
        · simpa using hn
        · have := hs.1 s' hs'
          simp only [decide_eq_true_eq]
          omega
      omega
    cases i with
    | zero => exact ⟨by simp, hst⟩
    | succ i =>
      have : i < Spec.batchSize seqs t := by
        unfold Spec.batchSize at h ⊢
        rw [List.countP_cons_of_pos (by simpa using hst)] at h
        omega
      obtain ⟨h1, h2⟩ := batchSize_index hs.2 this
      exact ⟨by simpa using h1, h2⟩

/-- Every place in the flattened list belongs to an item. -/
theorem packed_index {α : Type _} {seqs : List (List α)} (hs : seqs.Pairwise fun a b => b.length ≤ a.length) {k : Nat}
    (hk : k < (flattenTimeFirst seqs).length) : ∃ (i t : Nat) (hi : i < seqs.length) (_ : t < seqs[i].length),
      k = Spec.packedIndex seqs t i := by
  rw [flatten_eq] at hk
  obtain ⟨t, i, _, h2, h3⟩ := flatten_index _ _ _ hk
  rw [row_length] at h2
  obtain ⟨hi, ht⟩ := batchSize_index hs h2
  refine ⟨i, t, hi, ht, ?_⟩
  rw [h3]
  unfold Spec.packedIndex
  simp only [row_length]

theorem filterMap_some {α β : Type _} {f : α → Option β} : ∀ {l : List α}, (∀ x ∈ l, (f x).isSome) →
    (l.filterMap f).map some = l.map f
  | [], _ => rfl
  | x :: l, h => by
    obtain ⟨y, hy⟩ := Option.isSome_iff_exists.mp (h x (by simp))
    rw [List.filterMap_cons_some hy, List.map_cons, List.map_cons, filterMap_some fun z hz => h z (by simp [hz]), hy]

theorem batch_of {batchStates : List X → Tree (Block V)} {item : X → Item V} (hb : Spec.Batches batchStates item)
    {form : Tree Unit} (hform : ∀ x, (item x).map (fun _ => ()) = form) (ht : ∀ x, Spec.Tensors (item x))
    {seqs : List (List X)} (hp : Spec.Packable seqs) : Batch form (seqs.map batchStates) (seqs.map (List.map item)) := by
  refine ⟨?_, packable_congr (sameLengths_map _ _).symm hp, ?_, ?_⟩
  · rw [List.forall₂_map_left_iff, List.forall₂_map_right_iff, List.forall₂_same]
    intro s hs
    exact hb s (hp.nonempty s hs)
  · intro s hs x hx
    obtain ⟨s', _, rfl⟩ := List.mem_map.mp hs
    obtain ⟨x', _, rfl⟩ := List.mem_map.mp hx
    exact hform x'
  · intro s hs x hx
    obtain ⟨s', _, rfl⟩ := List.mem_map.mp hs
    obtain ⟨x', _, rfl⟩ := List.mem_map.mp hx
    exact (ht x').2

/-- Forward computation on one kind of observation of the sorted episodes. -/
theorem forward_rows [Zero σ] {rnn : Rnn σ V} {S : State σ → Prop} {I J : Item V → Prop}
    {step : State σ → Item V → State σ × Item V} (hm : Spec.IsMachine rnn S I J step)
    {batchStates : List X → Tree (Block V)} {item : X → Item V} (hb : Spec.Batches batchStates item)
    {form : Tree Unit} (hform : ∀ x, (item x).map (fun _ => ()) = form) (ht : ∀ x, Spec.Tensors (item x)) (hI : ∀ x, I (item x))
    {sh : Shape} {eps : List (List (Tr σ X A R))} (hp : Spec.Packable eps) (obs : Tr σ X A R → X) (rs : Tr σ X A R → State σ)
    (hrs : ∀ ep ∈ eps, ∀ tr ∈ ep, Spec.HasShape sh (rs tr))
    (hS : ∀ s, Spec.HasShape sh s → ∀ g, Spec.SameState s g → S g) {firsts : List (Tr σ X A R)}
    (hf : List.Forall₂ (fun s x => s.head? = some x) eps firsts) :
    ∃ b, concatenate (firsts.map rs) = .ok b ∧ ∃ y b', packAndForward rnn (eps.map fun ep => batchStates (ep.map obs)) b = .ok (y, b') ∧
      ∀ (i t : Nat) (hi : i < eps.length) (_ : t < eps[i].length), ∃ tr g o, eps[i].head? = some tr ∧ Spec.SameState (rs tr) g ∧
        Spec.outputAt step g (eps[i].map fun tr => item (obs tr)) t = some o ∧
        Spec.row (Spec.packedIndex eps t i) y = o.map fun v => (v.1, some v.2) := by
  have hfl := hf.length_eq
  have hfirst : ∀ (i : Nat) (hi : i < eps.length), ∃ hi' : i < firsts.length, eps[i].head? = some firsts[i] :=
    fun i hi => forall₂_getElem hf i hi
  have hshape : ∀ s ∈ firsts.map rs, Spec.HasShape sh s := by
    intro s hs
    obtain ⟨tr, htr, rfl⟩ := List.mem_map.mp hs
    obtain ⟨i, hi, rfl⟩ := List.mem_iff_getElem.mp htr
    obtain ⟨_, h1⟩ := hfirst i (by omega)
    exact hrs _ (List.getElem_mem (show i < eps.length by omega)) _ (List.mem_of_head? h1)
  obtain ⟨b, h1, h2, h3⟩ := concatenate_get_round_trip sh (firsts.map rs) hshape
  refine ⟨b, h1, ?_⟩
  have hex : ∃ gs : List (State σ), gs.length = eps.length ∧ ∀ (i : Nat) (g : State σ), gs[i]? = some g →
      getAt i b = .ok g ∧ ∃ hi : i < firsts.length, Spec.SameState (rs firsts[i]) g := by
    refine ⟨(firsts.map rs).mapIdx fun i _ => match getAt i b with | .ok g => g | .error _ => .none, by simp [hfl], ?_⟩
    intro i g hg
    rw [List.getElem?_mapIdx] at hg
    cases hs : (firsts.map rs)[i]? with
    | none => rw [hs] at hg; simp at hg
    | some s =>
      rw [hs, Option.map_some, Option.some.injEq] at hg
      obtain ⟨hi1, hi2⟩ := List.getElem?_eq_some_iff.mp hs
      obtain ⟨g', k1, k2⟩ := h3 i hi1
      rw [k1] at hg
      simp only at hg
      subst hg
      refine ⟨k1, by simpa using hi1, ?_⟩
      simpa using k2
  obtain ⟨gs, hgl, hg⟩ := hex
  have hpo : Spec.Packable (eps.map (List.map obs)) := packable_congr (sameLengths_map _ _).symm hp
  have hbatch := batch_of hb hform ht hpo
  rw [List.map_map, List.map_map] at hbatch
  have hfl' : form.leaves ≠ [] := by
    obtain ⟨s, hs⟩ := List.exists_mem_of_ne_nil _ hp.some
    obtain ⟨tr, htr⟩ := List.exists_mem_of_ne_nil _ (hp.nonempty s hs)
    rw [← hform (obs tr), Tree.leaves_map]
    intro he
    exact (ht (obs tr)).1 (List.map_eq_nil_iff.mp he)
  obtain ⟨y, b', k1, k2⟩ := pack_and_forward_spec hm hbatch hfl' (by
    intro s hs x hx
    obtain ⟨ep, _, rfl⟩ := List.mem_map.mp hs
    simp only [Function.comp_apply] at hx
    obtain ⟨x', _, rfl⟩ := List.mem_map.mp hx
    exact hI x') (by simpa using hgl) ⟨by
      rw [hgl, ← List.length_map (as := eps) (f := fun _ => ()), List.length_map, hfl]
      simpa using h2, fun i g hig => (hg i g hig).1⟩ (by
    intro g hgm
    obtain ⟨i, hi⟩ := List.getElem?_of_mem hgm
    obtain ⟨_, hi', hsame⟩ := hg i g hi
    exact hS _ (hshape _ (List.mem_map.mpr ⟨_, List.getElem_mem hi', rfl⟩)) g hsame)
  refine ⟨y, b', k1, ?_⟩
  intro i t hi hti
  have hgi := List.getElem?_eq_getElem (show i < gs.length by omega)
  obtain ⟨_, hi', hsame⟩ := hg i _ hgi
  obtain ⟨_, hhead⟩ := hfirst i hi
  have hseq : (eps.map (List.map item ∘ List.map obs))[i]? = some (eps[i].map fun tr => item (obs tr)) := by
    rw [List.getElem?_map, List.getElem?_eq_getElem hi, Option.map_some, Function.comp_apply, List.map_map]
    rfl
  obtain ⟨_, k3⟩ := k2 i _ _ hgi hseq
  have hlt : t < (Spec.runSeq step gs[i] (eps[i].map fun tr => item (obs tr))).2.length := by
    rw [runSeq_length, List.length_map]
    exact hti
  refine ⟨firsts[i], gs[i], _, hhead, hsame, List.getElem?_eq_getElem hlt, ?_⟩
  have := k3 t _ (List.getElem?_eq_getElem hlt)
  have hidx : Spec.packedIndex (eps.map (List.map item ∘ List.map obs)) t i = Spec.packedIndex eps t i := by
    unfold Spec.packedIndex
    rw [List.map_congr_left fun t _ => batchSize_congr (a := eps.map (List.map item ∘ List.map obs)) (b := eps) (by
      unfold SameLengths
      rw [List.map_map]
      apply List.map_congr_left
      intro s _
      simp) t]
  rw [hidx] at this
  exact this

/-! ## C77 -/

/-- **C77.** Take any episodes (or parts of episodes), none empty, in any order, and a recurrent model that is a machine (C76).
Sorting and batching them does not raise, and after forward computation on the states and the next states, every row `k`
belongs to one transition: the action, the reward and the end flag are those of the transition; the output for the state is
what the model computes at that point of the episode from the recurrent state stored with the first transition of the
episode; the output for the next state is the same with the next states and the stored next recurrent state.  Next actions
are in the batch if and only if every transition has one.  Every transition has one row. -/
theorem recurrent_batch_aligned [Zero σ] {rnn : Rnn σ V} {S : State σ → Prop} {I J : Item V → Prop}
    {step : State σ → Item V → State σ × Item V} (hm : Spec.IsMachine rnn S I J step)
    {batchStates : List X → Tree (Block V)} {item : X → Item V} (hb : Spec.Batches batchStates item)
    {form : Tree Unit} (hform : ∀ x, (item x).map (fun _ => ()) = form) (ht : ∀ x, Spec.Tensors (item x)) (hI : ∀ x, I (item x))
    {sh : Shape} (hS : ∀ s, Spec.HasShape sh s → ∀ g, Spec.SameState s g → S g) (gamma : R)
    {episodes : List (List (Tr σ X A R))} (hne : episodes ≠ []) (hnonempty : ∀ ep ∈ episodes, ep ≠ [])
    (hrs : ∀ ep ∈ episodes, ∀ tr ∈ ep, Spec.HasShape sh tr.recurrentState ∧ Spec.HasShape sh tr.nextRecurrentState) :
    ∃ (batch : RecBatch σ V A R) (y : Tree (Block V)) (b' : Batched σ) (ny : Tree (Block V)) (nb' : Batched σ)
      (flat : List (Tr σ X A R)), batchRecurrent batchStates gamma (sortedDesc episodes) = .ok batch ∧
      packAndForward rnn batch.state batch.recurrentState = .ok (y, b') ∧
      packAndForward rnn batch.nextState batch.nextRecurrentState = .ok (ny, nb') ∧
      flat.Perm episodes.flatten ∧ batch.action = flat.map Tr.action ∧ batch.reward = flat.map Tr.reward ∧
      batch.terminal = flat.map Tr.terminal ∧ batch.discount = flat.map (fun _ => gamma) ∧
      ((∀ ep ∈ episodes, ∀ tr ∈ ep, tr.nextAction.isSome) → ∃ as, batch.nextAction = some as ∧ as.map some = flat.map Tr.nextAction) ∧
      ((∃ ep ∈ episodes, ∃ tr ∈ ep, tr.nextAction = none) → batch.nextAction = none) ∧
      ∀ (k : Nat) (tr : Tr σ X A R), flat[k]? = some tr → ∃ ep ∈ episodes, ∃ (t : Nat) (tr0 : Tr σ X A R) (g g' : State σ)
        (o o' : Item V), ep[t]? = some tr ∧ ep[0]? = some tr0 ∧ Spec.SameState tr0.recurrentState g ∧
          Spec.outputAt step g (ep.map fun tr => item tr.state) t = some o ∧
          Spec.row k y = o.map (fun v => (v.1, some v.2)) ∧
          Spec.SameState tr0.nextRecurrentState g' ∧
          Spec.outputAt step g' (ep.map fun tr => item tr.nextState) t = some o' ∧
          Spec.row k ny = o'.map (fun v => (v.1, some v.2)) := by
  have hperm := sortedDesc_perm episodes
  have hp : Spec.Packable (sortedDesc episodes) := ⟨fun h => hne (by rw [h] at hperm; exact hperm.nil_eq.symm),
    fun ep hep => hnonempty ep (hperm.mem_iff.mp hep), sortedDesc_sorted episodes⟩
  have hrs' : ∀ ep ∈ sortedDesc episodes, ∀ tr ∈ ep, Spec.HasShape sh tr.recurrentState ∧ Spec.HasShape sh tr.nextRecurrentState :=
    fun ep hep => hrs ep (hperm.mem_iff.mp hep)
  obtain ⟨firsts, h1, h2⟩ := mapE_first hp.nonempty
  obtain ⟨b, h3, y, b', h4, h5⟩ := forward_rows hm hb hform ht hI hp Tr.state Tr.recurrentState
    (fun ep hep tr htr => (hrs' ep hep tr htr).1) hS h2
  obtain ⟨nb, h6, ny, nb', h7, h8⟩ := forward_rows hm hb hform ht hI hp Tr.nextState Tr.nextRecurrentState
    (fun ep hep tr htr => (hrs' ep hep tr htr).2) hS h2
  obtain ⟨hflat, hflatp⟩ := flatten_time_first_packed (sortedDesc episodes) hp.sorted
  refine ⟨_, y, b', ny, nb', flattenTimeFirst (sortedDesc episodes), by
    simp only [batchRecurrent, if_pos ((isSortedDesc_iff _).mpr hp.sorted), h1, h3, h6]
    rfl, h4, h7, hflatp.trans (List.Perm.flatten hperm), rfl, rfl, rfl, by simp, ?_, ?_, ?_⟩
  · intro hall
    refine ⟨(flattenTimeFirst (sortedDesc episodes)).filterMap Tr.nextAction, if_pos ?_, filterMap_some ?_⟩
    · rw [List.all_eq_true]
      intro tr htr
      obtain ⟨ep, hep, h⟩ := List.mem_flatten.mp ((hflatp.trans (List.Perm.flatten hperm)).mem_iff.mp htr)
      exact hall ep hep tr h
    · intro tr htr
      obtain ⟨ep, hep, h⟩ := List.mem_flatten.mp ((hflatp.trans (List.Perm.flatten hperm)).mem_iff.mp htr)
      exact hall ep hep tr h
  · rintro ⟨ep, hep, tr, htr, hnone⟩
    refine if_neg ?_
    rw [List.all_eq_true]
    intro hall
    have := hall tr ((hflatp.trans (List.Perm.flatten hperm)).mem_iff.mpr (List.mem_flatten.mpr ⟨ep, hep, htr⟩))
    rw [hnone] at this
    cases this
  intro k tr hk
  obtain ⟨hk1, hk2⟩ := List.getElem?_eq_some_iff.mp hk
  obtain ⟨i, t, hi, hti, rfl⟩ := packed_index hp.sorted hk1
  have htr : (sortedDesc episodes)[i][t]? = some tr := by
    have := hflat i hi t hti
    rw [hk, Option.some.injEq] at this
    rw [List.getElem?_eq_getElem hti, ← this]
  obtain ⟨tr0, g, o, k1, k2, k3, k4⟩ := h5 i t hi hti
  obtain ⟨tr0', g', o', m1, m2, m3, m4⟩ := h8 i t hi hti
  rw [k1, Option.some.injEq] at m1
  subst m1
  exact ⟨_, hperm.mem_iff.mp (List.getElem_mem hi), t, tr0, g, g', o, o', htr, by rw [← List.head?_eq_getElem?]; exact k1,
    k2, k3, k4, m2, m3, m4⟩

/-- Sequences that are not sorted are refused. -/
theorem unsorted_refused [Zero σ] (batchStates : List X → Tree (Block V)) (gamma : R) {eps : List (List (Tr σ X A R))}
    (h : ¬ eps.Pairwise fun a b => b.length ≤ a.length) : batchRecurrent batchStates gamma eps = .error .assertionError := by
  unfold batchRecurrent
  rw [if_neg]
  rw [isSortedDesc_iff]
  exact h

/-- Two episodes of different lengths, given in the wrong order. -/
def demoEpisodes : List (List (Tr Int Int Nat Int)) :=
  [[⟨1, 0, 10, true, 2, none, .none, .none⟩],
    [⟨5, 1, 20, false, 6, none, .tensor 7, .tensor 8⟩, ⟨6, 2, 30, false, 7, none, .tensor 8, .tensor 9⟩]]

/-- One number per observation. -/
def demoBatchStates (xs : List Int) : Tree (Block Int) := .leaf ⟨.tensor, xs⟩

/-- The batch of the episodes, with the outputs of a running sum. -/
def demoOutputs : Option (List Nat × List Int × Option (List (List Int))) :=
  match batchRecurrent demoBatchStates (1 : Int) (sortedDesc demoEpisodes) with
  | .error _ => none
  | .ok b => some (b.action, b.reward, leafRows (packAndForward (cellRnn 0 fun s v => (s + v, s + v)) b.state b.recurrentState))

example : Spec.Batches demoBatchStates (fun x => Tree.leaf (false, x)) := by
  intro xs _
  have := holds_leaf_of (V := Int) (K := .tensor) (b := ⟨.tensor, xs⟩) (Or.inl rfl)
  simpa [demoBatchStates] using this

/-- Action 1 goes with 7 + 5, action 0 with 0 + 1, action 2 with 7 + 5 + 6. -/
example : demoOutputs = some ([1, 0, 2], [20, 10, 30], some [[12, 1, 18]]) := by
  have h : sortedDesc demoEpisodes = demoEpisodes.reverse := by
    simp [sortedDesc, demoEpisodes, List.mergeSort, List.MergeSort.Internal.splitInTwo]
  rw [demoOutputs, h]
  decide

end Pfrl.Recurrent
