import Verif.Recurrent.Containers

/-!
# A recurrent layer on packed sequences (C76)

How `torch.nn.RNN`, `GRU` and `LSTM` go through a `PackedSequence`: step by step, the first `batch_sizes[t]` environments take
one row each.  This shows that the hypothesis `Spec.IsMachine` of C76 is what such layers meet.
-/

namespace Pfrl.Recurrent

variable {σ V W : Type _}

/-! ## Model -/

/-- The loop of a torch recurrent layer over the steps of a packed sequence, with the states of all environments. -/
def cellLoop (cell : σ → V → σ × W) : List Nat → List V → List σ → List W × List σ
  | [], _, ss => ([], ss)
  | n :: ns, rows, ss =>
    (List.zipWith (fun s v => (cell s v).2) ss (rows.take n) ++
      (cellLoop cell ns (rows.drop n) (List.zipWith (fun s v => (cell s v).1) ss (rows.take n) ++ ss.drop n)).1,
      (cellLoop cell ns (rows.drop n) (List.zipWith (fun s v => (cell s v).1) ss (rows.take n) ++ ss.drop n)).2)

/-- A torch recurrent layer with one state tensor (`RNN`, `GRU`): `None` stands for zeros, `z` for each environment. -/
def cellRnn (z : σ) (cell : σ → V → σ × V) : Rnn σ V := fun d b =>
  match d with
  | .leaf ⟨.packed bs, rows⟩ =>
    match b with
    | .none => .ok (.leaf ⟨.packed bs, (cellLoop cell bs rows (List.replicate (bs.headD 0) z)).1⟩,
        .tensor (cellLoop cell bs rows (List.replicate (bs.headD 0) z)).2)
    | .tensor ss =>
      if ss.length = bs.headD 0 then
        .ok (.leaf ⟨.packed bs, (cellLoop cell bs rows ss).1⟩, .tensor (cellLoop cell bs rows ss).2)
      else .error .runtimeError
    | .tuple _ => .error .runtimeError
  | _ => .error .typeError

/-- A layer that applies a function to each row of a tensor, such as `torch.nn.Linear` or an activation. -/
def rowLayer (g : V → V) : Tree (Block V) → Except PyErr (Tree (Block V))
  | .leaf ⟨.tensor, rows⟩ => .ok (.leaf ⟨.tensor, rows.map g⟩)
  | _ => .error .typeError

/-! ## Specification -/

/-- The states and the items a layer with one state tensor takes. -/
def Spec.CellState (s : State σ) : Prop := s = .none ∨ ∃ v, s = .tensor v

/-- Items that are one row of a tensor. -/
def Spec.CellItem (x : Item V) : Prop := ∃ v, x = .leaf (false, v)

/-- One step of a cell for one environment. -/
def Spec.cellStep (z : σ) (cell : σ → V → σ × V) (s : State σ) (x : Item V) : State σ × Item V :=
  match x with
  | .leaf (o, v) =>
    match s with
    | .tensor s => (.tensor (cell s v).1, .leaf (o, (cell s v).2))
    | _ => (.tensor (cell z v).1, .leaf (o, (cell z v).2))
  | .tuple xs => (s, .tuple xs)

/-! ## Lemmas -/

/-- A sequence that is not empty. -/
def consPair {α : Type _} (p : α × List α) : List α := p.1 :: p.2

theorem sorted_split {α : Type _} : ∀ {seqs : List (List α)}, seqs.Pairwise (fun a b => b.length ≤ a.length) →
    ∃ (ne : List (α × List α)) (k : Nat), seqs = ne.map consPair ++ List.replicate k []
  | [], _ => ⟨[], 0, rfl⟩
  | [] :: seqs, h => by
    rw [List.pairwise_cons] at h
    refine ⟨[], seqs.length + 1, ?_⟩
    rw [List.map_nil, List.nil_append, List.replicate_succ]
    congr 1
    rw [List.eq_replicate_iff]
    refine ⟨rfl, ?_⟩
    intro s hs
    have := h.1 s hs
    exact List.length_eq_zero_iff.mp (by simpa using this)
  | (x :: xs) :: seqs, h => by
    rw [List.pairwise_cons] at h
    obtain ⟨ne, k, hk⟩ := sorted_split h.2
    exact ⟨(x, xs) :: ne, k, by rw [hk]; rfl⟩

theorem split_heads {α : Type _} (ne : List (α × List α)) (k : Nat) :
    (ne.map consPair ++ List.replicate k []).filterMap (fun s : List α => s[0]?) = ne.map Prod.fst := by
  rw [List.filterMap_append, List.filterMap_map]
  have h1 : (List.replicate k ([] : List α)).filterMap (fun s : List α => s[0]?) = [] := by
    rw [List.filterMap_eq_nil_iff]
    intro s hs
    rw [(List.mem_replicate.mp hs).2]
    rfl
  rw [h1, List.append_nil]
  induction ne with
  | nil => rfl
  | cons p ne ih => rw [List.filterMap_cons_some (f := (fun s : List α => s[0]?) ∘ consPair) (b := p.1) rfl, ih, List.map_cons]

theorem split_tails {α : Type _} (ne : List (α × List α)) (k t : Nat) :
    (ne.map consPair ++ List.replicate k []).filterMap (fun s : List α => s[t + 1]?)
      = (ne.map Prod.snd ++ List.replicate k []).filterMap (fun s : List α => s[t]?) := by
  rw [List.filterMap_append, List.filterMap_append, List.filterMap_map, List.filterMap_map]
  congr 1
  have : ∀ j : Nat, (List.replicate k ([] : List α)).filterMap (fun s : List α => s[j]?) = [] := by
    intro j
    rw [List.filterMap_eq_nil_iff]
    intro s hs
    rw [(List.mem_replicate.mp hs).2]
    rfl
  rw [this, this]

theorem split_batchSize {α : Type _} (ne : List (α × List α)) (k t : Nat) :
    Spec.batchSize (ne.map consPair ++ List.replicate k []) (t + 1)
      = Spec.batchSize (ne.map Prod.snd ++ List.replicate k []) t := by
  rw [← row_length, ← row_length, split_tails]

theorem zipWith_nils {γ : Type _} (f : σ → List V → γ) : ∀ s : List σ,
    List.zipWith f s (List.replicate s.length []) = s.map fun s => f s []
  | [] => rfl
  | x :: s => by rw [List.length_cons, List.replicate_succ, List.zipWith_cons_cons, zipWith_nils f s]; rfl

theorem zipWith_zipWith {β γ : Type _} (g : σ → V × List V → β) (f : β → List V → γ) : ∀ (s : List σ) (ne : List (V × List V)),
    List.zipWith f (List.zipWith g s ne) (ne.map Prod.snd) = List.zipWith (fun s p => f (g s p) p.2) s ne
  | [], _ => rfl
  | _ :: _, [] => rfl
  | x :: s, p :: ne => by
    simp only [List.zipWith_cons_cons, List.map_cons]
    rw [zipWith_zipWith g f s ne]

theorem zip_split {γ : Type _} {f : σ → List V → γ} {s1 s2 : List σ} {ne : List (V × List V)} {k : Nat}
    (hl1 : s1.length = ne.length) (hl2 : s2.length = k) :
    List.zipWith f (s1 ++ s2) (ne.map consPair ++ List.replicate k [])
      = List.zipWith (fun s p => f s (consPair p)) s1 ne ++ s2.map fun s => f s [] := by
  rw [List.zipWith_append (by simpa using hl1), List.zipWith_map_right, ← hl2, zipWith_nils]

theorem zip_split2 {γ : Type _} {f : σ → List V → γ} {g : σ → V × List V → σ} {s1 s2 : List σ} {ne : List (V × List V)} {k : Nat}
    (hl1 : s1.length = ne.length) (hl2 : s2.length = k) :
    List.zipWith f (List.zipWith g s1 ne ++ s2) (ne.map Prod.snd ++ List.replicate k [])
      = List.zipWith (fun s p => f (g s p) p.2) s1 ne ++ s2.map fun s => f s [] := by
  rw [List.zipWith_append (by simp [hl1]), zipWith_zipWith, ← hl2, zipWith_nils]

/-- The loop computes each sequence on its own. -/
theorem cellLoop_spec (cell : σ → V → σ × W) : ∀ (n : Nat) (seqs : List (List V)) (ss : List σ),
    seqs.Pairwise (fun a b => b.length ≤ a.length) → (∀ s ∈ seqs, s.length ≤ n) → ss.length = seqs.length →
    cellLoop cell ((List.range n).map (Spec.batchSize seqs))
        ((List.range n).map fun t : Nat => seqs.filterMap fun s => s[t]?).flatten ss
      = (((List.range n).map fun t : Nat => (List.zipWith (fun s xs => (Spec.runSeq cell s xs).2) ss seqs).filterMap
          fun s => s[t]?).flatten, List.zipWith (fun s xs => (Spec.runSeq cell s xs).1) ss seqs)
  | 0, seqs, ss, _, hn, hl => by
    have hnil : ∀ s ∈ seqs, s = [] := fun s hs => List.length_eq_zero_iff.mp (Nat.le_zero.mp (hn s hs))
    simp only [List.range_zero, List.map_nil, List.flatten_nil, cellLoop, Prod.mk.injEq, true_and]
    apply List.ext_getElem?
    intro i
    rw [List.getElem?_zipWith]
    by_cases hi : i < ss.length
    · rw [List.getElem?_eq_getElem hi, List.getElem?_eq_getElem (show i < seqs.length by omega),
        hnil _ (List.getElem_mem _)]
      rfl
    · rw [List.getElem?_eq_none (by omega)]
  | n + 1, seqs, ss, hs, hn, hl => by
    obtain ⟨ne, k, rfl⟩ := sorted_split hs
    obtain ⟨s1, s2, rfl, hl1, hl2⟩ : ∃ s1 s2, ss = s1 ++ s2 ∧ s1.length = ne.length ∧ s2.length = k := by
      simp only [List.length_append, List.length_map, List.length_replicate] at hl
      exact ⟨ss.take ne.length, ss.drop ne.length, (List.take_append_drop _ _).symm, by
        rw [List.length_take]; omega, by rw [List.length_drop]; omega⟩
    have hbs : Spec.batchSize (ne.map consPair ++ List.replicate k []) 0 = ne.length := by
      rw [← row_length, split_heads, List.length_map]
    have ih := cellLoop_spec cell n (ne.map Prod.snd ++ List.replicate k [])
      (List.zipWith (fun s p => (cell s p.1).1) s1 ne ++ s2) (by
        rw [List.pairwise_append] at hs ⊢
        refine ⟨?_, hs.2.1, ?_⟩
        · rw [List.pairwise_map] at hs ⊢
          exact hs.1.imp fun h => by simpa [consPair] using h
        · intro a _ b hb
          rw [(List.mem_replicate.mp hb).2]
          simp) (by
        intro s hs'
        rcases List.mem_append.mp hs' with h | h
        · obtain ⟨p, hp, rfl⟩ := List.mem_map.mp h
          have := hn (p.1 :: p.2) (List.mem_append_left _ (List.mem_map.mpr ⟨p, hp, rfl⟩))
          simpa using this
        · rw [(List.mem_replicate.mp h).2]
          simp) (by simp [hl1, hl2])
    rw [List.range_succ_eq_map, List.map_cons, List.map_cons, List.map_cons, List.flatten_cons, List.flatten_cons, List.map_map,
      List.map_map, List.map_map, hbs, split_heads, cellLoop]
    have e1 : (Spec.batchSize (ne.map consPair ++ List.replicate k []) ∘ Nat.succ)
        = Spec.batchSize (ne.map Prod.snd ++ List.replicate k []) := by
      funext t
      exact split_batchSize ne k t
    have e2 : ((fun t : Nat => (ne.map consPair ++ List.replicate k []).filterMap fun s : List V => s[t]?) ∘ Nat.succ)
        = fun t : Nat => (ne.map Prod.snd ++ List.replicate k []).filterMap fun s => s[t]? := by
      funext t
      exact split_tails ne k t
    rw [e1, e2, List.take_left' (by simp), List.drop_left' (by simp), List.zipWith_map_right, List.zipWith_map_right]
    have e3 : List.zipWith (fun s p => (cell s p.1).2) (s1 ++ s2) ne = List.zipWith (fun s p => (cell s p.1).2) s1 ne := by
      have := List.zipWith_append (f := fun s (p : V × List V) => (cell s p.1).2) (l₁ := s1) (l₁' := s2) (l₂ := ne) (l₂' := []) hl1
      simpa using this
    have e3' : List.zipWith (fun s p => (cell s p.1).1) (s1 ++ s2) ne = List.zipWith (fun s p => (cell s p.1).1) s1 ne := by
      have := List.zipWith_append (f := fun s (p : V × List V) => (cell s p.1).1) (l₁ := s1) (l₁' := s2) (l₂ := ne) (l₂' := []) hl1
      simpa using this
    have e4 : (s2.map fun s => (Spec.runSeq cell s []).2) = List.replicate k [] := by
      rw [← hl2, List.eq_replicate_iff]
      refine ⟨by simp, ?_⟩
      intro s hs'
      obtain ⟨_, _, rfl⟩ := List.mem_map.mp hs'
      rfl
    have e5 : List.zipWith (fun s p => (Spec.runSeq cell s (consPair p)).2) s1 ne
        = (List.zipWith (fun s p => ((cell s p.1).2, (Spec.runSeq cell (cell s p.1).1 p.2).2)) s1 ne).map consPair := by
      rw [List.map_zipWith]
      rfl
    rw [e3, e3', List.drop_left' hl1, ih, zip_split2 hl1 hl2, zip_split2 hl1 hl2, zip_split hl1 hl2, zip_split hl1 hl2, e4, e5]
    simp only [Prod.mk.injEq]
    refine ⟨?_, rfl⟩
    congr 1
    · rw [split_heads, List.map_zipWith]
    · congr 1
      apply List.map_congr_left
      intro t _
      simp only [Function.comp_apply]
      rw [split_tails, List.map_zipWith]

theorem headD_batchSizes {α : Type _} {seqs : List (List α)} (h : Spec.Packable seqs) : (batchSizes seqs).headD 0 = seqs.length := by
  obtain ⟨s, hs⟩ := List.exists_mem_of_ne_nil _ h.some
  have h1 := length_le_maxLen seqs s hs
  have h2 : 0 < s.length := List.length_pos_iff.mpr (h.nonempty s hs)
  unfold batchSizes
  obtain ⟨m, hm⟩ : ∃ m, maxLen seqs = m + 1 := ⟨maxLen seqs - 1, by omega⟩
  rw [hm, List.range_succ_eq_map, List.map_cons, List.headD_cons]
  unfold Spec.batchSize
  rw [List.countP_eq_length]
  intro s hs
  simpa using List.length_pos_iff.mpr (h.nonempty s hs)

/-- The value of a state for a cell. -/
def cellValue (z : σ) : State σ → σ
  | .tensor v => v
  | _ => z

/-- The value of an item of one leaf. -/
def itemValue (w : V) : Item V → V
  | .leaf v => v.2
  | .tuple _ => w

theorem runSeq_cell (z : σ) (cell : σ → V → σ × V) : ∀ (s : State σ) (vs : List V), vs ≠ [] →
    Spec.runSeq (Spec.cellStep z cell) s (vs.map fun v => Tree.leaf (false, v))
      = (.tensor (Spec.runSeq cell (cellValue z s) vs).1, (Spec.runSeq cell (cellValue z s) vs).2.map fun v => Tree.leaf (false, v))
  | _, [], h => absurd rfl h
  | s, [v], _ => by cases s <;> rfl
  | s, v :: w :: vs, _ => by
    have ih := runSeq_cell z cell (.tensor (cell (cellValue z s) v).1) (w :: vs) (by simp)
    have hs : Spec.cellStep z cell s (.leaf (false, v))
        = (.tensor (cell (cellValue z s) v).1, .leaf (false, (cell (cellValue z s) v).2)) := by cases s <;> rfl
    rw [List.map_cons, Spec.runSeq, hs]
    simp only []
    rw [ih]
    rfl

/-! ## C76 -/

/-- **C76 (layers).** A recurrent layer that goes through packed sequences as torch does is a machine. -/
theorem cell_is_machine (z : σ) (cell : σ → V → σ × V) :
    Spec.IsMachine (cellRnn z cell) Spec.CellState Spec.CellItem Spec.CellItem (Spec.cellStep z cell) := by
  refine ⟨?_, ?_⟩
  · rintro s x hs ⟨v, rfl⟩
    rcases hs with rfl | ⟨w, rfl⟩
    · exact ⟨Or.inr ⟨_, rfl⟩, _, rfl⟩
    · exact ⟨Or.inr ⟨_, rfl⟩, _, rfl⟩
  · intro seqs d b ss hp hi hh hl hr hS
    obtain ⟨vss, hv⟩ : ∃ vss : List (List V), seqs = vss.map (List.map fun v => Tree.leaf (false, v)) := by
      obtain ⟨s, hs⟩ := List.exists_mem_of_ne_nil _ hp.some
      obtain ⟨x, hx⟩ := List.exists_mem_of_ne_nil _ (hp.nonempty s hs)
      obtain ⟨w, _⟩ := hi s hs x hx
      refine ⟨seqs.map (List.map (itemValue w)), ?_⟩
      rw [List.map_map]
      conv_lhs => rw [← List.map_id seqs]
      apply List.map_congr_left
      intro s hs
      simp only [Function.comp_apply, List.map_map, id_eq]
      conv_lhs => rw [← List.map_id s]
      apply List.map_congr_left
      intro x hx
      obtain ⟨v, rfl⟩ := hi s hs x hx
      rfl
    have hsl : SameLengths seqs vss := by rw [hv]; exact sameLengths_map _ _
    have hpv := packable_congr hsl hp
    have hbs := batchSizes_congr hsl
    have hlen : seqs.length = vss.length := by rw [hv, List.length_map]
    obtain ⟨x, hx⟩ := List.exists_mem_of_ne_nil _ (flatten_ne_nil hp)
    obtain ⟨s0, hs0, hxs⟩ := mem_flatten_time.mp hx
    obtain ⟨v, rfl⟩ := hi s0 hs0 x hxs
    obtain ⟨rows, rfl⟩ : ∃ rows, d = .leaf ⟨.packed (batchSizes seqs), rows⟩ := by
      have hform := holds_form hh hx
      cases d with
      | tuple ts => rw [Tree.map_tuple] at hform; simp [Tree.map] at hform
      | leaf blk =>
        have := (kinds_of_row hh hx ⟨by simp [Tree.leaves], by simp [Tree.leaves]⟩).2 blk (by simp [Tree.leaves])
        obtain ⟨k, rows⟩ := blk
        simp only at this
        subst this
        exact ⟨rows, rfl⟩
    have hrows : rows = flattenTimeFirst vss := by
      have h1 := holds_leaf hh
      rw [hv, flatten_map] at h1
      simp only [reduceCtorEq, decide_false] at h1
      have hinj : Function.Injective fun v : V => (Tree.leaf (false, v) : Item V) := by
        intro a b hab
        simpa using hab
      exact (List.map_injective_iff.mpr hinj h1).symm
    have hrun : ∀ vals : List σ, vals = ss.map (cellValue z) →
        cellLoop cell (batchSizes seqs) rows vals = (flattenTimeFirst (List.zipWith (fun s xs => (Spec.runSeq cell s xs).2) vals vss),
          List.zipWith (fun s xs => (Spec.runSeq cell s xs).1) vals vss) := by
      intro vals hvals
      have hvl : vals.length = vss.length := by rw [hvals, List.length_map, hl, hlen]
      have := cellLoop_spec cell (maxLen vss) vss vals hpv.sorted (length_le_maxLen vss) hvl
      rw [hbs, hrows, flatten_eq, batchSizes, this]
      rw [flatten_eq, maxLen_congr (sameLengths_run cell vals vss hvl)]
    have hout : List.zipWith (fun s xs => (Spec.runSeq (Spec.cellStep z cell) s xs).2) ss seqs
        = (List.zipWith (fun s xs => (Spec.runSeq cell s xs).2) (ss.map (cellValue z)) vss).map (List.map fun v => Tree.leaf (false, v)) := by
      rw [hv, List.zipWith_map_right, List.zipWith_map_left, List.map_zipWith]
      apply List.ext_getElem?
      intro i
      rw [List.getElem?_zipWith, List.getElem?_zipWith]
      cases e1 : ss[i]? with
      | none => rfl
      | some s =>
        cases e2 : vss[i]? with
        | none => rfl
        | some vs =>
          simp only [Option.some.injEq]
          rw [runSeq_cell z cell s vs (hpv.nonempty vs (List.mem_of_getElem? e2))]
    have hfin : List.zipWith (fun s xs => (Spec.runSeq (Spec.cellStep z cell) s xs).1) ss seqs
        = (List.zipWith (fun s xs => (Spec.runSeq cell s xs).1) (ss.map (cellValue z)) vss).map State.tensor := by
      rw [hv, List.zipWith_map_right, List.zipWith_map_left, List.map_zipWith]
      apply List.ext_getElem?
      intro i
      rw [List.getElem?_zipWith, List.getElem?_zipWith]
      cases e1 : ss[i]? with
      | none => rfl
      | some s =>
        cases e2 : vss[i]? with
        | none => rfl
        | some vs =>
          simp only [Option.some.injEq]
          rw [runSeq_cell z cell s vs (hpv.nonempty vs (List.mem_of_getElem? e2))]
    have hhead : (batchSizes seqs).headD 0 = ss.length := by rw [headD_batchSizes hp, hl]
    have hres : cellRnn z cell (.leaf ⟨.packed (batchSizes seqs), rows⟩) b
        = .ok (.leaf ⟨.packed (batchSizes seqs), (cellLoop cell (batchSizes seqs) rows (ss.map (cellValue z))).1⟩,
          .tensor (cellLoop cell (batchSizes seqs) rows (ss.map (cellValue z))).2) := by
      cases b with
      | none =>
        have : ss.map (cellValue z) = List.replicate ((batchSizes seqs).headD 0) z := by
          rw [hhead, List.eq_replicate_iff]
          refine ⟨by simp, ?_⟩
          intro v hv'
          obtain ⟨s, hs, rfl⟩ := List.mem_map.mp hv'
          obtain ⟨i, hi'⟩ := List.getElem?_of_mem hs
          have := hr.get i s hi'
          rw [getAt, Except.ok.injEq] at this
          rw [← this]
          rfl
        rw [this]
        rfl
      | tensor vals =>
        have hvl : vals.length = ss.length := hr.size
        have : ss.map (cellValue z) = vals := by
          apply List.ext_getElem?
          intro i
          rw [List.getElem?_map]
          by_cases hi' : i < ss.length
          · have h1 := List.getElem?_eq_getElem hi'
            have h2 := List.getElem?_eq_getElem (show i < vals.length by omega)
            have := hr.get i _ h1
            rw [getAt, h2, Except.ok.injEq] at this
            rw [h1, h2, Option.map_some, ← this]
            rfl
          · rw [List.getElem?_eq_none (by omega), List.getElem?_eq_none (by omega)]
            rfl
        rw [this]
        simp only [cellRnn]
        rw [if_pos (by rw [hhead, hvl])]
      | tuple bs =>
        exfalso
        have hne : ss ≠ [] := by
          intro he
          rw [he] at hl
          exact hp.some (List.length_eq_zero_iff.mp hl.symm)
        obtain ⟨s, hs⟩ := List.exists_mem_of_ne_nil _ hne
        obtain ⟨i, hi'⟩ := List.getElem?_of_mem hs
        have := hr.get i s hi'
        rw [getAt] at this
        cases hg : getAtList i bs with
        | error e => rw [hg] at this; simp at this
        | ok gs =>
          rw [hg] at this
          simp only [Except.ok.injEq] at this
          rcases hS s hs with h | ⟨_, h⟩ <;> rw [h] at this <;> simp at this
    rw [hrun _ rfl] at hres
    refine ⟨_, _, hres, ?_, ?_⟩
    · rw [hout, flatten_map]
      have := holds_leaf_of (K := .packed (batchSizes seqs)) (b := ⟨.packed (batchSizes seqs),
        flattenTimeFirst (List.zipWith (fun s xs => (Spec.runSeq cell s xs).2) (ss.map (cellValue z)) vss)⟩) (Or.inl rfl)
      simpa using this
    · rw [hfin]
      refine ⟨by simp [Spec.BatchSize], ?_⟩
      intro i s hs
      rw [List.getElem?_map] at hs
      rw [getAt]
      cases e : (List.zipWith (fun s xs => (Spec.runSeq cell s xs).1) (ss.map (cellValue z)) vss)[i]? with
      | none => rw [e] at hs; simp at hs
      | some v' =>
        rw [e, Option.map_some, Option.some.injEq] at hs
        rw [← hs]

/-- A layer that works on the rows of a tensor. -/
theorem rowLayer_is_rowwise (g : V → V) : Spec.IsRowwise (rowLayer g) Spec.CellItem Spec.CellItem
    (Tree.map fun x : Bool × V => (x.1, g x.2)) := by
  refine ⟨?_, ?_⟩
  · rintro x ⟨v, rfl⟩
    exact ⟨g v, rfl⟩
  · intro rs d hne hi hd
    obtain ⟨x, hx⟩ := List.exists_mem_of_ne_nil _ hne
    obtain ⟨v, rfl⟩ := hi x hx
    have hform := holds_form hd hx
    cases d with
    | tuple ts => rw [Tree.map_tuple] at hform; simp [Tree.map] at hform
    | leaf blk =>
      have hk := (kinds_of_row hd hx ⟨by simp [Tree.leaves], by simp [Tree.leaves]⟩).2 blk (by simp [Tree.leaves])
      obtain ⟨k, rows⟩ := blk
      simp only at hk
      subst hk
      refine ⟨.leaf ⟨.tensor, rows.map g⟩, rfl, ?_⟩
      have h1 := holds_leaf hd
      rw [h1]
      have := holds_leaf_of (K := .tensor) (b := ⟨.tensor, rows.map g⟩) (Or.inl rfl)
      rw [List.map_map] at this ⊢
      exact this

/-- A model of three layers, as users build them: a recurrent layer (a running sum), a layer without state, and two recurrent
branches. -/
def demoModel : Rnn Int Int :=
  sequential [.recurrent (cellRnn 0 fun s v => (s + v, s + v)), .plain (rowLayer fun v => 2 * v),
    .recurrent (branched [cellRnn 0 fun s v => (s + v, s + v), cellRnn 0 fun _ v => (v, -v)])]

/-- It is a machine. -/
example : ∃ S J step, Spec.IsMachine demoModel S Spec.CellItem J step :=
  ⟨_, _, _, sequential_is_machine (.recurrent (cell_is_machine _ _) (.plain (rowLayer_is_rowwise _)
    (.recurrent (branched_is_machine (.cons (cell_is_machine _ _) (.cons (cell_is_machine _ _) .nil)) (by simp)) .nil)))
    (by rintro x ⟨v, rfl⟩; exact ⟨by simp [Tree.leaves], by simp [Tree.leaves]⟩)⟩

/-- The rows of the leaves of a result. -/
def leafRows : Except PyErr (Tree (Block Int) × Batched Int) → Option (List (List Int))
  | .ok (y, _) => some (y.leaves.map Block.rows)
  | .error _ => none

example : leafRows (packAndForward demoModel [.leaf ⟨.tensor, [1, 2, 3]⟩, .leaf ⟨.tensor, [10, 20]⟩] .none)
    = some [[2, 20, 8, 80, 20], [-2, -20, -6, -60, -12]] := by decide

end Pfrl.Recurrent
