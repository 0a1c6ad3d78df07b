import Verif.Basic
import Mathlib.Data.List.Basic
import Mathlib.Data.List.Infix
import Mathlib.Tactic.Linarith

/-!
# Splitting episodes for recurrent PPO and TRPO (C31)
-/

namespace Pfrl.Ppo

variable {α : Type _}

/-! ## Model -/

/-- The loop over one sequence in `_limit_sequence_length`, `pfrl/agents/ppo.py:148-153`; `fuel` bounds
the number of iterations. -/
def limitOne (maxLen : Nat) : Nat → List α → Except PyErr (List (List α))
  | 0, _ => .error .timeout
  | fuel + 1, seq =>
    if maxLen < seq.length then
      match limitOne maxLen fuel (seq.drop maxLen) with
      | .error e => .error e
      | .ok rest => .ok (seq.take maxLen :: rest)
    else if 0 < seq.length ∧ seq.length ≤ maxLen then .ok [seq]
    else .error .assertionError

/-- The loop over the sequences. -/
def limitAll (maxLen : Nat) : List (List α) → Except PyErr (List (List α))
  | [] => .ok []
  | seq :: rest =>
    match limitOne maxLen (seq.length + 1) seq with
    | .error e => .error e
    | .ok pieces =>
      match limitAll maxLen rest with
      | .error e => .error e
      | .ok more => .ok (pieces ++ more)

/-- `_limit_sequence_length(sequences, max_len)`, `pfrl/agents/ppo.py:145-154`. -/
def limitSequenceLength (sequences : List (List α)) (maxLen : Nat) : Except PyErr (List (List α)) :=
  if 0 < maxLen then limitAll maxLen sequences else .error .assertionError

/-- Total number of items. -/
def items (seqs : List (List α)) : Nat := (seqs.map List.length).sum

/-- The inner loop, `pfrl/agents/ppo.py:163-166`.  The stack is a list whose head is its top; returns
the subset collected, the count and the remaining stack. -/
def takeSeqs (nItems : Nat) : List (List α) → List (List α) → Nat →
    List (List α) × Nat × List (List α)
  | [], subset, count => (subset, count, [])
  | seq :: stack, subset, count =>
    if count < nItems then takeSeqs nItems stack (subset ++ [seq]) (count + seq.length)
    else (subset, count, seq :: stack)

/-- `pfrl/agents/ppo.py:167-173`: if too many items were collected, the last sequence is cut and its
end goes back on the stack. -/
def splitLast (nItems : Nat) (x : List (List α) × Nat × List (List α)) :
    Except PyErr (List (List α) × List (List α)) :=
  if nItems < x.2.1 then
    match x.1.getLast? with
    | none => .error .indexError
    | some last =>
      let cut := last.length - (x.2.1 - nItems)
      .ok (x.1.dropLast ++ [last.take cut], last.drop cut :: x.2.2)
  else .ok (x.1, x.2.2)

/-- The outer loop, `pfrl/agents/ppo.py:160-178`; the list of all subsets the generator yields. -/
def subsetLoop (nItems : Nat) : Nat → List (List α) → Except PyErr (List (List (List α)))
  | 0, _ => .error .timeout
  | fuel + 1, stack =>
    if stack.isEmpty then .ok []
    else
      match splitLast nItems (takeSeqs nItems stack [] 0) with
      | .error e => .error e
      | .ok (subset, stack) =>
        if items subset = nItems then
          match subsetLoop nItems fuel stack with
          | .error e => .error e
          | .ok rest => .ok (subset :: rest)
        else if stack.isEmpty then subsetLoop nItems fuel stack
        else .error .assertionError

/-- `_yield_subset_of_sequences_with_fixed_number_of_items(sequences, n_items)`,
`pfrl/agents/ppo.py:157-178`, run to the end. -/
def yieldSubsets (sequences : List (List α)) (nItems : Nat) :
    Except PyErr (List (List (List α))) :=
  if 0 < nItems then subsetLoop nItems (items sequences + 2) sequences else .error .assertionError

/-! ## Lemmas -/

theorem limitOne_spec {maxLen : Nat} (hm : 0 < maxLen) : ∀ (fuel : Nat) (seq : List α),
    seq.length < fuel → seq ≠ [] →
    ∃ pieces, limitOne maxLen fuel seq = .ok pieces ∧ pieces.flatten = seq ∧
      (∀ p ∈ pieces, 1 ≤ p.length ∧ p.length ≤ maxLen) ∧
      (∀ p ∈ pieces.dropLast, p.length = maxLen) := by
  intro fuel
  induction fuel with
  | zero => intro seq h; omega
  | succ fuel ih =>
    intro seq hf hne
    have hpos := List.length_pos_of_ne_nil hne
    unfold limitOne
    by_cases hl : maxLen < seq.length
    · rw [if_pos hl]
      obtain ⟨pieces, h1, h2, h3, h4⟩ := ih (seq.drop maxLen) (by rw [List.length_drop]; omega) (by
        intro hc
        have := congrArg List.length hc
        rw [List.length_drop, List.length_nil] at this
        omega)
      rw [h1]
      refine ⟨_, rfl, ?_, ?_, ?_⟩
      · rw [List.flatten_cons, h2, List.take_append_drop]
      · intro p hp
        rcases List.mem_cons.mp hp with rfl | hp
        · rw [List.length_take]; omega
        · exact h3 p hp
      · intro p hp
        have hpn : pieces ≠ [] := by
          rintro rfl
          have := congrArg List.length h2
          rw [List.length_drop] at this
          simp at this
          omega
        rw [List.dropLast_cons_of_ne_nil hpn] at hp
        rcases List.mem_cons.mp hp with rfl | hp
        · rw [List.length_take]; omega
        · exact h4 p hp
    · rw [if_neg hl, if_pos ⟨hpos, by omega⟩]
      exact ⟨[seq], rfl, by simp, by simp; omega, by simp⟩

theorem takeSeqs_spec (nItems : Nat) : ∀ (stack subset : List (List α)) (count : Nat),
    ∃ taken, (takeSeqs nItems stack subset count).1 = subset ++ taken ∧
      taken ++ (takeSeqs nItems stack subset count).2.2 = stack ∧
      (takeSeqs nItems stack subset count).2.1 = count + items taken ∧
      ((takeSeqs nItems stack subset count).2.1 < nItems →
        (takeSeqs nItems stack subset count).2.2 = []) ∧
      (taken = [] ∨ ∃ init last, taken = init ++ [last] ∧ count + items init < nItems) := by
  intro stack
  induction stack with
  | nil =>
    intro subset count
    exact ⟨[], by simp [takeSeqs], by simp [takeSeqs], by simp [takeSeqs, items],
      fun _ => rfl, Or.inl rfl⟩
  | cons seq stack ih =>
    intro subset count
    unfold takeSeqs
    by_cases hc : count < nItems
    · simp only [if_pos hc]
      obtain ⟨taken, h1, h2, h3, h4, h5⟩ := ih (subset ++ [seq]) (count + seq.length)
      refine ⟨seq :: taken, by rw [h1]; simp, by rw [List.cons_append, h2], ?_, h4, Or.inr ?_⟩
      · rw [h3]; simp [items]; omega
      · rcases h5 with h5 | ⟨init, last, h5, h6⟩
        · exact ⟨[], seq, by rw [h5]; rfl, by simpa [items] using hc⟩
        · refine ⟨seq :: init, last, by rw [h5]; rfl, ?_⟩
          simp only [items, List.map_cons, List.sum_cons] at h6 ⊢
          omega
    · simp only [if_neg hc]
      exact ⟨[], by simp, by simp, by simp [items], fun h => absurd h hc, Or.inl rfl⟩

theorem items_append (a b : List (List α)) : items (a ++ b) = items a + items b := by
  simp [items]

theorem items_eq (l : List (List α)) : items l = l.flatten.length := by
  simp [items, List.length_flatten]

/-- Every piece is a non-empty contiguous part of one of the sequences. -/
def PartsOf (pieces seqs : List (List α)) : Prop :=
  ∀ p ∈ pieces, p ≠ [] ∧ ∃ s ∈ seqs, p <:+: s

theorem subsetLoop_spec {nItems : Nat} (hn : 0 < nItems) (orig : List (List α)) :
    ∀ (fuel : Nat) (stack : List (List α)), items stack + 2 ≤ fuel → PartsOf stack orig →
    ∃ groups rest, subsetLoop nItems fuel stack = .ok groups ∧
      groups.flatten.flatten ++ rest = stack.flatten ∧ rest.length < nItems ∧
      (∀ g ∈ groups, items g = nItems) ∧ (∀ g ∈ groups, PartsOf g orig) := by
  intro fuel
  induction fuel with
  | zero => intro stack h; omega
  | succ fuel ih =>
    intro stack hf hparts
    unfold subsetLoop
    cases hstack : stack with
    | nil =>
      exact ⟨[], [], by simp, by simp, hn, by simp, by simp⟩
    | cons s0 stack0 =>
      rw [← hstack]
      have hne : stack.isEmpty = false := by rw [hstack]; rfl
      simp only [hne, Bool.false_eq_true, if_false]
      obtain ⟨taken, h1, h2, h3, h4, h5⟩ := takeSeqs_spec nItems stack [] 0
      rw [List.nil_append] at h1
      rw [Nat.zero_add] at h3
      have htn : taken ≠ [] := by
        intro hc
        rw [hc] at h3 h2
        have h30 : (takeSeqs nItems stack [] 0).2.1 = 0 := by rw [h3]; rfl
        have := h4 (by omega)
        rw [this] at h2
        simp at h2
        rw [hstack] at h2
        cases h2
      have htot : items taken + items (takeSeqs nItems stack [] 0).2.2 = items stack := by
        rw [← items_append, h2]
      have hpt : PartsOf taken orig := fun p hp => hparts p (by rw [← h2]; simp [hp])
      have hpr : PartsOf (takeSeqs nItems stack [] 0).2.2 orig :=
        fun p hp => hparts p (by rw [← h2]; simp [hp])
      rcases h5 with h5 | ⟨init, last, h5, h6⟩
      · exact absurd h5 htn
      · rw [Nat.zero_add] at h6
        have hil : items taken = items init + last.length := by
          rw [h5, items_append]; simp [items]
        unfold splitLast
        rw [h3, h1]
        by_cases hover : nItems < items taken
        · rw [if_pos hover]
          simp only [h5, List.getLast?_concat, List.dropLast_concat]
          rw [← h5]
          have hcut : last.length - (items taken - nItems) = nItems - items init := by omega
          rw [hcut]
          have hcl : nItems - items init < last.length := by omega
          have hsz : items (init ++ [last.take (nItems - items init)]) = nItems := by
            rw [items_append]
            simp only [items, List.map_cons, List.map_nil, List.sum_cons, List.sum_nil,
              List.length_take]
            simp only [items] at h6 hcl
            omega
          simp only [hsz, if_true]
          have hlast := hpt last (by rw [h5]; simp)
          obtain ⟨groups, rest, g1, g2, g3, g4, g5⟩ := ih
            (last.drop (nItems - items init) :: (takeSeqs nItems stack [] 0).2.2) (by
              simp only [items, List.map_cons, List.sum_cons, List.length_drop] at *
              omega) (by
              intro p hp
              rcases List.mem_cons.mp hp with rfl | hp
              · refine ⟨?_, ?_⟩
                · intro hc
                  have := congrArg List.length hc
                  rw [List.length_drop, List.length_nil] at this
                  omega
                · obtain ⟨s, hs, hsi⟩ := hlast.2
                  exact ⟨s, hs, (List.drop_suffix _ _).isInfix.trans hsi⟩
              · exact hpr p hp)
          rw [g1]
          refine ⟨_, rest, rfl, ?_, g3, ?_, ?_⟩
          · have hfl : stack.flatten = taken.flatten ++ (takeSeqs nItems stack [] 0).2.2.flatten := by
              rw [← List.flatten_append, h2]
            rw [List.flatten_cons, List.flatten_append, List.append_assoc, g2, List.flatten_cons,
              hfl, h5]
            simp only [List.flatten_append, List.flatten_cons, List.flatten_nil, List.append_nil,
              List.append_assoc]
            rw [← List.append_assoc (last.take _), List.take_append_drop]
          · intro g hg
            rcases List.mem_cons.mp hg with rfl | hg
            · exact hsz
            · exact g4 g hg
          · intro g hg
            rcases List.mem_cons.mp hg with rfl | hg
            · intro p hp
              rcases List.mem_append.mp hp with hp | hp
              · exact hpt p (by rw [h5]; simp [hp])
              · rw [List.mem_singleton] at hp
                subst hp
                refine ⟨?_, ?_⟩
                · intro hc
                  have := congrArg List.length hc
                  rw [List.length_take, List.length_nil] at this
                  omega
                · obtain ⟨s, hs, hsi⟩ := hlast.2
                  exact ⟨s, hs, (List.take_prefix _ _).isInfix.trans hsi⟩
            · exact g5 g hg
        · rw [if_neg hover]
          simp only
          by_cases heq : items taken = nItems
          · rw [if_pos heq]
            obtain ⟨groups, rest, g1, g2, g3, g4, g5⟩ := ih (takeSeqs nItems stack [] 0).2.2
              (by omega) hpr
            rw [g1]
            refine ⟨_, rest, rfl, ?_, g3, ?_, ?_⟩
            · rw [List.flatten_cons, List.flatten_append, List.append_assoc, g2,
                ← List.flatten_append, h2]
            · intro g hg
              rcases List.mem_cons.mp hg with rfl | hg
              · exact heq
              · exact g4 g hg
            · intro g hg
              rcases List.mem_cons.mp hg with rfl | hg
              · exact hpt
              · exact g5 g hg
          · rw [if_neg heq]
            have hnil := h4 (by rw [h3]; omega)
            rw [hnil]
            simp only [List.isEmpty_nil, if_true]
            obtain ⟨fuel', rfl⟩ : ∃ f, fuel = f + 1 := ⟨fuel - 1, by omega⟩
            refine ⟨[], taken.flatten, by simp [subsetLoop], ?_, ?_, by simp, by simp⟩
            · rw [← h2, hnil]; simp
            · rw [← items_eq]; omega

/-! ## C31 -/

/-- **C31, limiting the length.** For all non-empty sequences and every positive `max_len`: the result
lists, sequence by sequence, contiguous pieces of 1 to `max_len` items that concatenate to the sequence,
all but the last piece of a sequence having exactly `max_len` items. -/
theorem limit_sequence_length_pieces (sequences : List (List α)) (maxLen : Nat) (hm : 0 < maxLen)
    (hs : ∀ s ∈ sequences, s ≠ []) :
    ∃ pieces : List (List (List α)),
      limitSequenceLength sequences maxLen = .ok pieces.flatten ∧
      pieces.map List.flatten = sequences ∧
      (∀ ps ∈ pieces, ∀ p ∈ ps, 1 ≤ p.length ∧ p.length ≤ maxLen) ∧
      (∀ ps ∈ pieces, ∀ p ∈ ps.dropLast, p.length = maxLen) := by
  unfold limitSequenceLength
  rw [if_pos hm]
  induction sequences with
  | nil => exact ⟨[], rfl, rfl, by simp, by simp⟩
  | cons seq rest ih =>
    obtain ⟨ps, h1, h2, h3, h4⟩ := limitOne_spec hm (seq.length + 1) seq (by omega) (hs seq (by simp))
    obtain ⟨pieces, g1, g2, g3, g4⟩ := ih (fun s h => hs s (by simp [h]))
    unfold limitAll
    rw [h1, g1]
    refine ⟨ps :: pieces, by simp, by rw [List.map_cons, h2, g2], ?_, ?_⟩
    · intro ps' hps
      rcases List.mem_cons.mp hps with rfl | hps
      · exact h3
      · exact g3 ps' hps
    · intro ps' hps
      rcases List.mem_cons.mp hps with rfl | hps
      · exact h4
      · exact g4 ps' hps

/-- **C31, fixed-size subsets.** For all non-empty sequences and every positive `n_items`: iteration
ends without error; every subset has exactly `n_items` items; it consists of non-empty contiguous parts
of single sequences; and the subsets concatenate, in order, to the whole data except for fewer than
`n_items` items at the end. -/
theorem subsets_fixed_size (sequences : List (List α)) (nItems : Nat) (hn : 0 < nItems)
    (hs : ∀ s ∈ sequences, s ≠ []) :
    ∃ groups rest, yieldSubsets sequences nItems = .ok groups ∧
      (∀ g ∈ groups, (g.map List.length).sum = nItems) ∧
      (∀ g ∈ groups, ∀ p ∈ g, p ≠ [] ∧ ∃ s ∈ sequences, p <:+: s) ∧
      groups.flatten.flatten ++ rest = sequences.flatten ∧ rest.length < nItems := by
  unfold yieldSubsets
  rw [if_pos hn]
  obtain ⟨groups, rest, h1, h2, h3, h4, h5⟩ := subsetLoop_spec hn sequences (items sequences + 2)
    sequences (Nat.le_refl _) (fun p hp => ⟨hs p hp, p, hp, List.infix_refl p⟩)
  exact ⟨groups, rest, h1, h4, h5, h2, h3⟩

/-- Non-positive sizes and empty sequences are rejected. -/
theorem limit_sequence_length_rejects (sequences : List (List α)) :
    limitSequenceLength sequences 0 = .error .assertionError ∧
      yieldSubsets sequences 0 = .error .assertionError := ⟨rfl, rfl⟩

example : limitSequenceLength [[1, 2, 3, 4, 5], [6, 7]] 2 = .ok [[1, 2], [3, 4], [5], [6, 7]] := by
  decide

example : yieldSubsets [[1, 2, 3, 4, 5], [6, 7], [8]] 3
    = .ok [[[1, 2, 3]], [[4, 5], [6]]] := by decide

end Pfrl.Ppo
