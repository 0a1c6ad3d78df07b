import Verif.Basic
import Mathlib.Data.List.Basic
import Mathlib.Data.List.Perm.Basic
import Mathlib.Data.List.Flatten
import Mathlib.Algebra.BigOperators.Group.List.Basic
import Mathlib.Tactic.Linarith

/-!
# `flatten_sequences_time_first` (C33)
-/

namespace Pfrl.Recurrent

variable {α : Type _}

/-! ## Model -/

/-- `itertools.zip_longest(*sequences)`: rows of heads, with `none` for exhausted sequences, as long as
one sequence is not exhausted; `fuel` bounds the number of rows. -/
def zipLongest : Nat → List (List α) → List (List (Option α))
  | 0, _ => []
  | fuel + 1, seqs =>
    if seqs.all List.isEmpty then []
    else seqs.map List.head? :: zipLongest fuel (seqs.map List.tail)

/-- Length of the longest sequence. -/
def maxLen (seqs : List (List α)) : Nat := seqs.foldr (fun s m => max s.length m) 0

/-- `flatten_sequences_time_first`, `pfrl/utils/recurrent.py:177-192`.  The items are dicts, never
`None`, so `x is not None` selects exactly the items that are there. -/
def flattenTimeFirst (seqs : List (List α)) : List α :=
  ((zipLongest (maxLen seqs) seqs).map fun row => row.filterMap id).flatten

/-! ## Specification -/

/-- The number of sequences with an item at time `t`: the batch size of step `t` of a packed
sequence. -/
def Spec.batchSize (seqs : List (List α)) (t : Nat) : Nat :=
  seqs.countP fun s => t < s.length

/-- Where `torch.nn.utils.rnn.pack_sequence` puts item `t` of sequence `i`: after all items of earlier
times, at place `i` among those of time `t`. -/
def Spec.packedIndex (seqs : List (List α)) (t i : Nat) : Nat :=
  ((List.range t).map (Spec.batchSize seqs)).sum + i

/-! ## Lemmas -/

theorem length_le_maxLen (seqs : List (List α)) : ∀ s ∈ seqs, s.length ≤ maxLen seqs := by
  induction seqs with
  | nil => simp
  | cons x seqs ih =>
    intro s hs
    unfold maxLen
    rw [List.foldr_cons]
    rcases List.mem_cons.mp hs with rfl | hs
    · exact Nat.le_max_left _ _
    · exact Nat.le_trans (ih s hs) (Nat.le_max_right _ _)

theorem zipLongest_eq : ∀ (fuel : Nat) (seqs : List (List α)), (∀ s ∈ seqs, s.length ≤ fuel) →
    ((zipLongest fuel seqs).map fun row => row.filterMap id).flatten
      = ((List.range fuel).map fun t : Nat => seqs.filterMap fun s => s[t]?).flatten := by
  intro fuel
  induction fuel with
  | zero => intro seqs _; rfl
  | succ fuel ih =>
    intro seqs h
    unfold zipLongest
    by_cases hall : seqs.all List.isEmpty = true
    · rw [if_pos hall]
      have hz : ∀ t : Nat, seqs.filterMap (fun s => s[t]?) = [] := by
        intro t
        rw [List.filterMap_eq_nil_iff]
        intro s hs
        have := List.all_eq_true.mp hall s hs
        rw [List.isEmpty_iff] at this
        rw [this]; rfl
      simp only [hz]
      symm
      rw [List.map_nil, List.flatten_nil, List.flatten_eq_nil_iff]
      intro l hl
      obtain ⟨_, _, rfl⟩ := List.mem_map.mp hl
      rfl
    · rw [if_neg hall, List.map_cons, List.flatten_cons, ih]
      · rw [List.range_succ_eq_map, List.map_cons, List.flatten_cons, List.map_map]
        congr 1
        · rw [List.filterMap_map]
          congr 1
          funext s
          cases s <;> rfl
        · congr 1
          apply List.map_congr_left
          intro t _
          simp only [Function.comp_apply]
          rw [List.filterMap_map]
          congr 1
          funext s
          cases s <;> simp
      · intro s hs
        obtain ⟨s', hs', rfl⟩ := List.mem_map.mp hs
        rw [List.length_tail]
        have := h s' hs'
        omega

theorem flatten_eq (seqs : List (List α)) : flattenTimeFirst seqs
    = ((List.range (maxLen seqs)).map fun t : Nat => seqs.filterMap fun s => s[t]?).flatten :=
  zipLongest_eq _ _ (length_le_maxLen seqs)

theorem row_length (seqs : List (List α)) (t : Nat) :
    (seqs.filterMap fun s => s[t]?).length = Spec.batchSize seqs t := by
  unfold Spec.batchSize
  induction seqs with
  | nil => rfl
  | cons s seqs ih =>
    rw [List.countP_cons]
    by_cases h : t < s.length
    · rw [List.filterMap_cons_some (f := fun s : List α => s[t]?) (List.getElem?_eq_getElem h)]
      simp [ih, h]
    · rw [List.filterMap_cons_none (f := fun s : List α => s[t]?) (List.getElem?_eq_none (by omega))]
      simp [ih, h]

/-- In sequences sorted by decreasing length, those with an item at time `t` come first. -/
theorem row_getElem (seqs : List (List α)) (hs : seqs.Pairwise fun a b => b.length ≤ a.length)
    (t i : Nat) (hi : i < seqs.length) (ht : t < seqs[i].length) :
    (seqs.filterMap fun s => s[t]?)[i]? = some seqs[i][t] := by
  induction seqs generalizing i with
  | nil => simp at hi
  | cons s seqs ih =>
    rw [List.pairwise_cons] at hs
    cases i with
    | zero =>
      have ht' : t < s.length := ht
      rw [List.filterMap_cons_some (f := fun s : List α => s[t]?) (List.getElem?_eq_getElem ht')]
      rfl
    | succ i =>
      have hi' : i < seqs.length := by simpa using hi
      have ht' : t < seqs[i].length := ht
      have hs0 : t < s.length := Nat.lt_of_lt_of_le ht' (hs.1 _ (List.getElem_mem hi'))
      rw [List.filterMap_cons_some (f := fun s : List α => s[t]?) (List.getElem?_eq_getElem hs0), List.getElem?_cons_succ]
      exact ih hs.2 i hi' ht'

theorem flatten_range_getElem {β : Type _} (f : Nat → List β) : ∀ (n t i : Nat), t < n →
    i < (f t).length →
    (((List.range n).map f).flatten)[((List.range t).map fun j => (f j).length).sum + i]? = (f t)[i]? := by
  intro n
  induction n with
  | zero => intro t i h; omega
  | succ n ih =>
    intro t i ht hi
    have hlen : ∀ m, ((List.range m).map f).flatten.length
        = ((List.range m).map fun j => (f j).length).sum := by
      intro m
      rw [List.length_flatten, List.map_map]
      rfl
    rw [List.range_succ, List.map_append, List.flatten_append]
    by_cases h : t < n
    · have hih := ih t i h hi
      rw [List.getElem?_append_left]
      · exact hih
      · have : (f t)[i]? = some (f t)[i] := List.getElem?_eq_getElem hi
        rw [this] at hih
        exact (List.getElem?_eq_some_iff.mp hih).1
    · have : t = n := by omega
      subst this
      rw [List.getElem?_append_right (by rw [hlen]; omega), hlen]
      simp

theorem perm_rows : ∀ (n : Nat) (seqs : List (List α)), (∀ s ∈ seqs, s.length ≤ n) →
    (((List.range n).map fun t : Nat => seqs.filterMap fun s => s[t]?).flatten).Perm seqs.flatten := by
  intro n
  induction n with
  | zero =>
    intro seqs h
    have : seqs.flatten = [] := by
      rw [List.flatten_eq_nil_iff]
      intro l hl
      have := h l hl
      exact List.length_eq_zero_iff.mp (by omega)
    rw [this]; simp
  | succ n ih =>
    intro seqs h
    rw [List.range_succ_eq_map, List.map_cons, List.flatten_cons, List.map_map]
    have htail := ih (seqs.map List.tail) (by
      intro s hs
      obtain ⟨s', hs', rfl⟩ := List.mem_map.mp hs
      rw [List.length_tail]
      have := h s' hs'
      omega)
    have hrow : ((List.range n).map ((fun t : Nat => seqs.filterMap fun s => s[t]?) ∘ Nat.succ))
        = (List.range n).map fun t : Nat => (seqs.map List.tail).filterMap fun s => s[t]? := by
      apply List.map_congr_left
      intro t _
      simp only [Function.comp_apply]
      rw [List.filterMap_map]
      congr 1
      funext s
      cases s <;> simp
    rw [hrow]
    refine (List.Perm.append_left _ htail).trans ?_
    clear htail hrow ih h
    induction seqs with
    | nil => simp
    | cons s seqs ih =>
      cases s with
      | nil => simpa using ih
      | cons x s =>
        rw [List.filterMap_cons_some (f := fun s : List α => s[0]?) (b := x) rfl]
        simp only [List.map_cons, List.tail_cons, List.flatten_cons, List.cons_append]
        refine List.Perm.cons x ?_
        rw [← List.append_assoc]
        refine (List.Perm.append_right _ List.perm_append_comm).trans ?_
        rw [List.append_assoc]
        exact List.Perm.append_left s ih

/-! ## C33 -/

/-- **C33.** For all sequences sorted by decreasing length: item `t` of sequence `i` is found exactly
where `pack_sequence` puts it, so it stays aligned with the output a recurrent model computes for it;
nothing else is in the result, which is a rearrangement of all items. -/
theorem flatten_time_first_packed (seqs : List (List α))
    (hs : seqs.Pairwise fun a b => b.length ≤ a.length) :
    (∀ i (hi : i < seqs.length) t (ht : t < seqs[i].length),
      (flattenTimeFirst seqs)[Spec.packedIndex seqs t i]? = some seqs[i][t]) ∧
    (flattenTimeFirst seqs).Perm seqs.flatten := by
  rw [flatten_eq]
  refine ⟨?_, perm_rows _ _ (length_le_maxLen seqs)⟩
  intro i hi t ht
  have hmax := length_le_maxLen seqs seqs[i] (List.getElem_mem hi)
  have hrow := row_getElem seqs hs t i hi ht
  have hil := (List.getElem?_eq_some_iff.mp hrow).1
  have := flatten_range_getElem (fun t : Nat => seqs.filterMap fun s => s[t]?) (maxLen seqs) t i
    (by omega) hil
  simp only [row_length] at this
  unfold Spec.packedIndex
  rw [show (fun j => Spec.batchSize seqs j) = Spec.batchSize seqs from rfl] at this
  rw [this, hrow]

/-- Sorted or not, the result lists for each time, in order, the items of all sequences long enough, in
sequence order. -/
theorem flatten_time_first_rows (seqs : List (List α)) : ∃ n, (∀ s ∈ seqs, s.length ≤ n) ∧
    flattenTimeFirst seqs
      = ((List.range n).map fun t : Nat => seqs.filterMap fun s => s[t]?).flatten :=
  ⟨maxLen seqs, length_le_maxLen seqs, flatten_eq seqs⟩

example : flattenTimeFirst [[1, 2, 3], [4, 5], [6]] = [1, 4, 6, 2, 5, 3] := by decide

end Pfrl.Recurrent
