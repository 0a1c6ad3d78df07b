import Verif.Basic
import Mathlib.Data.List.Basic
import Mathlib.Data.List.Perm.Basic
import Mathlib.Data.List.Count
import Mathlib.Tactic.Ring
import Mathlib.Tactic.Linarith

/-!
# Minibatches of PPO and TRPO (C30)
-/

namespace Pfrl.Ppo

variable {α : Type _}

/-! ## Model -/

/-- The inner loop of `_yield_minibatches`, `pfrl/agents/ppo.py:252-253`.  `samples k` is the result of
the `k`-th call of `random.sample(dataset, k=len(dataset))`; `fuel` bounds the number of iterations. -/
def fillBuf (samples : Nat → List α) (mb : Nat) : Nat → Nat → List α → Except PyErr (Nat × List α)
  | 0, _, _ => .error .timeout
  | fuel + 1, k, buf =>
    if buf.length < mb then fillBuf samples mb fuel (k + 1) (samples k ++ buf)
    else .ok (k, buf)

/-- The outer loop, `pfrl/agents/ppo.py:251-257`: `n` items have been yielded so far.  The list of all
minibatches the generator yields. -/
def minibatchLoop (samples : Nat → List α) (mb total : Nat) :
    Nat → Nat → Nat → List α → Except PyErr (List (List α))
  | 0, _, _, _ => .error .timeout
  | fuel + 1, n, k, buf =>
    if n < total then
      match fillBuf samples mb (mb + 1) k buf with
      | .error e => .error e
      | .ok (k, buf) =>
        if mb ≤ buf.length then
          match minibatchLoop samples mb total fuel (n + mb) k (buf.take (buf.length - mb)) with
          | .error e => .error e
          | .ok rest => .ok (buf.drop (buf.length - mb) :: rest)
        else .error .assertionError
    else .ok []

/-- `_yield_minibatches(dataset, minibatch_size, num_epochs)`, `pfrl/agents/ppo.py:247-257`, run to the
end; `buf[-mb:]` and `buf[:-mb]` are written with `drop` and `take`, which is right for a positive `mb`
not longer than the buffer. -/
def yieldMinibatches (samples : Nat → List α) (dataset : List α) (mb epochs : Nat) :
    Except PyErr (List (List α)) :=
  if dataset.isEmpty then .error .assertionError
  else minibatchLoop samples mb (dataset.length * epochs) (dataset.length * epochs + 1) 0 0 []

/-! ## Specification -/

/-- The items in the order in which they are used, each minibatch being read from its end. -/
def Spec.used (batches : List (List α)) : List α := (batches.map List.reverse).flatten

/-- The first `k` results of `random.sample`, each read from its end. -/
def Spec.drawn (samples : Nat → List α) (k : Nat) : List α :=
  ((List.range k).map fun j : Nat => (samples j).reverse).flatten

/-! ## Lemmas -/

theorem drawn_succ (samples : Nat → List α) (k : Nat) :
    Spec.drawn samples (k + 1) = Spec.drawn samples k ++ (samples k).reverse := by
  simp [Spec.drawn, List.range_succ]

theorem fillBuf_spec (samples : Nat → List α) (mb : Nat) (hs : ∀ j, 1 ≤ (samples j).length)
    (pre : List α) : ∀ (fuel k : Nat) (buf : List α), mb + 1 ≤ fuel + buf.length → 1 ≤ fuel →
    pre ++ buf.reverse = Spec.drawn samples k →
    ∃ k' buf', fillBuf samples mb fuel k buf = .ok (k', buf') ∧ mb ≤ buf'.length ∧
      pre ++ buf'.reverse = Spec.drawn samples k' := by
  intro fuel
  induction fuel with
  | zero => intro k buf _ h _; omega
  | succ fuel ih =>
    intro k buf hf _ hp
    unfold fillBuf
    split
    · have := hs k
      apply ih
      · rw [List.length_append]; omega
      · omega
      · rw [List.reverse_append, ← List.append_assoc, hp, drawn_succ]
    · exact ⟨k, buf, rfl, by omega, hp⟩

theorem used_cons (b : List α) (rest : List (List α)) :
    Spec.used (b :: rest) = b.reverse ++ Spec.used rest := by simp [Spec.used]

theorem used_length {mb : Nat} (batches : List (List α)) (h : ∀ b ∈ batches, b.length = mb) :
    (Spec.used batches).length = batches.length * mb := by
  induction batches with
  | nil => simp [Spec.used]
  | cons b rest ih =>
    rw [used_cons, List.length_append, List.length_reverse, h b (by simp),
      ih (fun b' hb' => h b' (by simp [hb'])), List.length_cons]
    ring

theorem minibatchLoop_spec (samples : Nat → List α) (mb total : Nat) (hmb : 0 < mb)
    (hs : ∀ j, 1 ≤ (samples j).length) : ∀ (fuel n k : Nat) (buf pre : List α),
    total + 1 ≤ fuel + n → 1 ≤ fuel →
    pre ++ buf.reverse = Spec.drawn samples k →
    ∃ batches k', minibatchLoop samples mb total fuel n k buf = .ok batches ∧
      (∀ b ∈ batches, b.length = mb) ∧ total ≤ n + batches.length * mb ∧
      (batches ≠ [] → n + batches.length * mb < total + mb) ∧
      pre ++ Spec.used batches <+: Spec.drawn samples k' := by
  intro fuel
  induction fuel with
  | zero => intro n k buf pre _ h _; omega
  | succ fuel ih =>
    intro n k buf pre hf _ hp
    unfold minibatchLoop
    by_cases hn : n < total
    · rw [if_pos hn]
      obtain ⟨k1, buf1, h1, h2, h3⟩ := fillBuf_spec samples mb hs pre (mb + 1) k buf (by omega)
        (by omega) hp
      rw [h1]
      simp only [if_pos h2]
      have hsplit : buf1.reverse = (buf1.drop (buf1.length - mb)).reverse
          ++ (buf1.take (buf1.length - mb)).reverse := by
        rw [← List.reverse_append, List.take_append_drop]
      obtain ⟨batches, k2, g1, g2, g3, g4, g5⟩ := ih (n + mb) k1 (buf1.take (buf1.length - mb))
        (pre ++ (buf1.drop (buf1.length - mb)).reverse) (by omega) (by omega)
        (by rw [List.append_assoc, ← hsplit, h3])
      rw [g1]
      refine ⟨_, k2, rfl, ?_, ?_, ?_, ?_⟩
      · intro b hb
        rcases List.mem_cons.mp hb with rfl | hb
        · rw [List.length_drop]; omega
        · exact g2 b hb
      · rw [List.length_cons, Nat.add_mul]; omega
      · intro _
        rw [List.length_cons, Nat.add_mul]
        by_cases hb : batches = []
        · subst hb; simp; omega
        · have := g4 hb; omega
      · rw [used_cons, ← List.append_assoc]; exact g5
    · rw [if_neg hn]
      exact ⟨[], k, rfl, by simp, by omega, by simp, by rw [← hp]; simp [Spec.used]⟩

theorem drawn_length (samples : Nat → List α) (L : Nat) (h : ∀ j, (samples j).length = L) (k : Nat) :
    (Spec.drawn samples k).length = k * L := by
  induction k with
  | zero => simp [Spec.drawn]
  | succ k ih => rw [drawn_succ, List.length_append, List.length_reverse, h, ih]; ring

theorem drawn_count [DecidableEq α] (samples : Nat → List α) (dataset : List α)
    (h : ∀ j, (samples j).Perm dataset) (x : α) (k : Nat) :
    (Spec.drawn samples k).count x = k * dataset.count x := by
  induction k with
  | zero => simp [Spec.drawn]
  | succ k ih =>
    rw [drawn_succ, List.count_append, List.count_reverse, (h k).count_eq, ih]; ring

theorem drawn_prefix (samples : Nat → List α) {q k : Nat} (h : q ≤ k) :
    ∃ rest, Spec.drawn samples k = Spec.drawn samples q ++ rest ∧
      (q < k → ∃ rest', rest = (samples q).reverse ++ rest') ∧ (q = k → rest = []) := by
  induction k with
  | zero =>
    have : q = 0 := by omega
    subst this
    exact ⟨[], by simp, by omega, fun _ => rfl⟩
  | succ k ih =>
    by_cases hq : q = k + 1
    · subst hq; exact ⟨[], by simp, by omega, fun _ => rfl⟩
    · obtain ⟨rest, h1, h2, h3⟩ := ih (by omega)
      refine ⟨rest ++ (samples k).reverse, by rw [drawn_succ, h1, List.append_assoc], ?_, by omega⟩
      intro _
      by_cases hk : q = k
      · rw [h3 hk, hk]; exact ⟨[], by simp⟩
      · obtain ⟨r, hr⟩ := h2 (by omega)
        exact ⟨r ++ (samples k).reverse, by rw [hr, List.append_assoc]⟩

theorem count_prefix [DecidableEq α] (samples : Nat → List α) (dataset : List α)
    (h : ∀ j, (samples j).Perm dataset) (hd : dataset.Nodup) {x : α} (hx : x ∈ dataset) {l : List α}
    {k : Nat} (hl : l <+: Spec.drawn samples k) :
    l.length / dataset.length ≤ l.count x ∧ l.count x ≤ l.length / dataset.length + 1 := by
  have hlen : ∀ j, (samples j).length = dataset.length := fun j => (h j).length_eq
  have hpos : 0 < dataset.length := List.length_pos_of_mem hx
  have hc1 : dataset.count x = 1 := by rw [hd.count, if_pos hx]
  have hle : l.length ≤ k * dataset.length := by
    rw [← drawn_length samples _ hlen k]; exact hl.length_le
  generalize hq : l.length / dataset.length = q
  have hmod : l.length = q * dataset.length + l.length % dataset.length := by
    rw [← hq, Nat.mul_comm]; exact (Nat.div_add_mod _ _).symm
  have hrlt := Nat.mod_lt l.length hpos
  have hqk : q ≤ k := by
    rw [← hq]
    exact (Nat.div_le_iff_le_mul_add_pred hpos).mpr (by rw [Nat.mul_comm]; omega)
  obtain ⟨rest, h1, h2, h3⟩ := drawn_prefix samples hqk
  have hlt : l = Spec.drawn samples q ++ rest.take (l.length % dataset.length) := by
    have := List.prefix_iff_eq_take.mp hl
    rw [h1, List.take_append, drawn_length samples _ hlen q] at this
    rw [List.take_of_length_le (by rw [drawn_length samples _ hlen q]; omega)] at this
    rw [show l.length - q * dataset.length = l.length % dataset.length by omega] at this
    exact this
  have hcount : l.count x = q + (rest.take (l.length % dataset.length)).count x := by
    conv_lhs => rw [hlt]
    rw [List.count_append, drawn_count samples dataset h, hc1, Nat.mul_one]
  have hrest : (rest.take (l.length % dataset.length)).count x ≤ 1 := by
    by_cases hqk' : q = k
    · rw [h3 hqk']; simp
    · obtain ⟨rest', hr⟩ := h2 (by omega)
      rw [hr, List.take_append_of_le_length (by rw [List.length_reverse, hlen]; omega)]
      calc _ ≤ (samples q).reverse.count x := (List.take_sublist _ _).count_le x
        _ = 1 := by rw [List.count_reverse, (h q).count_eq, hc1]
  omega

theorem used_count [DecidableEq α] (batches : List (List α)) (x : α) :
    (Spec.used batches).count x = batches.flatten.count x := by
  induction batches with
  | nil => rfl
  | cons b rest ih => rw [used_cons, List.count_append, List.count_reverse, ih, List.flatten_cons,
      List.count_append]

theorem used_take (batches : List (List α)) (j : Nat) :
    Spec.used (batches.take j) <+: Spec.used batches := by
  conv_rhs => rw [← List.take_append_drop j batches]
  unfold Spec.used
  rw [List.map_append, List.flatten_append]
  exact List.prefix_append _ _

/-! ## C30 -/

/-- **C30.** For every non-empty dataset of distinct transitions, every positive minibatch size, every
number of epochs and whatever permutations `random.sample` returns: generation ends, yielding exactly
`⌈len * epochs / minibatch_size⌉` minibatches of exactly the minibatch size; read in the order of use
they run through whole permutations of the dataset one after the other; and after any number `j` of
minibatches every transition has been used `⌊j * minibatch_size / len⌋` times or once more, so any two
usage counts differ by at most one. -/
theorem minibatches_fair [DecidableEq α] (samples : Nat → List α) (dataset : List α)
    (hne : dataset ≠ []) (hnd : dataset.Nodup) (mb epochs : Nat) (hmb : 0 < mb)
    (hs : ∀ j, (samples j).Perm dataset) :
    ∃ batches, yieldMinibatches samples dataset mb epochs = .ok batches ∧
      batches.length = (dataset.length * epochs + mb - 1) / mb ∧
      (∀ b ∈ batches, b.length = mb) ∧
      (∃ k, Spec.used batches <+: Spec.drawn samples k) ∧
      ∀ j ≤ batches.length, ∀ x ∈ dataset,
        j * mb / dataset.length ≤ (batches.take j).flatten.count x ∧
        (batches.take j).flatten.count x ≤ j * mb / dataset.length + 1 := by
  have hpos : 0 < dataset.length := List.length_pos_of_ne_nil hne
  have hlen : ∀ j, 1 ≤ (samples j).length := fun j => by rw [(hs j).length_eq]; exact hpos
  unfold yieldMinibatches
  rw [if_neg (by simpa using hne)]
  obtain ⟨batches, k, h1, h2, h3, h4, h5⟩ := minibatchLoop_spec samples mb
    (dataset.length * epochs) hmb hlen (dataset.length * epochs + 1) 0 0 [] [] (by omega) (by omega)
    (by simp [Spec.drawn])
  rw [List.nil_append] at h5
  refine ⟨batches, h1, ?_, h2, ⟨k, h5⟩, ?_⟩
  · generalize dataset.length * epochs = total at *
    rw [Nat.zero_add] at h3 h4
    symm
    by_cases hb : batches = []
    · subst hb
      simp only [List.length_nil, Nat.zero_mul] at h3 ⊢
      exact Nat.div_eq_of_lt (by omega)
    · have := h4 hb
      rw [Nat.div_eq_iff hmb]
      omega
  · intro j hj x hx
    have hlj : (Spec.used (batches.take j)).length = j * mb := by
      rw [used_length _ fun b hb => h2 b (List.mem_of_mem_take hb), List.length_take,
        Nat.min_eq_left hj]
    have := count_prefix samples dataset hs hnd hx ((used_take batches j).trans h5)
    rw [hlj, used_count] at this
    exact this

/-- Five transitions, minibatches of three, two epochs, reversing permutations: four minibatches. -/
example : yieldMinibatches (fun k => if k % 2 = 0 then [0, 1, 2, 3, 4] else [4, 3, 2, 1, 0])
    [0, 1, 2, 3, 4] 3 2 = .ok [[2, 3, 4], [0, 0, 1], [3, 2, 1], [3, 4, 4]] := by decide

end Pfrl.Ppo
