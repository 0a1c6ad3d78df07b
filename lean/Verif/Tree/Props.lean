import Verif.Tree.Lemmas
import Verif.Sample.Props

/-!
# Properties of the priority queues (C04, C05, C06, C07)

All statements are about queues reached from the empty queue by an arbitrary history of calls
(`TQ.run`), compared with the plain list of priorities of `Spec.run`.
-/

set_option linter.unusedSectionVars false

namespace Pfrl.Tree
variable {V : Type _}

/-- **C04.** After any history of `append`, `popleft` and overwrites on a `SumTreeQueue`: an
invalid call raises `AssertionError`; otherwise nothing fails, `popleft` returned the oldest stored
priorities, and `sum()` is the sum of the stored priorities. -/
theorem sum_queue_refines_list [AddCommMonoid V] (ops : List (Op V)) :
    match Spec.run [] ops with
    | none => TQ.new.run sumAgg ops = .error .assertionError
    | some (ys, popped) => ∃ q, TQ.new.run sumAgg ops = .ok (q, popped.map some) ∧
        q.length = ys.length ∧ q.sum = .ok ys.sum := by
  have := run_sim ops (new_sim (sumAgg : Agg V))
  cases hr : Spec.run [] ops with
  | none => rw [hr] at this; exact this
  | some p =>
    obtain ⟨ys, rets⟩ := p
    rw [hr] at this
    obtain ⟨q, h1, h2⟩ := this
    refine ⟨q, h1, h2.1, ?_⟩
    unfold TQ.sum
    cases ys with
    | nil => have h0 : q.length = 0 := h2.1
             rw [if_pos h0]; rfl
    | cons y ys =>
      rw [if_neg (by rw [h2.1]; simp)]
      obtain ⟨root, ixl, ixr, g1, g2⟩ := root_val sumAgg_lawful h2
      rw [g1]; simp only [g2, sumAgg_eq]

/-- Five appends, two pops and an overwrite: the tree has been grown and re-rooted. -/
example : Spec.run [] [.append 3, .append 1, .append 4, .append 1, .append 5, .popleft,
      .set 2 (10 : Int), .popleft] = some ([4, 10, 5], [3, 1]) ∧
    (TQ.new.run sumAgg [.append 3, .append 1, .append 4, .append 1, .append 5, .popleft,
      .set 2 (10 : Int), .popleft]).bind (fun p => p.1.sum) = .ok 19 := by decide

example : TQ.new.run sumAgg [.append 3, .set 1 (5 : Int)] = .error .assertionError := by decide

/-- **C05.** The same for `MinTreeQueue`: `min()` is the least stored priority (`none` stands for
infinity, returned when the queue is empty). -/
theorem min_queue_refines_list [LinearOrder V] (ops : List (Op V)) :
    match Spec.run [] ops with
    | none => TQ.new.run minAgg ops = .error .assertionError
    | some (ys, popped) => ∃ q, TQ.new.run minAgg ops = .ok (q, popped.map some) ∧
        q.length = ys.length ∧
        (ys = [] → q.min = .ok none) ∧
        (ys ≠ [] → ∃ m, q.min = .ok (some m) ∧ m ∈ ys ∧ ∀ y ∈ ys, m ≤ y) := by
  have := run_sim ops (new_sim (minAgg : Agg V))
  cases hr : Spec.run [] ops with
  | none => rw [hr] at this; exact this
  | some p =>
    obtain ⟨ys, rets⟩ := p
    rw [hr] at this
    obtain ⟨q, h1, h2⟩ := this
    refine ⟨q, h1, h2.1, ?_, ?_⟩
    · rintro rfl
      have h0 : q.length = 0 := h2.1
      unfold TQ.min; rw [if_pos h0]
    · intro hne
      obtain ⟨y, ys, rfl⟩ := List.exists_cons_of_ne_nil hne
      obtain ⟨root, ixl, ixr, g1, g2⟩ := root_val minAgg_lawful h2
      rw [minAgg_eq] at g2
      refine ⟨_, ?_, foldl_min_le y ys⟩
      unfold TQ.min
      rw [if_neg (by rw [h2.1]; simp), g1]
      simp only [g2]

example : (TQ.new.run minAgg [.append 3, .append 1, .append 4, .append 2, .append 5, .popleft,
      .popleft, .set 0 (7 : Int)]).bind (fun p => p.1.min) = .ok (some 2) := by decide

section sampling
variable [AddCommGroup V] [LinearOrder V] [IsOrderedAddMonoid V]

/-- `q` is a sum queue reached by a history of calls that leaves the priorities `xs`. -/
def Reached (q : TQ V) (xs : List V) : Prop :=
  ∃ ops popped, Spec.run [] ops = some (xs, popped) ∧
    TQ.new.run sumAgg ops = .ok (q, popped.map some)

theorem Reached.sim {q : TQ V} {xs : List V} (h : Reached q xs) : Sim sumAgg q xs := by
  obtain ⟨ops, popped, h1, h2⟩ := h
  have := run_sim ops (new_sim (sumAgg : Agg V))
  rw [h1] at this
  obtain ⟨q', h3, h4⟩ := this
  rw [h3] at h2
  cases h2
  exact h4

/-- Two queues that store the same priorities are observationally equal: the sum after any
further history is the same.  (Used to state effects of sampling on the priorities.) -/
def Stores (q : TQ V) (xs : List V) : Prop :=
  ∀ ops ys popped, Spec.run xs ops = some (ys, popped) →
    ∃ q', q.run sumAgg ops = .ok (q', popped.map some) ∧ q'.length = ys.length ∧
      q'.sum = .ok ys.sum

theorem sum_of_sim {q : TQ V} {ys : List V} (h2 : Sim sumAgg q ys) : q.sum = .ok ys.sum := by
  unfold TQ.sum
  cases ys with
  | nil => have h0 : q.length = 0 := h2.1
           rw [if_pos h0]; rfl
  | cons y ys =>
    rw [if_neg (by rw [h2.1]; simp)]
    obtain ⟨root, ixl, ixr, g1, g2⟩ := root_val sumAgg_lawful h2
    rw [g1]; simp only [g2, sumAgg_eq]

theorem Sim.stores {q : TQ V} {xs : List V} (h : Sim sumAgg q xs) : Stores q xs := by
  intro ops ys popped hr
  have := run_sim ops h
  rw [hr] at this
  obtain ⟨q', h1, h2⟩ := this
  exact ⟨q', h1, h2.1, sum_of_sim h2⟩

/-- A queue determines the priorities it stores: popping everything reads them off. -/
theorem Stores.unique {q : TQ V} {xs ys : List V} (h1 : Stores q xs) (h2 : Stores q ys) :
    xs = ys := by
  have hpop : ∀ zs : List V, Spec.run zs (List.replicate zs.length .popleft) = some ([], zs) := by
    intro zs
    induction zs with
    | nil => rfl
    | cons z zs ih => simp [List.replicate_succ, Spec.run, ih]
  obtain ⟨q1, a1, a2, _⟩ := h1 [] xs [] rfl
  obtain ⟨q2, b1, b2, _⟩ := h2 [] ys [] rfl
  cases a1; cases b1
  obtain ⟨q3, c1, _⟩ := h1 _ _ _ (hpop xs)
  obtain ⟨q4, d1, _⟩ := h2 _ _ _ (hpop ys)
  have : xs.length = ys.length := by rw [← a2, ← b2]
  rw [this, d1] at c1
  have h := congrArg Prod.snd (Except.ok.inj c1)
  exact (List.map_injective_iff.2 (Option.some_injective V) h).symm

theorem owns_unique {xs : List V} (hnn : ∀ x ∈ xs, 0 ≤ x) {u : V} {i j : Nat}
    (hi : Spec.Owns xs i u) (hj : Spec.Owns xs j u) : i = j := by
  have mono : ∀ a b, a ≤ b → (xs.take a).sum ≤ (xs.take b).sum := by
    intro a b hab
    obtain ⟨c, rfl⟩ := Nat.exists_eq_add_of_le hab
    rw [List.take_add, List.sum_append]
    apply le_add_of_nonneg_right
    apply List.sum_nonneg
    intro x hx
    exact hnn x (List.mem_of_mem_drop (List.mem_of_mem_take hx))
  rcases lt_trichotomy i j with h | h | h
  · exact absurd (lt_of_lt_of_le hi.2 ((mono (i + 1) j h).trans hj.1)) (lt_irrefl _)
  · exact h
  · exact absurd (lt_of_lt_of_le hj.2 ((mono (j + 1) i h).trans hi.1)) (lt_irrefl _)

/-- **C06.** A single prioritized draw with random number `u ∈ [0, total)` returns item `i` exactly
when `p_0 + … + p_{i-1} ≤ u < p_0 + … + p_i`; in particular the call succeeds. -/
theorem prioritized_draw_inverse_cdf {q : TQ V} {xs : List V} (hq : Reached q xs)
    (hnn : ∀ x ∈ xs, 0 ≤ x) {u : V} (h0 : 0 ≤ u) (h1 : u < xs.sum) (remove : Bool) :
    ∃ i q', i < xs.length ∧
      q.prioritizedSample (fun _ _ => u) 0 1 remove = .ok (q', [i], [xs[i]?.getD 0]) ∧
      ∀ j, j < xs.length →
        (i = j ↔ (xs.take j).sum ≤ u ∧ u < (xs.take j).sum + xs[j]?.getD 0) := by
  have hs := hq.sim
  obtain ⟨x, xs', rfl⟩ : ∃ x xs', xs = x :: xs' := by
    cases xs with
    | nil => simp at h1; exact absurd (lt_of_le_of_lt h0 h1) (lt_irrefl _)
    | cons x xs => exact ⟨x, xs, rfl⟩
  obtain ⟨root, ixl, ixr, hqt, hv⟩ := root_val sumAgg_lawful hs
  obtain ⟨i, hi, hf, ho⟩ := find_sim hs hqt h0 h1
  obtain ⟨q1, hw, hs1⟩ := write_sim hs hi 0
  have hg : (x :: xs')[i]? = some (x :: xs')[i] := List.getElem?_eq_getElem hi
  have hloop : drawLoop (fun _ _ => u) 1 0 q = .ok (q1, [i], [(x :: xs')[i]]) := by
    unfold drawLoop
    simp only [hqt, hv, hf, hw, hg, drawLoop]
    rfl
  have huniq : ∀ j, j < (x :: xs').length →
      (i = j ↔ ((x :: xs').take j).sum ≤ u ∧ u < ((x :: xs').take j).sum + (x :: xs')[j]?.getD 0) := by
    intro j hj
    have e : ((x :: xs').take j).sum + (x :: xs')[j]?.getD 0 = ((x :: xs').take (j + 1)).sum := by
      rw [List.take_succ_eq_append_getElem hj, List.sum_append, List.sum_singleton,
        List.getElem?_eq_getElem hj, Option.getD_some]
    rw [e]
    exact ⟨fun h => h ▸ ho, fun h => owns_unique hnn ho h⟩
  cases remove with
  | true =>
    refine ⟨i, q1, hi, ?_, huniq⟩
    rw [hg, Option.getD_some]
    unfold TQ.prioritizedSample
    rw [if_neg (by omega)]
    simp only [Int.toNat_one, hloop, if_true]
  | false =>
    obtain ⟨q2, g1, g2⟩ := restore_sim (q := q1) [(i, (x :: xs')[i])] hs1 (by simpa using hi)
    refine ⟨i, q2, hi, ?_, huniq⟩
    rw [hg, Option.getD_some]
    unfold TQ.prioritizedSample
    rw [if_neg (by omega)]
    simp only [Int.toNat_one, hloop]
    simp only [List.zip_cons_cons, List.zip_nil_left, g1]
    rfl

/-- **C06 (zero priority).** An item of priority `0` is never drawn. -/
theorem zero_priority_never_drawn {q : TQ V} {xs : List V} (hq : Reached q xs)
    (hnn : ∀ x ∈ xs, 0 ≤ x) {u : V} (h0 : 0 ≤ u) (h1 : u < xs.sum) (remove : Bool)
    {j : Nat} (hj : xs[j]? = some 0) :
    ∀ q' is vs, q.prioritizedSample (fun _ _ => u) 0 1 remove = .ok (q', is, vs) → j ∉ is := by
  obtain ⟨i, q', hi, h2, h3⟩ := prioritized_draw_inverse_cdf hq hnn h0 h1 remove
  intro q'' is vs h
  rw [h2] at h
  cases h
  have hjl : j < xs.length := by
    by_contra hc; rw [List.getElem?_eq_none (by omega)] at hj; cases hj
  intro hmem
  have hij : i = j := (List.mem_singleton.1 hmem).symm
  have h4 := (h3 j hjl).1 hij
  rw [hj] at h4
  simp only [Option.getD_some, add_zero] at h4
  exact absurd (lt_of_le_of_lt h4.1 h4.2) (lt_irrefl _)

/-- A concrete queue for C06: priorities `[1, 0, 4, 10, 5]` after a pop and an overwrite; the draw
`u = 5` returns item 3. -/
example : ∃ q : TQ Int, Reached q [1, 0, 4, 10, 5] ∧ (∀ x ∈ [1, 0, 4, 10, (5 : Int)], 0 ≤ x) ∧
    ((0 : Int) ≤ 5 ∧ 5 < [1, 0, 4, 10, (5 : Int)].sum) ∧
    (q.prioritizedSample (fun _ _ => 5) 0 1 true).map (fun r => r.2) = .ok ([3], [10]) := by
  refine ⟨_, ⟨[.append 3, .append 1, .append 0, .append 4, .append 1, .append 5, .popleft,
      .set 3 (10 : Int)], [3], by decide, rfl⟩, by decide, by decide, by decide⟩

/-- **C07.** `prioritized_sample(n)` on a queue of non-negative priorities of which at least `n`
are positive: it succeeds, returns `n` distinct positions with the priorities stored there, each
draw being the inverse-CDF draw among the not-yet-drawn items; afterwards the priorities are
unchanged (`remove = false`), or exactly the drawn ones are zero (`remove = true`). -/
theorem prioritized_sample_without_replacement {q : TQ V} {xs : List V} (hq : Reached q xs)
    (hnn : ∀ x ∈ xs, 0 ≤ x) {n : Nat} (hn : n ≤ xs.countP (fun x => decide (0 < x)))
    {rng : Nat → V → V} (hrng : Spec.UniformRng rng) (t : Nat) (remove : Bool) :
    ∃ q' is vs ys, q.prioritizedSample rng t n remove = .ok (q', is, vs) ∧
      is.Nodup ∧ is.length = n ∧ is.map (fun i => xs[i]?) = vs.map some ∧
      Spec.Drawn rng t xs is vs ys ∧
      Stores q' (if remove then Spec.zeroAt xs is else xs) := by
  have hs := hq.sim
  obtain ⟨q1, is, vs, ys, g1, g2, g3, g4⟩ := drawLoop_sim hrng n (t := t) hs hnn hn
  obtain ⟨e1, e2, e3, e4, e5⟩ := drawn_sound g2
  subst e5
  cases remove with
  | true =>
    refine ⟨q1, is, vs, _, ?_, e1, g4, e4, g2, ?_⟩
    · unfold TQ.prioritizedSample
      rw [if_neg (by omega)]
      simp only [Int.toNat_natCast, g1, if_true]
    · simpa using g3.stores
  | false =>
    obtain ⟨q2, f1, f2⟩ := restore_sim (is.zip vs) g3 (by
      rintro ⟨i, v⟩ hp
      have := lt_of_map_some e4 i (List.of_mem_zip hp).1
      simpa [Spec.zeroAt] using this)
    rw [foldl_set_zeroAt e1 e4 (by simp [Spec.zeroAt]) (fun j hj => zeroAt_getElem? xs is j hj)]
      at f2
    refine ⟨q2, is, vs, _, ?_, e1, g4, e4, g2, ?_⟩
    · unfold TQ.prioritizedSample
      rw [if_neg (by omega)]
      simp only [Int.toNat_natCast, g1, f1]
      rfl
    · simpa using f2.stores

/-- **C07 (uniform part).** `uniform_sample(n)` whose index sampler behaves as proved in C03:
distinct positions, true priorities, and the same effect on the stored priorities. -/
theorem uniform_sample_without_replacement {q : TQ V} {xs : List V} (hq : Reached q xs)
    {perm : List Nat} {s : Nat → Nat} {fuel n : Nat}
    (hperm : Sample.IsChoice xs.length n perm) (hs : ∀ i, s i < xs.length) (remove : Bool)
    {is : List Nat} (hok : Sample.sampleNK perm s fuel xs.length n = .ok is) :
    ∃ q' vs, q.uniformSample perm s fuel n remove = .ok (q', is, vs) ∧
      is.Nodup ∧ is.length = n ∧ is.map (fun i => xs[i]?) = vs.map some ∧
      Stores q' (if remove then Spec.zeroAt xs is else xs) := by
  have hsim := hq.sim
  obtain ⟨e1, e2, e3⟩ := Sample.sample_n_k_sound hperm hs hok
  have key : ∃ q1 vs, (if (n : Int) > 0 then zeroAll q is else .ok (q, [])) = .ok (q1, vs) ∧
      is.map (fun i => xs[i]?) = vs.map some ∧ Sim sumAgg q1 (Spec.zeroAt xs is) := by
    by_cases h0 : (n : Int) > 0
    · rw [if_pos h0]
      obtain ⟨q1, vs, a, b, c⟩ := zeroAll_sim is hsim e1 e3
      exact ⟨q1, vs, a, b, c⟩
    · rw [if_neg h0]
      have : is = [] := List.length_eq_zero_iff.1 (by omega)
      subst this
      exact ⟨q, [], rfl, rfl, by rw [zeroAt_nil]; exact hsim⟩
  obtain ⟨q1, vs, g1, e4, g3⟩ := key
  cases remove with
  | true =>
    refine ⟨q1, vs, ?_, e1, e2, e4, by simpa using g3.stores⟩
    unfold TQ.uniformSample
    rw [if_neg (by omega), hsim.1, hok]
    simp only [g1, if_true]
  | false =>
    obtain ⟨q2, f1, f2⟩ := restore_sim (is.zip vs) g3 (by
      rintro ⟨i, v⟩ hp
      have := lt_of_map_some e4 i (List.of_mem_zip hp).1
      simpa [Spec.zeroAt] using this)
    rw [foldl_set_zeroAt e1 e4 (by simp [Spec.zeroAt]) (fun j hj => zeroAt_getElem? xs is j hj)]
      at f2
    refine ⟨q2, vs, ?_, e1, e2, e4, by simpa using f2.stores⟩
    unfold TQ.uniformSample
    rw [if_neg (by omega), hsim.1, hok]
    simp only [g1, f1]
    rfl

/-- Three draws from `[3, 1, 4, 1]` with the generator "half of the total": items 2, 0, 3. -/
example : (TQ.new.run sumAgg [.append 3, .append 1, .append 4, .append (1 : Int)]).bind
      (fun p => (p.1.prioritizedSample (fun _ hi => hi / 2) 0 3 true).map (·.2))
    = .ok ([2, 0, 3], [4, 3, 1]) := by decide

example : Spec.UniformRng (fun (_ : Nat) (hi : Int) => hi / 2) := by
  intro t hi h; simp only; omega

/-- Why C07 needs `n` positive priorities: drawing twice from a one-element queue returns the same
index twice. -/
example : (TQ.new.run sumAgg [.append (3 : Int)]).bind
      (fun p => (p.1.prioritizedSample (fun _ hi => hi / 2) 0 2 true).map (·.2))
    = .ok ([0, 0], [3, 0]) := by decide

end sampling
end Pfrl.Tree
