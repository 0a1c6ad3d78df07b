import Verif.Sample.Lemmas
import Mathlib.Data.List.Perm.Subperm

/-!
# Properties of uniform sampling without replacement (C03, C14)
-/

namespace Pfrl.Sample

/-- Contract of `np.random.choice(n, k, replace=False)`: `k` distinct values below `n`. -/
def IsChoice (n k : Nat) (l : List Nat) : Prop := l.Nodup ∧ l.length = k ∧ ∀ x ∈ l, x < n

/-- **C03 (errors).** `sample_n_k(n, k)` raises `ValueError` exactly when `k < 0` or `k > n`, for
every generator. -/
theorem sample_n_k_value_error_iff (perm : List Nat) (s : Nat → Nat) (fuel : Nat) (n k : Int) :
    sampleNK perm s fuel n k = .error .valueError ↔ k < 0 ∨ n < k := by
  constructor
  · intro h
    by_cases hb : k < 0 ∨ n < k
    · exact hb
    · exfalso
      obtain ⟨K, rfl⟩ := Int.eq_ofNat_of_zero_le (by omega : 0 ≤ k)
      obtain ⟨N, rfl⟩ := Int.eq_ofNat_of_zero_le (by omega : 0 ≤ n)
      by_cases h0 : K = 0
      · subst h0; simp [sampleNK] at h
      · by_cases h3 : 3 * K ≥ N
        · have a1 : 0 ≤ (K : Int) ∧ (K : Int) ≤ N := by omega
          have a2 : ¬ ((K : Int) = 0) := by omega
          have a3 : (3 * (K : Int) ≥ N) := by omega
          simp only [sampleNK, a1, a2, a3] at h
          simp at h
        · have := sampleNK_reject perm s fuel N K (by omega) (by omega)
          rw [this] at h
          have := absFill_err _ h
          cases this
  · intro h
    have : ¬ (0 ≤ k ∧ k ≤ n) := by omega
    unfold sampleNK
    rw [if_pos this]

example : sampleNK [] (fun i => i) 0 3 4 = .error .valueError := by decide

/-- **C03 (soundness).** Whatever values the generator yields, a call that returns gives `k`
pairwise distinct indices below `n`. -/
theorem sample_n_k_sound {perm : List Nat} {s : Nat → Nat} {fuel n k : Nat} {r : List Nat}
    (hperm : IsChoice n k perm) (hs : ∀ i, s i < n)
    (h : sampleNK perm s fuel n k = .ok r) :
    r.Nodup ∧ r.length = k ∧ ∀ x ∈ r, x < n := by
  by_cases h0 : k = 0
  · subst h0
    have a1 : 0 ≤ ((0 : Nat) : Int) ∧ ((0 : Nat) : Int) ≤ n := by omega
    simp [sampleNK] at h
    have := h
    subst this; simp
  · by_cases hkn : k ≤ n
    · by_cases h3 : 3 * k ≥ n
      · have a1 : 0 ≤ (k : Int) ∧ (k : Int) ≤ n := by omega
        have a2 : ¬ ((k : Int) = 0) := by omega
        have a3 : (3 * (k : Int) ≥ n) := by omega
        unfold sampleNK at h
        rw [if_neg (by simpa using hkn), if_neg a2, if_pos a3] at h
        cases h; exact hperm
      · rw [sampleNK_reject perm s fuel n k (by omega) (by omega)] at h
        have := absFill_ok hs _ h (by
          intro x hx; simp [draws] at hx; obtain ⟨i, _, rfl⟩ := hx; exact hs _)
        exact ⟨this.2.1, by rw [this.1, draws_length], this.2.2.2⟩
    · have := (sample_n_k_value_error_iff perm s fuel n k).2 (by omega)
      rw [this] at h; cases h

/-- A call that goes through the collision branch: `k = 2`, `n = 10`, the first two draws
collide and so does the first replacement. -/
example : IsChoice 10 2 [0, 1] ∧ (∀ i, (fun i => if i < 3 then 7 else 4) i < 10) ∧
    sampleNK [0, 1] (fun i => if i < 3 then 7 else 4) 5 (10 : Nat) (2 : Nat) = .ok [7, 4] := by
  refine ⟨⟨by decide, by decide, by decide⟩, fun i => ?_, by decide⟩
  simp only; split <;> omega

/-- For valid arguments the call cannot raise anything: it returns or keeps drawing. -/
theorem sample_n_k_no_other_error {perm : List Nat} {s : Nat → Nat} {fuel n k : Nat} {e : PyErr}
    (hk : k ≤ n) (h : sampleNK perm s fuel n k = .error e) : e = .timeout := by
  by_cases h0 : k = 0
  · subst h0; simp [sampleNK] at h
  · by_cases h3 : 3 * k ≥ n
    · have a2 : ¬ ((k : Int) = 0) := by omega
      have a3 : (3 * (k : Int) ≥ n) := by omega
      unfold sampleNK at h
      rw [if_neg (by simpa using hk), if_neg a2, if_pos a3] at h
      cases h
    · rw [sampleNK_reject perm s fuel n k (by omega) (by omega)] at h
      exact absFill_err _ h

theorem absResolve_progress {s : Nat → Nat} {sel : List Nat} (fuel : Nat) :
    ∀ {next x p : Nat}, next ≤ p → p < next + fuel → s p ∉ sel →
    ∃ next' x', absResolve s sel fuel next x = .ok (next', x') ∧ next ≤ next' ∧ next' ≤ p + 1 := by
  induction fuel with
  | zero => intro next x p h1 h2; omega
  | succ fuel ih =>
    intro next x p h1 h2 h3
    unfold absResolve
    by_cases hx : x ∈ sel
    · simp only [hx, if_true]
      by_cases hp : next = p
      · subst hp
        have : absResolve s sel fuel (next + 1) (s next) = .ok (next + 1, s next) := by
          unfold absResolve; simp [h3]
        exact ⟨_, _, this, by omega, by omega⟩
      · obtain ⟨n', x', g1, g2, g3⟩ := ih (x := s next) (by omega : next + 1 ≤ p) (by omega) h3
        exact ⟨n', x', g1, by omega, g3⟩
    · simp only [hx, if_false]
      exact ⟨_, _, rfl, by omega, by omega⟩

theorem absResolve_covers {s : Nat → Nat} {sel : List Nat} (fuel : Nat) :
    ∀ {next x next' x' : Nat}, absResolve s sel fuel next x = .ok (next', x') →
    x ∈ x' :: sel ∧ next ≤ next' ∧ ∀ q, next ≤ q → q < next' → s q ∈ x' :: sel := by
  induction fuel with
  | zero =>
    intro next x next' x' h
    unfold absResolve at h
    split at h
    · cases h
    · cases h; exact ⟨by simp, by omega, fun q h1 h2 => by omega⟩
  | succ fuel ih =>
    intro next x next' x' h
    unfold absResolve at h
    split at h
    · rename_i hx
      obtain ⟨h1, h2, h3⟩ := ih h
      refine ⟨by simp [hx], by omega, fun q hq1 hq2 => ?_⟩
      by_cases hq : q = next
      · subst hq; exact h1
      · exact h3 q (by omega) hq2
    · cases h; exact ⟨by simp, by omega, fun q h1 h2 => by omega⟩

theorem absFill_progress {s : Nat → Nat} {fuel N : Nat} {T : List Nat} (hT : T.Nodup)
    (hN : N ≤ fuel) (xs : List Nat) :
    ∀ {sel next}, sel.length + xs.length ≤ T.length →
    (∀ t ∈ T, t ∈ sel ∨ t ∈ xs ∨ ∃ p, next ≤ p ∧ p < N ∧ s p = t) →
    ∃ ys, absFill s fuel sel next xs = .ok ys := by
  induction xs with
  | nil => intro sel next _ _; exact ⟨[], rfl⟩
  | cons x xs ih =>
    intro sel next hlen hcov
    have hres : ∃ next' x', absResolve s sel fuel next x = .ok (next', x') := by
      by_cases hx : x ∈ sel
      · by_cases hp : ∃ p, next ≤ p ∧ p < N ∧ s p ∉ sel
        · obtain ⟨p, h1, h2, h3⟩ := hp
          obtain ⟨n', x', g, _⟩ := absResolve_progress fuel (x := x) h1 (by omega) h3
          exact ⟨n', x', g⟩
        · exfalso
          have hsub : T ⊆ sel ++ xs := by
            intro t ht
            rcases hcov t ht with h | h | ⟨p, h1, h2, h3⟩
            · simp [h]
            · rcases List.mem_cons.1 h with rfl | h
              · simp [hx]
              · simp [h]
            · have : s p ∈ sel := by
                by_contra hc; exact hp ⟨p, h1, h2, hc⟩
              rw [h3] at this; simp [this]
          have := (hT.subperm hsub).length_le
          simp at this hlen; omega
      · refine ⟨next, x, ?_⟩
        unfold absResolve; simp [hx]
    obtain ⟨n', x', hr⟩ := hres
    obtain ⟨c1, c2, c3⟩ := absResolve_covers _ hr
    obtain ⟨ys, hy⟩ := ih (sel := x' :: sel) (next := n') (by simp at hlen ⊢; omega) (by
      intro t ht
      rcases hcov t ht with h | h | ⟨p, h1, h2, h3⟩
      · left; simp [h]
      · rcases List.mem_cons.1 h with rfl | h
        · left; exact c1
        · right; left; exact h
      · by_cases hp : p < n'
        · left; rw [← h3]; exact c3 p h1 hp
        · right; right; exact ⟨p, by omega, h2, h3⟩)
    exact ⟨x' :: ys, by simp [absFill, hr, hy, Except.map]⟩

/-- **C03 (progress).** As soon as the first `N` values of the generator contain `k` distinct
ones (`T`), the call returns after at most `N` rejections per item: no draw is wasted. -/
theorem sample_n_k_progress {perm : List Nat} {s : Nat → Nat} {fuel n k N : Nat} {T : List Nat}
    (hk : k ≤ n) (hT : T.Nodup) (hTk : T.length = k)
    (hcov : ∀ t ∈ T, ∃ p, p < N ∧ s p = t) (hfuel : N ≤ fuel) :
    ∃ r, sampleNK perm s fuel n k = .ok r := by
  by_cases h0 : k = 0
  · subst h0; exact ⟨[], by simp [sampleNK]⟩
  · by_cases h3 : 3 * k ≥ n
    · have a2 : ¬ ((k : Int) = 0) := by omega
      have a3 : (3 * (k : Int) ≥ n) := by omega
      refine ⟨perm, ?_⟩
      unfold sampleNK
      rw [if_neg (by simpa using hk), if_neg a2, if_pos a3]
    · rw [sampleNK_reject perm s fuel n k (by omega) (by omega)]
      apply absFill_progress hT hfuel
      · simp [draws_length, hTk]
      · intro t ht
        obtain ⟨p, hp, rfl⟩ := hcov t ht
        right
        by_cases hpk : p < k
        · left; simp [draws]; exact ⟨p, hpk, rfl⟩
        · right; exact ⟨p, by omega, hp, rfl⟩

example : ([7, 4] : List Nat).Nodup ∧ ∀ t ∈ [7, 4], ∃ p, p < 4 ∧
    (fun i => if i < 3 then 7 else 4) p = t :=
  ⟨by decide, by intro t ht; simp at ht; rcases ht with rfl | rfl
                 · exact ⟨0, by decide⟩
                 · exact ⟨3, by decide⟩⟩

theorem absResolve_map {s : Nat → Nat} {σ : Nat → Nat} (hσ : Function.Injective σ)
    {sel : List Nat} (fuel : Nat) : ∀ (next x : Nat),
    absResolve (fun i => σ (s i)) (sel.map σ) fuel next (σ x) =
      (absResolve s sel fuel next x).map fun p => (p.1, σ p.2) := by
  induction fuel with
  | zero =>
    intro next x
    unfold absResolve
    simp only [List.mem_map_of_injective hσ]
    split <;> rfl
  | succ fuel ih =>
    intro next x
    unfold absResolve
    simp only [List.mem_map_of_injective hσ]
    split
    · exact ih _ _
    · rfl

theorem absFill_map {s : Nat → Nat} {σ : Nat → Nat} (hσ : Function.Injective σ) (fuel : Nat)
    (xs : List Nat) : ∀ (sel : List Nat) (next : Nat),
    absFill (fun i => σ (s i)) fuel (sel.map σ) next (xs.map σ) =
      (absFill s fuel sel next xs).map (List.map σ) := by
  induction xs with
  | nil => intro sel next; rfl
  | cons x xs ih =>
    intro sel next
    simp only [List.map_cons, absFill, absResolve_map hσ]
    cases absResolve s sel fuel next x with
    | error e => rfl
    | ok p =>
      simp only [Except.map]
      have := ih (p.2 :: sel) p.1
      simp only [List.map_cons] at this
      rw [this]
      cases absFill s fuel (p.2 :: sel) p.1 xs <;> rfl

/-- **C03 (uniformity).** Sampling commutes with every renaming `σ` of the population: applying
`σ` to all random draws applies `σ` to the result.  Hence, when draws are independent and
uniform (a distribution invariant under renaming), all `k`-tuples of distinct indices are
equally likely: no index is favoured. -/
theorem sample_n_k_equivariant (perm : List Nat) (s : Nat → Nat) (fuel n k : Nat)
    (σ : Nat → Nat) (hσ : Function.Injective σ) :
    sampleNK (perm.map σ) (fun i => σ (s i)) fuel n k =
      (sampleNK perm s fuel n k).map (List.map σ) := by
  by_cases hkn : k ≤ n
  · by_cases h0 : k = 0
    · subst h0; simp [sampleNK, Except.map]
    · by_cases h3 : 3 * k ≥ n
      · have a2 : ¬ ((k : Int) = 0) := by omega
        have a3 : (3 * (k : Int) ≥ n) := by omega
        unfold sampleNK
        rw [if_neg (by simpa using hkn), if_neg a2, if_pos a3,
          if_neg (by simpa using hkn), if_neg a2, if_pos a3]
        rfl
      · rw [sampleNK_reject _ _ fuel n k (by omega) (by omega),
          sampleNK_reject _ _ fuel n k (by omega) (by omega)]
        have := absFill_map hσ (s := s) fuel (draws s 0 k) [] k
        simp only [List.map_nil] at this
        rw [← this]
        simp [draws]; rfl
  · rw [(sample_n_k_value_error_iff _ _ fuel n k).2 (by omega),
      (sample_n_k_value_error_iff _ _ fuel n k).2 (by omega)]
    rfl

/-- When the first `k` draws are already distinct they are returned unchanged. -/
theorem sample_n_k_first_draws {perm : List Nat} {s : Nat → Nat} {fuel n k : Nat} (hk : 0 < k)
    (hn : 3 * k < n) (hd : (draws s 0 k).Nodup) :
    sampleNK perm s fuel n k = .ok (draws s 0 k) := by
  rw [sampleNK_reject perm s fuel n k hk hn]
  generalize draws s 0 k = xs at hd
  suffices h : ∀ sel next, (∀ x ∈ xs, x ∉ sel) → absFill s fuel sel next xs = .ok xs from
    h [] k (by simp)
  induction xs with
  | nil => intro sel next _; rfl
  | cons x xs ih =>
    intro sel next hsel
    have hx : x ∉ sel := hsel x (by simp)
    have : absResolve s sel fuel next x = .ok (next, x) := by unfold absResolve; simp [hx]
    simp only [absFill, this]
    rw [ih (List.nodup_cons.1 hd).2 (x :: sel) next]
    · rfl
    · intro y hy hm
      rcases List.mem_cons.1 hm with rfl | hm
      · exact (List.nodup_cons.1 hd).1 hy
      · exact hsel y (by simp [hy]) hm

example : (draws (fun i => 3 * i) 0 3).Nodup := by decide

theorem mapM_get {α : Type _} (q : Queue.RAQ α) (ixs : List Nat) (h : ∀ i ∈ ixs, i < q.len) :
    ∃ xs, ixs.mapM (fun (i : Nat) => q.get i) = Except.ok xs ∧
      List.Forall₂ (fun i x => q.iter[i]? = some x) ixs xs := by
  induction ixs with
  | nil => exact ⟨[], rfl, .nil⟩
  | cons i ixs ih =>
    obtain ⟨xs, h1, h2⟩ := ih (fun j hj => h j (by simp [hj]))
    have hi := h i (by simp)
    rw [← Queue.RAQ.iter_length] at hi
    have hg : q.get i = .ok (q.iter[i]'hi) := by
      rw [Queue.RAQ.get_spec, pyGet, pyIndex]
      have e1 : 0 ≤ (i : Int) := by omega
      have e2 : (i : Int) < q.iter.length := by omega
      simp [e2, hi]
    refine ⟨q.iter[i] :: xs, ?_, .cons (by simp [hi]) h2⟩
    rw [List.mapM_cons, hg, h1]; rfl

/-- **C14 (core).** `queue.sample(k)` with `k ≤ len(queue)` never fails; when it returns, the
result consists of the items at `k` distinct positions of the queue. -/
theorem raq_sample_distinct_positions {α : Type _} {perm : List Nat} {s : Nat → Nat} {fuel : Nat}
    {q : Queue.RAQ α} {k : Nat} (hperm : IsChoice q.len k perm) (hs : ∀ i, s i < q.len)
    (hk : k ≤ q.len) :
    raqSample perm s fuel q k = .error .timeout ∨
    ∃ (ixs : List Nat) (xs : List α), raqSample perm s fuel q k = .ok xs ∧ ixs.Nodup ∧ ixs.length = k ∧
      List.Forall₂ (fun i x => q.iter[i]? = some x) ixs xs := by
  unfold raqSample
  cases h : sampleNK perm s fuel q.len k with
  | error e => left; rw [sample_n_k_no_other_error hk h]
  | ok ixs =>
    right
    obtain ⟨h1, h2, h3⟩ := sample_n_k_sound hperm hs h
    obtain ⟨xs, g1, g2⟩ := mapM_get q ixs h3
    exact ⟨ixs, xs, g1, h1, h2, g2⟩

example : IsChoice (⟨none, [2, 1], [3, 4, 5, 6, 7]⟩ : Queue.RAQ Nat).len 2 [5, 0] ∧
    raqSample [5, 0] (fun i => i % 7) 9 (⟨none, [2, 1], [3, 4, 5, 6, 7]⟩ : Queue.RAQ Nat) 2 =
      .ok [1, 2] :=
  ⟨⟨by decide, by decide, by decide⟩, by decide⟩

end Pfrl.Sample
