import Verif.Categorical.Props
import Verif.Tree.Float
import Mathlib.Algebra.Order.BigOperators.Group.List

/-!
# The categorical projection with floating point numbers (C138)

`_apply_categorical_projection` again, now with rounding after every operation, and with the additions of `scatter_add_` carried out in any
order, as on a GPU.  Overflow and values that are not numbers are left out.
-/

namespace Pfrl.Categorical

open Pfrl.Tree (rne pow_pos' eps_pos eps_lt float_mult float_zero)

/-! ## Model -/

/-- `pfrl/agents/categorical_dqn.py:30,33,36`: position of a source atom on the target grid, `rnd` after every operation.  `n_atoms - 1` is
an integer that can be represented. -/
def fposition (rnd : ℚ → ℚ) (n : Nat) (vMin vMax deltaZ y : ℚ) : ℚ :=
  clamp (rnd (rnd (clamp y vMin vMax - vMin) / deltaZ)) 0 ((n : ℚ) - 1)

/-- `pfrl/agents/categorical_dqn.py:39,50-52`: index (without the row offset) and amount of the lower share. -/
def flower (rnd : ℚ → ℚ) (n : Nat) (vMin vMax deltaZ y p : ℚ) : Int × ℚ :=
  let bj := fposition rnd n vMin vMax deltaZ y
  (⌊bj⌋, rnd (p * rnd (1 - rnd (bj - (⌊bj⌋ : Int)))))

/-- `pfrl/agents/categorical_dqn.py:39,54-56`: index (without the row offset) and amount of the upper share. -/
def fupper (rnd : ℚ → ℚ) (n : Nat) (vMin vMax deltaZ y p : ℚ) : Int × ℚ :=
  let bj := fposition rnd n vMin vMax deltaZ y
  (⌈bj⌉, rnd (p * rnd (bj - (⌊bj⌋ : Int))))

/-- `t.scatter_add_(0, index, src)` on a flat tensor, one addition after the other; an index outside raises. -/
def fscatter (rnd : ℚ → ℚ) : List ℚ → List (Int × ℚ) → Except PyErr (List ℚ)
  | acc, [] => .ok acc
  | acc, (i, v) :: rest =>
    match acc[i.toNat]? with
    | none => .error .runtimeError
    | some a => if 0 ≤ i then fscatter rnd (acc.set i.toNat (rnd (a + v))) rest else .error .runtimeError

/-- `_apply_categorical_projection`, `pfrl/agents/categorical_dqn.py:7-57`.  `ord 0` and `ord 1` are the orders in which the two calls of
`scatter_add_` add. -/
def fproject (rnd : ℚ → ℚ) (ord : Nat → List (Int × ℚ) → List (Int × ℚ)) (y yProbs : List (List ℚ)) (z : List ℚ) :
    Except PyErr (List (List ℚ)) :=
  let n := z.length
  if (∀ r ∈ y, r.length = n) ∧ (∀ r ∈ yProbs, r.length = n) ∧ yProbs.length = y.length then
    match z[0]?, z[1]?, z.getLast? with
    | some z0, some z1, some zl =>
      let deltaZ := rnd (z1 - z0)
      match fscatter rnd (List.replicate (y.length * n) 0) (ord 0 (flatPairs (flower rnd n z0 zl deltaZ) n 0 y yProbs)) with
      | .error e => .error e
      | .ok zp =>
        match fscatter rnd zp (ord 1 (flatPairs (fupper rnd n z0 zl deltaZ) n 0 y yProbs)) with
        | .error e => .error e
        | .ok zp => .ok (unflatten y.length n zp)
    | _, _, _ => .error .indexError
  else .error .assertionError

/-! ## Specification -/

/-- Where the value `y` lies on the grid `z`, in steps from its first atom and without rounding: values outside the grid are moved to its
ends. -/
def Spec.place (z : List ℚ) (y : ℚ) : ℚ :=
  min ((min (max y (z.getD 0 0)) (z.getLastD 0) - z.getD 0 0) / (z.getD 1 0 - z.getD 0 0)) ((z.length : ℚ) - 1)

/-- `b` is the place of `y` up to the rounding of four operations, and never outside the grid. -/
def Spec.NearPlace (p : ℕ) (emin : ℤ) (z : List ℚ) (y b : ℚ) : Prop :=
  0 ≤ b ∧ b ≤ (z.length : ℚ) - 1 ∧
  (1 - Tree.Spec.eps p) * ((1 - Tree.Spec.eps p) / (1 + Tree.Spec.eps p) * Spec.place z y - 2 ^ emin) ≤ b ∧
  b ≤ (1 + Tree.Spec.eps p) * ((1 + Tree.Spec.eps p) / (1 - Tree.Spec.eps p) * Spec.place z y + 2 ^ emin)

/-- What grid point `j` receives from atoms at the places `bs` with probabilities `ps`: all of an atom at `j`, falling linearly to nothing at
distance one. -/
def Spec.received (bs ps : List ℚ) (j : Nat) : ℚ := ((bs.zip ps).map fun x => x.2 * max 0 (1 - |x.1 - (j : ℚ)|)).sum

/-! ## Lemmas -/

variable {rnd : ℚ → ℚ} {p : ℕ} {emin : ℤ}

/-- Any operation whose result is not negative. -/
theorem err_any (hr : Tree.Spec.Rounding p emin rnd) (hp : 2 ≤ p) {x : ℚ} (hx : 0 ≤ x) :
    (1 - Tree.Spec.eps p) * (x - 2 ^ emin) ≤ rnd x ∧ rnd x ≤ (1 + Tree.Spec.eps p) * (x + 2 ^ emin) := by
  have h2 := pow_pos' emin
  have he := eps_lt hp
  have he0 := eps_pos (p := p)
  have hf0 : 0 ≤ ⌊x / 2 ^ emin⌋ := Int.floor_nonneg.2 (by positivity)
  have hf0' : (0 : ℚ) ≤ ⌊x / 2 ^ emin⌋ := by exact_mod_cast hf0
  have g1 : (⌊x / 2 ^ emin⌋ : ℚ) * 2 ^ emin ≤ x := (le_div_iff₀ h2).1 (Int.floor_le _)
  have g2 : x < ((⌊x / 2 ^ emin⌋ : ℚ) + 1) * 2 ^ emin := (div_lt_iff₀ h2).1 (Int.lt_floor_add_one _)
  have m1 := hr.mono _ _ (by positivity) g1
  have m2 := hr.mono _ _ hx g2.le
  have e1 := (hr.err (x := (⌊x / 2 ^ emin⌋ : ℚ) * 2 ^ emin) (by positivity) ⟨_, rfl⟩).1
  have e2 := (hr.err (x := ((⌊x / 2 ^ emin⌋ : ℚ) + 1) * 2 ^ emin) (by positivity) ⟨⌊x / 2 ^ emin⌋ + 1, by push_cast; ring⟩).2
  constructor
  · refine le_trans ?_ (e1.trans m1)
    apply mul_le_mul_of_nonneg_left _ (by linarith)
    linarith
  · refine (m2.trans e2).trans ?_
    apply mul_le_mul_of_nonneg_left _ (by linarith)
    linarith

/-- The fractional part can be represented. -/
theorem float_frac {b : ℚ} (hb : 0 ≤ b) (hf : Tree.Spec.Float p emin b) : Tree.Spec.Float p emin (b - (⌊b⌋ : Int)) := by
  obtain ⟨m, e, he, hm, rfl⟩ := hf
  have hfr := Int.floor_le ((m : ℚ) * 2 ^ e)
  have hfn : 0 ≤ ⌊(m : ℚ) * 2 ^ e⌋ := Int.floor_nonneg.2 hb
  rcases le_or_gt 0 e with h | h
  · obtain ⟨k, rfl⟩ := Int.eq_ofNat_of_zero_le h
    have : (m : ℚ) * 2 ^ (k : ℤ) = ((m * 2 ^ k : ℤ) : ℚ) := by push_cast; rw [zpow_natCast]
    rw [this, Int.floor_intCast, sub_self]
    exact float_zero
  · set k := ⌊(m : ℚ) * 2 ^ e⌋ with hk
    have h2 := pow_pos' e
    have hm0 : 0 ≤ m := by
      have : (0 : ℚ) ≤ m := nonneg_of_mul_nonneg_left hb h2
      exact_mod_cast this
    have hcan : ((2 : ℚ) ^ (-e).toNat) * 2 ^ e = 1 := by
      rw [← zpow_natCast, Int.toNat_of_nonneg (by omega), ← zpow_add₀ (by norm_num)]
      simp
    have heq : (m : ℚ) * 2 ^ e - k = ((m - k * 2 ^ (-e).toNat : ℤ) : ℚ) * 2 ^ e := by
      push_cast
      rw [sub_mul, mul_assoc, hcan, mul_one]
    have hd : 0 ≤ m - k * 2 ^ (-e).toNat := by
      have : (0 : ℚ) ≤ ((m - k * 2 ^ (-e).toNat : ℤ) : ℚ) * 2 ^ e := by rw [← heq]; linarith
      exact_mod_cast nonneg_of_mul_nonneg_left this h2
    refine ⟨m - k * 2 ^ (-e).toNat, e, he, ?_, heq⟩
    rw [abs_of_nonneg hd]
    rw [abs_of_nonneg hm0] at hm
    have : 0 ≤ k * 2 ^ (-e).toNat := by positivity
    omega

theorem float_nat {n : Nat} (he : emin ≤ 0) (hn : n ≤ 2 ^ p) : Tree.Spec.Float p emin (n : ℚ) :=
  ⟨n, 0, he, by rw [abs_of_nonneg (by positivity)]; exact_mod_cast hn, by simp⟩

/-- Number of additions to index `t`. -/
def hits (t : Nat) (ps : List (Int × ℚ)) : Nat := ps.countP fun x => x.1 = (t : Int)

/-- What `fscatter` leaves at each index. -/
theorem fscatter_spec (hr : Tree.Spec.Rounding p emin rnd) (hp : 2 ≤ p) (ps : List (Int × ℚ)) : ∀ (acc : List ℚ),
    (∀ x ∈ ps, 0 ≤ x.1 ∧ x.1 < acc.length) → (∀ x ∈ ps, 0 ≤ x.2 ∧ Tree.Spec.Float p emin x.2) →
    (∀ a ∈ acc, 0 ≤ a ∧ Tree.Spec.Float p emin a) →
    ∃ out, fscatter rnd acc ps = .ok out ∧ out.length = acc.length ∧ (∀ a ∈ out, 0 ≤ a ∧ Tree.Spec.Float p emin a) ∧
      ∀ t (h : t < acc.length) (h' : t < out.length),
        (1 - Tree.Spec.eps p) ^ hits t ps * (acc[t] + addedAt t ps) ≤ out[t] ∧
        out[t] ≤ (1 + Tree.Spec.eps p) ^ hits t ps * (acc[t] + addedAt t ps) := by
  have he := eps_lt hp
  have he0 := eps_pos (p := p)
  induction ps with
  | nil => intro acc _ _ ha; exact ⟨acc, rfl, rfl, ha, by simp [addedAt, hits]⟩
  | cons x ps ih =>
    intro acc h hv ha
    obtain ⟨i, v⟩ := x
    obtain ⟨h0, h1⟩ := h (i, v) (by simp)
    obtain ⟨v0, v1⟩ := hv (i, v) (by simp)
    simp only at h0 h1 v0 v1
    have hi : i.toNat < acc.length := by omega
    obtain ⟨a0, a1⟩ := ha _ (List.getElem_mem hi)
    have hsum : 0 ≤ acc[i.toNat] + v := add_nonneg a0 v0
    have hmul : ∃ k : ℤ, acc[i.toNat] + v = k * 2 ^ emin := by
      obtain ⟨k1, e1⟩ := float_mult a1
      obtain ⟨k2, e2⟩ := float_mult v1
      exact ⟨k1 + k2, by rw [e1, e2]; push_cast; ring⟩
    obtain ⟨r1, r2⟩ := hr.err hsum hmul
    obtain ⟨out, o1, o2, o3, o4⟩ := ih (acc.set i.toNat (rnd (acc[i.toNat] + v)))
      (fun x hx => by rw [List.length_set]; exact h x (by simp [hx])) (fun x hx => hv x (by simp [hx])) (by
        intro a hm
        rcases List.mem_or_eq_of_mem_set hm with hm | rfl
        · exact ha a hm
        · exact ⟨hr.nonneg hsum, hr.float _ hsum⟩)
    refine ⟨out, ?_, by rw [o2, List.length_set], o3, ?_⟩
    · simp only [fscatter, List.getElem?_eq_getElem hi, if_pos h0, o1]
    · intro t ht ht'
      have hadd : 0 ≤ addedAt t ps := by
        unfold addedAt
        apply List.sum_nonneg
        intro w hw
        obtain ⟨x, hx, rfl⟩ := List.mem_map.1 hw
        split_ifs
        · exact (hv x (by simp [hx])).1
        · exact le_rfl
      have := o4 t (by rw [List.length_set]; exact ht) ht'
      rw [List.getElem_set] at this
      by_cases hit : i.toNat = t
      · have h2 : i = (t : Int) := by omega
        subst h2
        rw [if_pos hit] at this
        simp only [Int.toNat_natCast] at this r1 r2 hsum
        have hh : hits t (((t : Int), v) :: ps) = hits t ps + 1 := by simp [hits]
        have hA : addedAt t (((t : Int), v) :: ps) = v + addedAt t ps := by simp [addedAt]
        rw [hh, hA, pow_succ, pow_succ]
        constructor
        · refine le_trans ?_ this.1
          rw [mul_assoc]
          apply mul_le_mul_of_nonneg_left _ (pow_nonneg (by linarith) _)
          nlinarith
        · refine this.2.trans ?_
          rw [mul_assoc]
          apply mul_le_mul_of_nonneg_left _ (pow_nonneg (by linarith) _)
          nlinarith
      · rw [if_neg hit] at this
        have h2 : i ≠ (t : Int) := by omega
        have hh : hits t ((i, v) :: ps) = hits t ps := by simp [hits, h2]
        have hA : addedAt t ((i, v) :: ps) = addedAt t ps := by simp [addedAt, h2]
        rw [hh, hA]
        exact this

theorem hits_flatPairs (g : ℚ → ℚ → Int × ℚ) (n : Nat) (hg : ∀ y p, 0 ≤ (g y p).1 ∧ (g y p).1 < n) (ys ps : List (List ℚ)) (i j : Nat)
    (hl : ys.length = ps.length) (hy : ∀ r ∈ ys, r.length = n) (hj : j < n) (h : i < ys.length) :
    hits (i * n + j) (flatPairs g n 0 ys ps) ≤ n := by
  have hmap : ∀ (ys ps : List (List ℚ)) (k : Nat), (flatPairs g n k ys ps).map (fun x => (x.1, (1 : ℚ)))
      = flatPairs (fun y p => ((g y p).1, (1 : ℚ))) n k ys ps := by
    intro ys
    induction ys with
    | nil => intro ps k; rfl
    | cons yr ys ih =>
      intro ps k
      cases ps with
      | nil => rfl
      | cons pr ps =>
        simp only [flatPairs, List.map_append, ih, List.map_map, Function.comp_def]
        congr 1
        rw [List.map_zipWith, List.map_zipWith]
  have hcount : ∀ (t : Nat) (l : List (Int × ℚ)), addedAt t (l.map fun x => (x.1, (1 : ℚ))) = hits t l := by
    intro t l
    induction l with
    | nil => simp [addedAt, hits]
    | cons x l ih =>
      simp only [addedAt, hits, List.map_cons, List.sum_cons, List.countP_cons] at ih ⊢
      rw [ih]
      by_cases hx : x.1 = (t : Int)
      · simp [hx]; ring
      · simp [hx]
  have h1 := addedAt_flatPairs (fun y p => ((g y p).1, (1 : ℚ))) n hg ys ps 0 i j hl hj h (by omega)
  rw [Nat.zero_add, ← hmap, hcount] at h1
  have h2 : addedAt j (List.zipWith (fun y p => ((g y p).1, (1 : ℚ))) ys[i] (ps[i]'(by omega))) ≤ n := by
    have : List.zipWith (fun y p => ((g y p).1, (1 : ℚ))) ys[i] (ps[i]'(by omega))
        = (List.zipWith g ys[i] (ps[i]'(by omega))).map fun x => (x.1, (1 : ℚ)) := by rw [List.map_zipWith]
    rw [this, hcount]
    have h3 : hits j (List.zipWith g ys[i] (ps[i]'(by omega))) ≤ (List.zipWith g ys[i] (ps[i]'(by omega))).length := List.countP_le_length
    rw [List.length_zipWith, hy _ (List.getElem_mem h)] at h3
    exact_mod_cast h3.trans (min_le_left _ _)
  rw [← h1] at h2
  exact_mod_cast h2

theorem addedAt_perm {l l' : List (Int × ℚ)} (h : l.Perm l') (t : Nat) : addedAt t l = addedAt t l' := by
  unfold addedAt
  exact (h.map _).sum_eq

theorem hits_perm {l l' : List (Int × ℚ)} (h : l.Perm l') (t : Nat) : hits t l = hits t l' := h.countP_eq _

theorem clamp_cases (y lo hi : ℚ) : clamp y lo hi = y ∨ clamp y lo hi = lo ∨ clamp y lo hi = hi := by
  unfold clamp
  rcases min_choice (max y lo) hi with h | h
  · rcases max_choice y lo with h' | h'
    · exact Or.inl (h.trans h')
    · exact Or.inr (Or.inl (h.trans h'))
  · exact Or.inr (Or.inr h)

/-- The difference of two numbers in order. -/
theorem err_sub (hr : Tree.Spec.Rounding p emin rnd) {a b : ℚ} (ha : Tree.Spec.Float p emin a) (hb : Tree.Spec.Float p emin b) (h : b ≤ a) :
    (1 - Tree.Spec.eps p) * (a - b) ≤ rnd (a - b) ∧ rnd (a - b) ≤ (1 + Tree.Spec.eps p) * (a - b) := by
  obtain ⟨k1, e1⟩ := float_mult ha
  obtain ⟨k2, e2⟩ := float_mult hb
  exact hr.err (by linarith) ⟨k1 - k2, by rw [e1, e2]; push_cast; ring⟩

/-- The computed position. -/
theorem fposition_near (hr : Tree.Spec.Rounding p emin rnd) (hp : 2 ≤ p) (he : emin ≤ 0) {n : Nat} (hn : 2 ≤ n) (hnp : n ≤ 2 ^ p)
    {z0 z1 zl : ℚ} (hf0 : Tree.Spec.Float p emin z0) (hf1 : Tree.Spec.Float p emin z1) (hfl : Tree.Spec.Float p emin zl)
    (h01 : z0 < z1) (h0l : z0 ≤ zl) {y : ℚ} (hy : Tree.Spec.Float p emin y) :
    Tree.Spec.Float p emin (fposition rnd n z0 zl (rnd (z1 - z0)) y) ∧
    0 ≤ fposition rnd n z0 zl (rnd (z1 - z0)) y ∧ fposition rnd n z0 zl (rnd (z1 - z0)) y ≤ (n : ℚ) - 1 ∧
    (1 - Tree.Spec.eps p) * ((1 - Tree.Spec.eps p) / (1 + Tree.Spec.eps p) * min ((min (max y z0) zl - z0) / (z1 - z0)) ((n : ℚ) - 1)
      - 2 ^ emin) ≤ fposition rnd n z0 zl (rnd (z1 - z0)) y ∧
    fposition rnd n z0 zl (rnd (z1 - z0)) y ≤ (1 + Tree.Spec.eps p) * ((1 + Tree.Spec.eps p) / (1 - Tree.Spec.eps p)
      * min ((min (max y z0) zl - z0) / (z1 - z0)) ((n : ℚ) - 1) + 2 ^ emin) := by
  have hε := eps_lt hp
  have hε0 := eps_pos (p := p)
  have h2 := pow_pos' emin
  have hn' : (2 : ℚ) ≤ n := by exact_mod_cast hn
  have hc : Tree.Spec.Float p emin (clamp y z0 zl) := by
    rcases clamp_cases y z0 zl with h | h | h <;> rw [h] <;> assumption
  have hc0 : z0 ≤ clamp y z0 zl := le_min (le_max_right _ _) h0l
  obtain ⟨n1, n2⟩ := err_sub hr hc hf0 hc0
  obtain ⟨d1, d2⟩ := err_sub hr hf1 hf0 h01.le
  rw [show min (max y z0) zl = clamp y z0 zl from rfl]
  unfold fposition
  set N := clamp y z0 zl - z0 with hN
  set D := z1 - z0 with hD
  set ε := Tree.Spec.eps p with hεd
  have hN0 : 0 ≤ N := by linarith
  have hD0 : 0 < D := by linarith
  have hDr : 0 < rnd D := lt_of_lt_of_le (mul_pos (by linarith) hD0) d1
  have hNr : 0 ≤ rnd N := hr.nonneg hN0
  have hq0 : 0 ≤ rnd N / rnd D := div_nonneg hNr hDr.le
  have hx0 : 0 ≤ N / D := div_nonneg hN0 hD0.le
  have q1 : (1 - ε) / (1 + ε) * (N / D) ≤ rnd N / rnd D := by
    rw [div_mul_div_comm]
    exact div_le_div₀ hNr n1 hDr d2
  have q2 : rnd N / rnd D ≤ (1 + ε) / (1 - ε) * (N / D) := by
    rw [div_mul_div_comm]
    exact div_le_div₀ (by positivity) n2 (mul_pos (by linarith) hD0) d1
  obtain ⟨b1, b2⟩ := err_any hr hp hq0
  rw [← hεd] at b1 b2
  have hb0 : 0 ≤ rnd (rnd N / rnd D) := hr.nonneg hq0
  have hn1 : Tree.Spec.Float p emin ((n : ℚ) - 1) := by
    have := float_nat (p := p) (emin := emin) he (n := n - 1) (by omega)
    rwa [Nat.cast_sub (by omega), Nat.cast_one] at this
  have hcl : clamp (rnd (rnd N / rnd D)) 0 ((n : ℚ) - 1) = min (rnd (rnd N / rnd D)) ((n : ℚ) - 1) := by
    unfold clamp
    rw [max_eq_left hb0]
  rw [hcl]
  have hr1 : (1 - ε) / (1 + ε) ≤ 1 := by rw [div_le_one (by linarith)]; linarith
  have hr0 : 0 ≤ (1 - ε) / (1 + ε) := div_nonneg (by linarith) (by linarith)
  have hr2 : 1 ≤ (1 + ε) / (1 - ε) := by rw [one_le_div (by linarith)]; linarith
  have hm0 : 0 ≤ min (N / D) ((n : ℚ) - 1) := le_min hx0 (by linarith)
  refine ⟨?_, le_min hb0 (by linarith), min_le_right _ _, le_min ?_ ?_, ?_⟩
  · rcases min_choice (rnd (rnd N / rnd D)) ((n : ℚ) - 1) with h | h <;> rw [h]
    · exact hr.float _ hq0
    · exact hn1
  · refine le_trans ?_ b1
    apply mul_le_mul_of_nonneg_left _ (by linarith)
    have := mul_le_mul_of_nonneg_left (min_le_left (N / D) ((n : ℚ) - 1)) hr0
    linarith
  · have h3 := mul_le_mul_of_nonneg_right hr1 hm0
    have h4 := min_le_right (N / D) ((n : ℚ) - 1)
    have h5 : 0 ≤ (1 - ε) / (1 + ε) * min (N / D) ((n : ℚ) - 1) := mul_nonneg hr0 hm0
    have h6 : (1 - ε) * ((1 - ε) / (1 + ε) * min (N / D) ((n : ℚ) - 1)) ≤ 1 * ((1 - ε) / (1 + ε) * min (N / D) ((n : ℚ) - 1)) :=
      mul_le_mul_of_nonneg_right (by linarith) h5
    have h7 : 0 ≤ (1 - ε) * 2 ^ emin := mul_nonneg (by linarith) h2.le
    rw [mul_sub]
    linarith
  · rcases le_total (N / D) ((n : ℚ) - 1) with h | h
    · rw [min_eq_left h]
      refine (min_le_left _ _).trans (b2.trans ?_)
      apply mul_le_mul_of_nonneg_left _ (by linarith)
      linarith
    · rw [min_eq_right h]
      refine (min_le_right _ _).trans ?_
      have h3 := mul_le_mul_of_nonneg_right hr2 (show (0 : ℚ) ≤ (n : ℚ) - 1 by linarith)
      have h4 : 1 * ((1 + ε) / (1 - ε) * ((n : ℚ) - 1) + 2 ^ emin) ≤ (1 + ε) * ((1 + ε) / (1 - ε) * ((n : ℚ) - 1) + 2 ^ emin) :=
        mul_le_mul_of_nonneg_right (by linarith) (by linarith)
      linarith

/-- What one source atom adds at index `j`. -/
theorem fcontribution (hr : Tree.Spec.Rounding p emin rnd) (hp : 2 ≤ p) (he : emin ≤ 0) {b q : ℚ} (hb : 0 ≤ b)
    (hf : Tree.Spec.Float p emin b) (hq : 0 ≤ q) (j : Int) :
    (1 - Tree.Spec.eps p) ^ 2 * (q * max 0 (1 - |b - (j : ℚ)|)) - 2 * 2 ^ emin
      ≤ (if ⌊b⌋ = j then rnd (q * rnd (1 - rnd (b - (⌊b⌋ : Int)))) else 0) + (if ⌈b⌉ = j then rnd (q * rnd (b - (⌊b⌋ : Int))) else 0) ∧
    (if ⌊b⌋ = j then rnd (q * rnd (1 - rnd (b - (⌊b⌋ : Int)))) else 0) + (if ⌈b⌉ = j then rnd (q * rnd (b - (⌊b⌋ : Int))) else 0)
      ≤ (1 + Tree.Spec.eps p) ^ 2 * (q * max 0 (1 - |b - (j : ℚ)|) + 2 * 2 ^ emin) := by
  have hε := eps_lt hp
  have hε0 := eps_pos (p := p)
  have h2 := pow_pos' emin
  rw [← shares_eq_hat b j]
  have hff := float_frac hb hf
  have f0 : 0 ≤ b - (⌊b⌋ : Int) := by linarith [Int.floor_le b]
  have f1 : b - (⌊b⌋ : Int) ≤ 1 := by linarith [Int.lt_floor_add_one b]
  rw [hr.fixed _ hff]
  set f := b - ((⌊b⌋ : Int) : ℚ) with hfd
  have h1f : Tree.Spec.Float p emin (1 : ℚ) := by
    have := float_nat (p := p) (emin := emin) he (n := 1) Nat.one_le_two_pow
    simpa using this
  obtain ⟨w1, w2⟩ := err_sub hr h1f hff f1
  have hw0 : 0 ≤ rnd (1 - f) := hr.nonneg (by linarith)
  obtain ⟨l1, l2⟩ := err_any hr hp (mul_nonneg hq hw0)
  obtain ⟨u1, u2⟩ := err_any hr hp (mul_nonneg hq f0)
  set ε := Tree.Spec.eps p with hεd
  have hqw1 := mul_le_mul_of_nonneg_left w1 hq
  have hqw2 := mul_le_mul_of_nonneg_left w2 hq
  have hqf := mul_nonneg hq f0
  have hqg : 0 ≤ q * (1 - f) := mul_nonneg hq (by linarith)
  have L1 : (1 - ε) ^ 2 * (q * (1 - f)) - 2 ^ emin ≤ rnd (q * rnd (1 - f)) := by
    have h3 : (1 - ε) * (q * ((1 - ε) * (1 - f))) ≤ (1 - ε) * (q * rnd (1 - f)) := mul_le_mul_of_nonneg_left hqw1 (by linarith)
    have h4 : (1 - ε) * 2 ^ emin ≤ 1 * 2 ^ emin := mul_le_mul_of_nonneg_right (by linarith) h2.le
    have h5 : (1 - ε) ^ 2 * (q * (1 - f)) = (1 - ε) * (q * ((1 - ε) * (1 - f))) := by ring
    rw [h5]
    linarith
  have L2 : rnd (q * rnd (1 - f)) ≤ (1 + ε) ^ 2 * (q * (1 - f) + 2 ^ emin) := by
    have h3 : (1 + ε) * (q * rnd (1 - f)) ≤ (1 + ε) * (q * ((1 + ε) * (1 - f))) := mul_le_mul_of_nonneg_left hqw2 (by linarith)
    have h4 : (1 + ε) * 2 ^ emin ≤ (1 + ε) ^ 2 * 2 ^ emin := mul_le_mul_of_nonneg_right (by nlinarith) h2.le
    have h5 : (1 + ε) ^ 2 * (q * (1 - f)) = (1 + ε) * (q * ((1 + ε) * (1 - f))) := by ring
    rw [mul_add, h5]
    linarith
  have U1 : (1 - ε) ^ 2 * (q * f) - 2 ^ emin ≤ rnd (q * f) := by
    have h3 : (1 - ε) ^ 2 * (q * f) ≤ (1 - ε) * (q * f) := mul_le_mul_of_nonneg_right (by nlinarith) hqf
    have h4 : (1 - ε) * 2 ^ emin ≤ 1 * 2 ^ emin := mul_le_mul_of_nonneg_right (by linarith) h2.le
    linarith
  have U2 : rnd (q * f) ≤ (1 + ε) ^ 2 * (q * f + 2 ^ emin) :=
    u2.trans (mul_le_mul_of_nonneg_right (by nlinarith) (by linarith))
  have P : 0 ≤ (1 + ε) ^ 2 * 2 ^ emin := by positivity
  rw [mul_add (c := 2 * 2 ^ emin), show (1 + ε) ^ 2 * (2 * 2 ^ emin) = 2 * ((1 + ε) ^ 2 * 2 ^ emin) by ring]
  rw [mul_add] at L2 U2
  split_ifs
  · rw [mul_add, mul_add, mul_add]
    constructor <;> linarith
  · rw [add_zero, add_zero]
    constructor <;> linarith
  · rw [zero_add, zero_add]
    constructor <;> linarith
  · rw [add_zero, mul_zero, mul_zero, mul_zero]
    constructor <;> linarith

/-- What a row of source atoms adds at index `j`. -/
theorem fadded (hr : Tree.Spec.Rounding p emin rnd) (hp : 2 ≤ p) (he : emin ≤ 0) {n : Nat} {vMin vMax d : ℚ} (j : Nat)
    (yr : List ℚ) : ∀ (pr : List ℚ), (∀ y ∈ yr, 0 ≤ fposition rnd n vMin vMax d y ∧ Tree.Spec.Float p emin (fposition rnd n vMin vMax d y)) →
    (∀ q ∈ pr, 0 ≤ q) →
    (1 - Tree.Spec.eps p) ^ 2 * Spec.received (yr.map (fposition rnd n vMin vMax d)) pr j - 2 * yr.length * 2 ^ emin
      ≤ addedAt j (List.zipWith (flower rnd n vMin vMax d) yr pr) + addedAt j (List.zipWith (fupper rnd n vMin vMax d) yr pr) ∧
    addedAt j (List.zipWith (flower rnd n vMin vMax d) yr pr) + addedAt j (List.zipWith (fupper rnd n vMin vMax d) yr pr)
      ≤ (1 + Tree.Spec.eps p) ^ 2 * (Spec.received (yr.map (fposition rnd n vMin vMax d)) pr j + 2 * yr.length * 2 ^ emin) := by
  have h2 := pow_pos' emin
  have hε0 := eps_pos (p := p)
  induction yr with
  | nil => intro pr _ _; simp [addedAt, Spec.received]
  | cons y yr ih =>
    intro pr hy hq
    cases pr with
    | nil =>
      simp only [addedAt, Spec.received, List.zipWith_nil_right, List.zip_nil_right, List.map_nil, List.sum_nil]
      constructor
      · have : 0 ≤ 2 * (((y :: yr).length : Nat) : ℚ) * 2 ^ emin := by positivity
        linarith
      · rw [add_zero]
        positivity
    | cons q pr =>
      have hc := fcontribution hr hp he (hy y (by simp)).1 (hy y (by simp)).2 (hq q (by simp)) (j : Int)
      have hi := ih pr (fun a ha => hy a (by simp [ha])) (fun a ha => hq a (by simp [ha]))
      have eA : addedAt j (List.zipWith (flower rnd n vMin vMax d) (y :: yr) (q :: pr))
          = (if ⌊fposition rnd n vMin vMax d y⌋ = (j : Int) then rnd (q * rnd (1 - rnd (fposition rnd n vMin vMax d y
              - (⌊fposition rnd n vMin vMax d y⌋ : Int)))) else 0)
            + addedAt j (List.zipWith (flower rnd n vMin vMax d) yr pr) := by
        simp [addedAt, flower]
      have eB : addedAt j (List.zipWith (fupper rnd n vMin vMax d) (y :: yr) (q :: pr))
          = (if ⌈fposition rnd n vMin vMax d y⌉ = (j : Int) then rnd (q * rnd (fposition rnd n vMin vMax d y
              - (⌊fposition rnd n vMin vMax d y⌋ : Int))) else 0)
            + addedAt j (List.zipWith (fupper rnd n vMin vMax d) yr pr) := by
        simp [addedAt, fupper]
      have eR : Spec.received ((y :: yr).map (fposition rnd n vMin vMax d)) (q :: pr) j
          = q * max 0 (1 - |fposition rnd n vMin vMax d y - ((j : Int) : ℚ)|) + Spec.received (yr.map (fposition rnd n vMin vMax d)) pr j := by
        simp [Spec.received]
      rw [eA, eB, eR, List.length_cons]
      push_cast
      push_cast at hc
      constructor
      · linarith [hc.1, hi.1]
      · linarith [hc.2, hi.2]

/-- The shares of an atom on the grid add up to one. -/
theorem hat_sum {n : Nat} {b : ℚ} (h0 : 0 ≤ b) (h1 : b ≤ (n : ℚ) - 1) : ∑ j ∈ Finset.range n, max 0 (1 - |b - (j : ℚ)|) = 1 := by
  have := (share_sums (K := ℚ) (n := n) (vMin := 0) (δ := 1) one_pos (x := b) h0 (by linarith)).1
  simpa [Spec.share] using this

theorem received_sum {n : Nat} (bs : List ℚ) : ∀ (ps : List ℚ), (∀ b ∈ bs, 0 ≤ b ∧ b ≤ (n : ℚ) - 1) → ps.length = bs.length →
    ∑ j ∈ Finset.range n, Spec.received bs ps j = Spec.mass ps := by
  induction bs with
  | nil =>
    intro ps _ hl
    simp only [List.length_nil, List.length_eq_zero_iff] at hl
    subst hl
    simp [Spec.received, Spec.mass]
  | cons b bs ih =>
    intro ps hb hl
    cases ps with
    | nil => simp at hl
    | cons q ps =>
      have e : ∀ j, Spec.received (b :: bs) (q :: ps) j = q * max 0 (1 - |b - (j : ℚ)|) + Spec.received bs ps j := by
        intro j; simp [Spec.received]
      have := ih ps (fun a ha => hb a (by simp [ha])) (by simpa using hl)
      simp only [e, Finset.sum_add_distrib, this, ← Finset.mul_sum, hat_sum (hb b (by simp)).1 (hb b (by simp)).2]
      simp [Spec.mass]

theorem flatPairs_val {g : ℚ → ℚ → Int × ℚ} {n : Nat} {P : ℚ → Prop} (hg : ∀ a b, 0 ≤ b → P (g a b).2) :
    ∀ (ys ps : List (List ℚ)) (i : Nat), (∀ r ∈ ps, ∀ v ∈ r, 0 ≤ v) → ∀ x ∈ flatPairs g n i ys ps, P x.2 := by
  intro ys
  induction ys with
  | nil => intro ps i _ x hx; simp [flatPairs] at hx
  | cons yr ys ih =>
    intro ps i hp x hx
    cases ps with
    | nil => simp [flatPairs] at hx
    | cons pr ps =>
      simp only [flatPairs, List.mem_append, List.mem_map] at hx
      rcases hx with ⟨w, hw, rfl⟩ | hx
      · obtain ⟨k, hk, rfl⟩ := List.getElem_of_mem hw
        rw [List.getElem_zipWith]
        exact hg _ _ (hp pr (by simp) _ (List.getElem_mem _))
      · exact ih ps (i + 1) (fun r hr => hp r (by simp [hr])) x hx

theorem addedAt_nonneg {l : List (Int × ℚ)} (h : ∀ x ∈ l, 0 ≤ x.2) (t : Nat) : 0 ≤ addedAt t l := by
  unfold addedAt
  apply List.sum_nonneg
  intro w hw
  obtain ⟨x, hx, rfl⟩ := List.mem_map.1 hw
  split_ifs
  · exact h x hx
  · exact le_rfl

/-- Two rounds of additions. -/
theorem two_rounds {ε A B o o' R c : ℚ} {n h k : Nat} (hε : ε < 1) (hε0 : 0 < ε) (hA : 0 ≤ A) (hB : 0 ≤ B) (hc : 0 ≤ c)
    (hh : h ≤ n) (hk : k ≤ n) (c1 : (1 - ε) ^ h * A ≤ o ∧ o ≤ (1 + ε) ^ h * A) (c2 : (1 - ε) ^ k * (o + B) ≤ o' ∧ o' ≤ (1 + ε) ^ k * (o + B))
    (hs : (1 - ε) ^ 2 * R - c ≤ A + B ∧ A + B ≤ (1 + ε) ^ 2 * (R + c)) :
    (1 - ε) ^ (2 * n + 2) * R - c ≤ o' ∧ o' ≤ (1 + ε) ^ (2 * n + 2) * (R + c) := by
  have l0 : 0 ≤ 1 - ε := by linarith
  have l1 : 1 - ε ≤ 1 := by linarith
  have u1 : 1 ≤ 1 + ε := by linarith
  have hl : ∀ {m : Nat}, m ≤ n → (1 - ε) ^ n ≤ (1 - ε) ^ m := fun hm => pow_le_pow_of_le_one l0 l1 hm
  have hu : ∀ {m : Nat}, m ≤ n → (1 + ε) ^ m ≤ (1 + ε) ^ n := fun hm => pow_le_pow_right₀ u1 hm
  have hln : 0 ≤ (1 - ε) ^ n := pow_nonneg l0 n
  have hln1 : (1 - ε) ^ n ≤ 1 := pow_le_one₀ l0 l1
  have hun : 1 ≤ (1 + ε) ^ n := one_le_pow₀ u1
  have ho : 0 ≤ o := (mul_nonneg (pow_nonneg l0 _) hA).trans c1.1
  have e : (1 - ε) ^ (2 * n + 2) = (1 - ε) ^ n * ((1 - ε) ^ n * (1 - ε) ^ 2) := by ring
  have e' : (1 + ε) ^ (2 * n + 2) = (1 + ε) ^ n * ((1 + ε) ^ n * (1 + ε) ^ 2) := by ring
  constructor
  · have s1 : (1 - ε) ^ n * A ≤ o := (mul_le_mul_of_nonneg_right (hl hh) hA).trans c1.1
    have s2 : (1 - ε) ^ n * (o + B) ≤ o' := (mul_le_mul_of_nonneg_right (hl hk) (by linarith)).trans c2.1
    have s3 : (1 - ε) ^ n * B ≤ B := mul_le_of_le_one_left hB hln1
    have s4 : (1 - ε) ^ n * ((1 - ε) ^ n * (A + B)) ≤ (1 - ε) ^ n * (o + B) := by
      apply mul_le_mul_of_nonneg_left _ hln
      rw [mul_add]
      linarith
    have s5 : (1 - ε) ^ n * ((1 - ε) ^ n * ((1 - ε) ^ 2 * R - c)) ≤ (1 - ε) ^ n * ((1 - ε) ^ n * (A + B)) :=
      mul_le_mul_of_nonneg_left (mul_le_mul_of_nonneg_left hs.1 hln) hln
    have s6 : (1 - ε) ^ n * ((1 - ε) ^ n * c) ≤ c :=
      (mul_le_of_le_one_left (mul_nonneg hln hc) hln1).trans (mul_le_of_le_one_left hc hln1)
    have s7 : (1 - ε) ^ n * ((1 - ε) ^ n * ((1 - ε) ^ 2 * R - c)) = (1 - ε) ^ n * ((1 - ε) ^ n * (1 - ε) ^ 2) * R
      - (1 - ε) ^ n * ((1 - ε) ^ n * c) := by ring
    rw [e]
    linarith
  · have s1 : o ≤ (1 + ε) ^ n * A := c1.2.trans (mul_le_mul_of_nonneg_right (hu hh) hA)
    have s2 : o' ≤ (1 + ε) ^ n * (o + B) := c2.2.trans (mul_le_mul_of_nonneg_right (hu hk) (by linarith))
    have s3 : B ≤ (1 + ε) ^ n * B := le_mul_of_one_le_left hB hun
    have s4 : (1 + ε) ^ n * (o + B) ≤ (1 + ε) ^ n * ((1 + ε) ^ n * (A + B)) := by
      apply mul_le_mul_of_nonneg_left _ (by linarith)
      rw [mul_add]
      linarith
    have s5 : (1 + ε) ^ n * ((1 + ε) ^ n * (A + B)) ≤ (1 + ε) ^ n * ((1 + ε) ^ n * ((1 + ε) ^ 2 * (R + c))) :=
      mul_le_mul_of_nonneg_left (mul_le_mul_of_nonneg_left hs.2 (by linarith)) (by linarith)
    rw [e', mul_assoc, mul_assoc]
    linarith

theorem zipWith_val {g : ℚ → ℚ → Int × ℚ} {P : ℚ → Prop} (hg : ∀ a b, 0 ≤ b → P (g a b).2) {ys ps : List ℚ} (hp : ∀ v ∈ ps, 0 ≤ v) :
    ∀ x ∈ List.zipWith g ys ps, P x.2 := by
  intro x hx
  obtain ⟨k, hk, rfl⟩ := List.getElem_of_mem hx
  rw [List.getElem_zipWith]
  exact hg _ _ (hp _ (List.getElem_mem _))

/-- Bounds on all entries add up. -/
theorem sum_bounds {l : List ℚ} {n : Nat} (hl : l.length = n) {f g : Nat → ℚ} (h : ∀ j (hj : j < l.length), f j ≤ l[j] ∧ l[j] ≤ g j) :
    ∑ j ∈ Finset.range n, f j ≤ l.sum ∧ l.sum ≤ ∑ j ∈ Finset.range n, g j := by
  subst hl
  rw [Finset.sum_range, Finset.sum_range, ← Fin.sum_univ_getElem]
  exact ⟨Finset.sum_le_sum fun j _ => (h j j.2).1, Finset.sum_le_sum fun j _ => (h j j.2).2⟩

/-! ## C138 -/

/-- **C138.** For an increasing grid of at least two atoms and any batch of distributions, all of floating point numbers, any rounding and any
order of the additions: the projection does not raise; no entry is negative; every source atom is put where it belongs on the grid up to the
rounding of four operations, and grid point `j` receives what belongs to it up to the rounding of the `2 n + 2` operations that can be
involved; so the mass of every row is kept up to that. -/
theorem float_projection (hr : Tree.Spec.Rounding p emin rnd) (hp : 2 ≤ p) (he : emin ≤ 0) {n : Nat} (hn : 2 ≤ n) (hnp : n ≤ 2 ^ p)
    {z : List ℚ} (hzl : z.length = n) (hzf : ∀ v ∈ z, Tree.Spec.Float p emin v) (hzs : z.Pairwise (· < ·))
    {y q : List (List ℚ)} (hy : ∀ r ∈ y, r.length = n) (hyf : ∀ r ∈ y, ∀ v ∈ r, Tree.Spec.Float p emin v)
    (hq : ∀ r ∈ q, r.length = n) (hq0 : ∀ r ∈ q, ∀ v ∈ r, 0 ≤ v) (hl : q.length = y.length)
    {ord : Nat → List (Int × ℚ) → List (Int × ℚ)} (hord : ∀ k l, (ord k l).Perm l) :
    ∃ out, fproject rnd ord y q z = .ok out ∧ out.length = y.length ∧
      ∀ i (hi : i < y.length) (hiq : i < q.length) (hio : i < out.length),
        out[i].length = n ∧ (∀ v ∈ out[i], 0 ≤ v) ∧
        (∃ bs, List.Forall₂ (Spec.NearPlace p emin z) y[i] bs ∧ ∀ j (hj : j < out[i].length),
          (1 - Tree.Spec.eps p) ^ (2 * n + 2) * Spec.received bs q[i] j - 2 * n * 2 ^ emin ≤ out[i][j] ∧
          out[i][j] ≤ (1 + Tree.Spec.eps p) ^ (2 * n + 2) * (Spec.received bs q[i] j + 2 * n * 2 ^ emin)) ∧
        (1 - Tree.Spec.eps p) ^ (2 * n + 2) * Spec.mass q[i] - 2 * n ^ 2 * 2 ^ emin ≤ Spec.mass out[i] ∧
        Spec.mass out[i] ≤ (1 + Tree.Spec.eps p) ^ (2 * n + 2) * (Spec.mass q[i] + 2 * n ^ 2 * 2 ^ emin) := by
  have hε := eps_lt hp
  have hε0 := eps_pos (p := p)
  have h2 := pow_pos' emin
  obtain ⟨z0, hg0⟩ : ∃ v, z[0]? = some v := ⟨z[0], List.getElem?_eq_getElem (by omega)⟩
  obtain ⟨z1, hg1⟩ : ∃ v, z[1]? = some v := ⟨z[1], List.getElem?_eq_getElem (by omega)⟩
  obtain ⟨zl, hgl⟩ : ∃ v, z[n - 1]? = some v := ⟨z[n - 1]'(by omega), List.getElem?_eq_getElem (by omega)⟩
  have hlast : z.getLast? = some zl := by rw [List.getLast?_eq_getElem?, hzl, hgl]
  have hlt : ∀ {i j : Nat} {a b : ℚ}, i < j → z[i]? = some a → z[j]? = some b → a < b := by
    intro i j a b hij ha hb
    obtain ⟨h1, rfl⟩ := List.getElem?_eq_some_iff.1 ha
    obtain ⟨h2, rfl⟩ := List.getElem?_eq_some_iff.1 hb
    exact List.pairwise_iff_getElem.1 hzs i j h1 h2 hij
  have h01 : z0 < z1 := hlt (by omega) hg0 hg1
  have h0l : z0 ≤ zl := (hlt (by omega) hg0 hgl).le
  have hpl : ∀ y : ℚ, Spec.place z y = min ((min (max y z0) zl - z0) / (z1 - z0)) ((n : ℚ) - 1) := by
    intro y
    unfold Spec.place
    rw [List.getD_eq_getElem?_getD, List.getD_eq_getElem?_getD, hg0, hg1, List.getLastD_eq_getLast?, hlast, hzl]
    rfl
  have hnear := fun {y : ℚ} (hy : Tree.Spec.Float p emin y) => fposition_near hr hp he hn hnp (hzf z0 (List.mem_of_getElem? hg0))
    (hzf z1 (List.mem_of_getElem? hg1)) (hzf zl (List.mem_of_getElem? hgl)) h01 h0l hy
  have hrange : ∀ y : ℚ, 0 ≤ fposition rnd n z0 zl (rnd (z1 - z0)) y ∧ fposition rnd n z0 zl (rnd (z1 - z0)) y ≤ (n : ℚ) - 1 := by
    intro y
    have : (2 : ℚ) ≤ n := by exact_mod_cast hn
    unfold fposition clamp
    exact ⟨le_min (le_max_right _ _) (by linarith), min_le_right _ _⟩
  set d := rnd (z1 - z0) with hd
  have hgl' : ∀ a b : ℚ, 0 ≤ (flower rnd n z0 zl d a b).1 ∧ (flower rnd n z0 zl d a b).1 < n :=
    fun a b => (floor_range (hrange a).1 (hrange a).2).1
  have hgu : ∀ a b : ℚ, 0 ≤ (fupper rnd n z0 zl d a b).1 ∧ (fupper rnd n z0 zl d a b).1 < n :=
    fun a b => (floor_range (hrange a).1 (hrange a).2).2
  have h1f : Tree.Spec.Float p emin (1 : ℚ) := by
    have := float_nat (p := p) (emin := emin) he (n := 1) Nat.one_le_two_pow
    simpa using this
  have hfrac : ∀ b : ℚ, 0 ≤ rnd (b - (⌊b⌋ : Int)) ∧ rnd (b - (⌊b⌋ : Int)) ≤ 1 := by
    intro b
    have f0 : 0 ≤ b - (⌊b⌋ : Int) := by linarith [Int.floor_le b]
    have f1 : b - (⌊b⌋ : Int) ≤ 1 := by linarith [Int.lt_floor_add_one b]
    have := hr.mono _ _ f0 f1
    rw [hr.fixed _ h1f] at this
    exact ⟨hr.nonneg f0, this⟩
  have hvl : ∀ a b : ℚ, 0 ≤ b → 0 ≤ (flower rnd n z0 zl d a b).2 ∧ Tree.Spec.Float p emin (flower rnd n z0 zl d a b).2 := by
    intro a b hb
    have := hfrac (fposition rnd n z0 zl d a)
    have h3 := mul_nonneg hb (hr.nonneg (x := 1 - rnd (fposition rnd n z0 zl d a - (⌊fposition rnd n z0 zl d a⌋ : Int))) (by linarith))
    exact ⟨hr.nonneg h3, hr.float _ h3⟩
  have hvu : ∀ a b : ℚ, 0 ≤ b → 0 ≤ (fupper rnd n z0 zl d a b).2 ∧ Tree.Spec.Float p emin (fupper rnd n z0 zl d a b).2 := by
    intro a b hb
    have := hfrac (fposition rnd n z0 zl d a)
    have h3 := mul_nonneg hb this.1
    exact ⟨hr.nonneg h3, hr.float _ h3⟩
  obtain ⟨o1, e1, l1, p1, v1⟩ := fscatter_spec hr hp (ord 0 (flatPairs (flower rnd n z0 zl d) n 0 y q)) (List.replicate (y.length * n) (0 : ℚ))
    (fun x hx => by
      have := flatPairs_range _ n hgl' y q 0 x ((hord 0 _).mem_iff.1 hx)
      rw [List.length_replicate]
      simpa using this)
    (fun x hx => flatPairs_val (P := fun v => 0 ≤ v ∧ Tree.Spec.Float p emin v) hvl y q 0 hq0 x ((hord 0 _).mem_iff.1 hx))
    (fun a ha => by
      rw [List.mem_replicate] at ha
      rw [ha.2]
      exact ⟨le_rfl, float_zero⟩)
  rw [List.length_replicate] at l1
  obtain ⟨o2, e2, l2, p2, v2⟩ := fscatter_spec hr hp (ord 1 (flatPairs (fupper rnd n z0 zl d) n 0 y q)) o1
    (fun x hx => by
      have := flatPairs_range _ n hgu y q 0 x ((hord 1 _).mem_iff.1 hx)
      rw [l1]
      simpa using this)
    (fun x hx => flatPairs_val (P := fun v => 0 ≤ v ∧ Tree.Spec.Float p emin v) hvu y q 0 hq0 x ((hord 1 _).mem_iff.1 hx)) p1
  have lout : o2.length = y.length * n := by rw [l2, l1]
  refine ⟨unflatten y.length n o2, ?_, by simp [unflatten], ?_⟩
  · unfold fproject
    simp only [hzl]
    rw [if_pos ⟨hy, hq, hl⟩, hg0, hg1, hlast]
    simp only [← hd, e1, e2]
  intro i hi hiq hio
  have hin : i * n + n ≤ y.length * n := by
    have : (i + 1) * n ≤ y.length * n := Nat.mul_le_mul_right n hi
    rw [Nat.succ_mul] at this; exact this
  have hrow : (unflatten y.length n o2)[i] = (o2.drop (i * n)).take n := by simp [unflatten]
  have hrl : (unflatten y.length n o2)[i].length = n := by rw [hrow, List.length_take, List.length_drop, lout]; omega
  have hent : ∀ j (hj : j < (unflatten y.length n o2)[i].length), (unflatten y.length n o2)[i][j] = o2[i * n + j]'(by omega) := by
    intro j hj
    simp only [hrow, List.getElem_take, List.getElem_drop]
  have hyi := hyf _ (List.getElem_mem hi)
  have hpoint : ∀ j (hj : j < (unflatten y.length n o2)[i].length),
      (1 - Tree.Spec.eps p) ^ (2 * n + 2) * Spec.received (y[i].map (fposition rnd n z0 zl d)) q[i] j - 2 * n * 2 ^ emin
        ≤ (unflatten y.length n o2)[i][j] ∧
      (unflatten y.length n o2)[i][j]
        ≤ (1 + Tree.Spec.eps p) ^ (2 * n + 2) * (Spec.received (y[i].map (fposition rnd n z0 zl d)) q[i] j + 2 * n * 2 ^ emin) := by
    intro j hj
    have hjn : j < n := by omega
    rw [hent j hj]
    have c1 := v1 (i * n + j) (by rw [List.length_replicate]; omega) (by omega)
    have c2 := v2 (i * n + j) (by omega) (by omega)
    rw [List.getElem_replicate, zero_add] at c1
    rw [addedAt_perm (hord 0 _), hits_perm (hord 0 _)] at c1
    rw [addedAt_perm (hord 1 _), hits_perm (hord 1 _)] at c2
    have k1 := hits_flatPairs _ n hgl' y q i j hl.symm hy hjn hi
    have k2 := hits_flatPairs _ n hgu y q i j hl.symm hy hjn hi
    have a1 := addedAt_flatPairs _ n hgl' y q 0 i j hl.symm hjn hi hiq
    have a2 := addedAt_flatPairs _ n hgu y q 0 i j hl.symm hjn hi hiq
    rw [Nat.zero_add] at a1 a2
    rw [a1] at c1
    rw [a2] at c2
    have hs := fadded hr hp he (n := n) (vMin := z0) (vMax := zl) (d := d) j y[i] q[i] (fun a ha => ⟨(hrange a).1, (hnear (hyi a ha)).1⟩)
      (hq0 _ (List.getElem_mem hiq))
    rw [hy _ (List.getElem_mem hi)] at hs
    have hqi := hq0 _ (List.getElem_mem hiq)
    exact two_rounds hε hε0 (addedAt_nonneg (zipWith_val (P := fun v => 0 ≤ v) (fun a b h => (hvl a b h).1) hqi) _)
      (addedAt_nonneg (zipWith_val (P := fun v => 0 ≤ v) (fun a b h => (hvu a b h).1) hqi) _) (by positivity)
      k1 k2 c1 c2 hs
  refine ⟨hrl, ?_, ⟨y[i].map (fposition rnd n z0 zl d), ?_, hpoint⟩, ?_⟩
  · intro v hv
    rw [hrow] at hv
    exact (p2 v (List.mem_of_mem_drop (List.mem_of_mem_take hv))).1
  · rw [List.forall₂_map_right_iff, List.forall₂_same]
    intro a ha
    have := hnear (hyi a ha)
    unfold Spec.NearPlace
    rw [hpl, hzl]
    exact this.2
  · have hb := sum_bounds hrl hpoint
    have hm : ∑ j ∈ Finset.range n, Spec.received (y[i].map (fposition rnd n z0 zl d)) q[i] j = Spec.mass q[i] := by
      apply received_sum
      · intro b hb
        obtain ⟨a, _, rfl⟩ := List.mem_map.1 hb
        exact hrange a
      · rw [List.length_map, hq _ (List.getElem_mem hiq), hy _ (List.getElem_mem hi)]
    obtain ⟨hb1, hb2⟩ := hb
    rw [Finset.sum_sub_distrib, ← Finset.mul_sum, hm, Finset.sum_const, Finset.card_range, nsmul_eq_mul] at hb1
    rw [← Finset.mul_sum, Finset.sum_add_distrib, hm, Finset.sum_const, Finset.card_range, nsmul_eq_mul] at hb2
    rw [show (n : ℚ) * (2 * n * 2 ^ emin) = 2 * n ^ 2 * 2 ^ emin by ring] at hb1 hb2
    exact ⟨hb1, hb2⟩

/-! ## Limits -/

/-- Numbers of 24 bits, `torch.float32`. -/
abbrev f32 : ℚ → ℚ := rne 24 (-149)

/-- The grid of 51 atoms from -10 to 10 of the examples, in single precision: the difference of the first two atoms is too small, so without
the second clamp the last atom would be put behind the end of the grid. -/
theorem float_position_past_end : let d := f32 (f32 (-96 / 10) - -10)
    50 < f32 (f32 (10 - -10) / d) ∧ fposition f32 51 (-10) 10 d 10 = 50 := by decide +kernel

/-- The mass of a row is not kept exactly: an atom just above a grid point. -/
theorem float_mass_changes : ∃ out, fproject f32 (fun _ l => l) [[1 / 2 ^ 30, 0]] [[1, 0]] [0, 1] = .ok [out] ∧ Spec.mass out ≠ 1 :=
  ⟨[1, 1 / 2 ^ 30], by decide +kernel, by decide +kernel⟩

/-! ## Non-vacuity -/

/-- Without rounding this is the projection of C23. -/
example (y q : List (List ℚ)) (z : List ℚ) : fproject id (fun _ l => l) y q z = project y q z := by
  have h : ∀ (ps : List (Int × ℚ)) (acc : List ℚ), fscatter id acc ps = scatterAdd acc ps := by
    intro ps
    induction ps with
    | nil => intro acc; rfl
    | cons x ps ih =>
      intro acc
      obtain ⟨i, v⟩ := x
      simp only [fscatter, scatterAdd, id, ih]
      cases acc[i.toNat]? <;> rfl
  have hlo : ∀ a b c d, flower id a b c d = lower a b c d := fun _ _ _ _ => rfl
  have hup : ∀ a b c d, fupper id a b c d = upper a b c d := fun _ _ _ _ => rfl
  unfold fproject project
  simp only [h, hlo, hup, id]
  split_ifs
  · cases z[0]? with
    | none => rfl
    | some z0 =>
      cases z[1]? with
      | none => rfl
      | some z1 =>
        cases z.getLast? with
        | none => rfl
        | some zl =>
          simp only
          cases scatterAdd (List.replicate (y.length * z.length) 0) (flatPairs (lower z.length z0 zl (z1 - z0)) z.length 0 y q) with
          | error e => rfl
          | ok zp =>
            simp only
            cases scatterAdd zp (flatPairs (upper z.length z0 zl (z1 - z0)) z.length 0 y q) <;> rfl
  · rfl

/-- Single precision, 51 atoms, a batch of distributions: the mass of every row is kept up to 0.002 percent. -/
example {z : List ℚ} (hzl : z.length = 51) (hzf : ∀ v ∈ z, Tree.Spec.Float 24 (-149) v) (hzs : z.Pairwise (· < ·))
    {y q : List (List ℚ)} (hy : ∀ r ∈ y, r.length = 51) (hyf : ∀ r ∈ y, ∀ v ∈ r, Tree.Spec.Float 24 (-149) v)
    (hq : ∀ r ∈ q, r.length = 51) (hq0 : ∀ r ∈ q, ∀ v ∈ r, 0 ≤ v) (hl : q.length = y.length) (hm : ∀ r ∈ q, Spec.mass r = 1) :
    ∃ out, fproject f32 (fun _ l => l.reverse) y q z = .ok out ∧ ∀ r ∈ out, |Spec.mass r - 1| ≤ 2 / 10 ^ 5 := by
  obtain ⟨out, h1, h2, h3⟩ := float_projection (Tree.rne_rounding (p := 24) (emin := -149) (by norm_num)) (by norm_num) (by norm_num)
    (by norm_num) (by norm_num) hzl hzf hzs hy hyf hq hq0 hl (ord := fun _ l => l.reverse) (fun _ l => l.reverse_perm)
  refine ⟨out, h1, ?_⟩
  intro r hr
  obtain ⟨i, hi, rfl⟩ := List.getElem_of_mem hr
  obtain ⟨_, _, _, h4, h5⟩ := h3 i (by omega) (by omega) hi
  rw [hm _ (List.getElem_mem _)] at h4 h5
  have g1 : 1 - 2 / 10 ^ 5 ≤ (1 - Tree.Spec.eps 24) ^ (2 * 51 + 2) * 1 - 2 * ((51 : ℕ) : ℚ) ^ 2 * 2 ^ (-149 : ℤ) := by
    unfold Tree.Spec.eps; norm_num
  have g2 : (1 + Tree.Spec.eps 24) ^ (2 * 51 + 2) * (1 + 2 * ((51 : ℕ) : ℚ) ^ 2 * 2 ^ (-149 : ℤ)) ≤ 1 + 2 / 10 ^ 5 := by
    unfold Tree.Spec.eps; norm_num
  have i1 := g1.trans h4
  have i2 := h5.trans g2
  rw [abs_le]
  constructor <;> linarith

/-- A grid and a batch that meet the hypotheses, and the result. -/
example : (∀ v ∈ ([-1, 1 / 2, 2] : List ℚ), Tree.Spec.Float 24 (-149) v) ∧ ([-1, 1 / 2, 2] : List ℚ).Pairwise (· < ·) ∧
    (∀ v ∈ ([0, 1, 1 / 2] : List ℚ), Tree.Spec.Float 24 (-149) v) := by
  refine ⟨?_, by norm_num, ?_⟩
  · intro v hv
    simp only [List.mem_cons, List.not_mem_nil, or_false] at hv
    rcases hv with rfl | rfl | rfl
    · exact ⟨-1, 0, by norm_num, by norm_num, by norm_num⟩
    · exact ⟨1, -1, by norm_num, by norm_num, by norm_num⟩
    · exact ⟨2, 0, by norm_num, by norm_num, by norm_num⟩
  · intro v hv
    simp only [List.mem_cons, List.not_mem_nil, or_false] at hv
    rcases hv with rfl | rfl | rfl
    · exact ⟨0, 0, by norm_num, by norm_num, by norm_num⟩
    · exact ⟨1, 0, by norm_num, by norm_num, by norm_num⟩
    · exact ⟨1, -1, by norm_num, by norm_num, by norm_num⟩

example : fproject f32 (fun _ l => l) [[0, 1, 1 / 2]] [[1 / 2, 1 / 4, 1 / 4]] [-1, 1 / 2, 2]
    = .ok [[5592405 / 33554432, 3 / 4, 2796203 / 33554432]] := by decide +kernel

end Pfrl.Categorical
