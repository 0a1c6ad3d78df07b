import Verif.Tree.Spec
import Mathlib.Tactic.Abel
import Mathlib.Data.List.Induction
import Mathlib.Algebra.Order.BigOperators.Group.List
import Mathlib.Algebra.Order.Group.Basic
import Mathlib.Order.Lattice
import Mathlib.Tactic.Linarith

/-!
# Canonical trees and the refinement between `TreeQueue` and lists
-/

set_option linter.unusedSectionVars false

namespace Pfrl.Tree
variable {V : Type _}

/-- The tree over `[l, l + 2^h)` storing the partial map `m`. -/
def build (op : Agg V) : Nat → Int → (Int → Option V) → Node V
  | 0, l, m => match m l with
    | none => .nil
    | some v => .leaf v
  | h + 1, l, m => reduce op (build op h l m) (build op h (l + 2 ^ h) m)

theorem build_congr (op : Agg V) (h : Nat) : ∀ {l : Int} {m m' : Int → Option V},
    (∀ i, l ≤ i → i < l + 2 ^ h → m i = m' i) → build op h l m = build op h l m' := by
  induction h with
  | zero => intro l m m' hm; simp only [build]; rw [hm l (by omega) (by simp)]
  | succ h ih =>
    intro l m m' hm
    have hp : (0 : Int) < 2 ^ h := by positivity
    simp only [build]
    rw [ih (fun i h1 h2 => hm i h1 (by rw [pow_succ]; omega)),
        ih (fun i h1 h2 => hm i (by omega) (by rw [pow_succ]; omega))]

theorem build_shift (op : Agg V) (h : Nat) : ∀ (l : Int) (m : Int → Option V) (d : Int),
    build op h l m = build op h (l - d) (fun i => m (i + d)) := by
  induction h with
  | zero => intro l m d; simp [build]
  | succ h ih =>
    intro l m d
    simp only [build]
    rw [ih l m d, ih (l + 2 ^ h) m d]
    congr 2; omega

/-- `m` with position `k` overwritten. -/
def upd (m : Int → Option V) (k : Int) (v : Option V) : Int → Option V :=
  fun i => if i = k then v else m i

theorem reduce_nil_iff (op : Agg V) (a b : Node V) : reduce op a b = .nil ↔ a = .nil ∧ b = .nil := by
  cases a <;> cases b <;> simp [reduce, Node.val?]

theorem reduce_branch {op : Agg V} {a b : Node V} (h : reduce op a b ≠ .nil) :
    ∃ v, reduce op a b = .branch a b v := by
  cases a <;> cases b <;> simp_all [reduce, Node.val?]

theorem reduce_not_leaf (op : Agg V) (a b : Node V) (v : V) : reduce op a b ≠ .leaf v := by
  cases a <;> cases b <;> simp [reduce, Node.val?]

/-- Overwriting inside a branch whose children are canonical. -/
theorem write_branch (op : Agg V) (key : Int) (value : Option V) (h : Nat) (fuel : Nat)
    (l : Int) (m : Int → Option V)
    (ih : ∀ (l : Int) (m : Int → Option V), l ≤ key → key < l + 2 ^ h →
      write op key value fuel l (l + 2 ^ h) (build op h l m)
        = .ok (build op h l (upd m key value), m key))
    (h1 : l ≤ key) (h2 : key < l + 2 ^ (h + 1)) (node : Node V)
    (hnode : (∃ v, node = .branch (build op h l m) (build op h (l + 2 ^ h) m) v) ∨
      (node = .nil ∧ build op h l m = .nil ∧ build op h (l + 2 ^ h) m = .nil)) :
    write op key value (fuel + 1) l (l + 2 ^ (h + 1)) node
      = .ok (build op (h + 1) l (upd m key value), m key) := by
  have hp : (0 : Int) < 2 ^ h := by positivity
  have hw : l + 2 ^ (h + 1) - l ≠ 1 := by rw [pow_succ]; omega
  have hc : (l + (l + 2 ^ (h + 1))) / 2 = l + 2 ^ h := by rw [pow_succ]; omega
  have hr : l + 2 ^ (h + 1) = (l + 2 ^ h) + 2 ^ h := by rw [pow_succ]; omega
  have key1 : ∀ nl nr, nl = build op h l m → nr = build op h (l + 2 ^ h) m →
      (if key < (l + (l + 2 ^ (h + 1))) / 2 then
            match write op key value fuel l ((l + (l + 2 ^ (h + 1))) / 2) nl with
            | .error e => .error e
            | .ok (nl', ret) => .ok (reduce op nl' nr, ret)
          else
            match write op key value fuel ((l + (l + 2 ^ (h + 1))) / 2) (l + 2 ^ (h + 1)) nr with
            | .error e => .error e
            | .ok (nr', ret) => .ok (reduce op nl nr', ret))
      = (.ok (build op (h + 1) l (upd m key value), m key) : Except PyErr _) := by
    intro nl nr e1 e2
    subst e1 e2
    rw [hc]
    split
    · rename_i hk
      rw [ih l m h1 hk]
      simp only [build]
      congr 3
      exact build_congr op h (fun i g1 g2 => by simp [upd]; omega)
    · rename_i hk
      rw [hr, ih (l + 2 ^ h) m (by omega) (by omega)]
      simp only [build]
      congr 3
      exact build_congr op h (fun i g1 g2 => by simp [upd]; omega)
  rcases hnode with ⟨v, rfl⟩ | ⟨rfl, e1, e2⟩
  · unfold write
    rw [if_neg hw]
    exact key1 _ _ rfl rfl
  · unfold write
    rw [if_neg hw]
    exact key1 _ _ e1.symm e2.symm

theorem write_build (op : Agg V) (key : Int) (value : Option V) (h : Nat) :
    ∀ (fuel : Nat) (l : Int) (m : Int → Option V), h ≤ fuel → l ≤ key → key < l + 2 ^ h →
    write op key value fuel l (l + 2 ^ h) (build op h l m)
      = .ok (build op h l (upd m key value), m key) := by
  induction h with
  | zero =>
    intro fuel l m _ h1 h2
    have : key = l := by simp at h2; omega
    subst this
    unfold write
    rw [if_pos (by simp)]
    simp only [build, upd, if_true]
    cases value <;> cases hm : m key <;> simp [Node.val?]
  | succ h ih =>
    intro fuel l m hf h1 h2
    obtain ⟨fuel, rfl⟩ : ∃ f, fuel = f + 1 := ⟨fuel - 1, by omega⟩
    by_cases hn : build op (h + 1) l m = .nil
    · have := (reduce_nil_iff op _ _).1 hn
      rw [hn]
      exact write_branch op key value h fuel l m (fun l m => ih fuel l m (by omega)) h1 h2 _
        (Or.inr ⟨rfl, this.1, this.2⟩)
    · obtain ⟨v, hv⟩ := reduce_branch hn
      have hb : build op (h + 1) l m = .branch (build op h l m) (build op h (l + 2 ^ h) m) v := hv
      rw [hb]
      exact write_branch op key value h fuel l m (fun l m => ih fuel l m (by omega)) h1 h2 _
        (Or.inl ⟨v, rfl⟩)

/-- The priorities of the queue as a partial map on integer positions. -/
def look (xs : List V) (i : Int) : Option V := if 0 ≤ i then xs[i.toNat]? else none

theorem look_nat (xs : List V) (i : Nat) : look xs i = xs[i]? := by simp [look]

theorem look_none {xs : List V} {i : Int} (h : i < 0 ∨ (xs.length : Int) ≤ i) : look xs i = none := by
  unfold look
  split
  · exact List.getElem?_eq_none (by omega)
  · rfl

theorem look_set (xs : List V) {i : Nat} (v : V) (hi : i < xs.length) :
    look (xs.set i v) = upd (look xs) i (some v) := by
  funext j
  unfold look upd
  by_cases hj : 0 ≤ j
  · obtain ⟨j, rfl⟩ := Int.eq_ofNat_of_zero_le hj
    by_cases hji : j = i
    · subst hji; simp [hi]
    · have : ¬ ((j : Int) = (i : Int)) := by omega
      simp [this, Ne.symm hji]
  · have : ¬ (j = (i : Int)) := by omega
    simp [hj, this]

theorem look_append (xs : List V) (v : V) :
    look (xs ++ [v]) = upd (look xs) xs.length (some v) := by
  funext j
  unfold look upd
  by_cases hj : 0 ≤ j
  · obtain ⟨j, rfl⟩ := Int.eq_ofNat_of_zero_le hj
    simp only [hj, if_true, Int.toNat_natCast]
    by_cases hji : j = xs.length
    · subst hji; simp
    · have : ¬ ((j : Int) = (xs.length : Int)) := by omega
      rw [if_neg this]
      by_cases hlt : j < xs.length
      · rw [List.getElem?_append_left hlt]
      · rw [List.getElem?_eq_none (by simp; omega), List.getElem?_eq_none (by omega)]
  · have : ¬ (j = (xs.length : Int)) := by omega
    simp [hj, this]

theorem look_tail (x : V) (xs : List V) :
    (fun i => upd (look (x :: xs)) 0 none (i + 1)) = look xs := by
  funext j
  unfold look upd
  by_cases hj : 0 ≤ j
  · obtain ⟨j, rfl⟩ := Int.eq_ofNat_of_zero_le hj
    have h1 : ¬ ((j : Int) + 1 = 0) := by omega
    have h2 : (0 : Int) ≤ (j : Int) + 1 := by omega
    have h3 : ((j : Int) + 1).toNat = j + 1 := by omega
    simp [h1, h2, h3]
  · by_cases h0 : j + 1 = 0
    · simp [h0, hj]
    · have : ¬ (0 ≤ j + 1) := by omega
      simp [h0, hj, this]

/-- The state of a tree queue that stores the list `xs`. -/
def Sim (op : Agg V) (q : TQ V) (xs : List V) : Prop :=
  q.length = xs.length ∧
  match q.tree with
  | none => xs = []
  | some (root, ixl, ixr) => xs ≠ [] ∧ ∃ h k : Nat,
      ixl = -(k : Int) ∧ ixr = -(k : Int) + 2 ^ h ∧
      (2 * k < 2 ^ h) ∧ (xs.length : Int) ≤ ixr ∧ root = build op h ixl (look xs)

theorem new_sim (op : Agg V) : Sim op (TQ.new : TQ V) [] := by simp [Sim, TQ.new]

theorem le_depth (h : Nat) (l : Int) : h ≤ depth l (l + 2 ^ h) := by
  have : l + 2 ^ h - l = ((2 ^ h : Nat) : Int) := by push_cast; omega
  unfold depth
  rw [this, Int.toNat_natCast]
  exact Nat.lt_two_pow_self.le

theorem write_sim {op : Agg V} {q : TQ V} {xs : List V} (hs : Sim op q xs) {i : Nat}
    (hi : i < xs.length) (v : V) :
    ∃ q', q.write op i (some v) = .ok (q', xs[i]?) ∧ Sim op q' (xs.set i v) := by
  obtain ⟨hl, ht⟩ := hs
  unfold TQ.write
  cases hq : q.tree with
  | none => rw [hq] at ht; simp only at ht; subst ht; simp at hi
  | some t =>
    obtain ⟨root, ixl, ixr⟩ := t
    rw [hq] at ht
    obtain ⟨hne, h, k, rfl, rfl, hk, hlen, rfl⟩ := ht
    simp only
    rw [write_build op i (some v) h _ _ _ (le_depth h _) (by omega) (by omega)]
    simp only
    rw [look_nat]
    refine ⟨_, rfl, ?_, ?_⟩
    · simpa using hl
    · refine ⟨by simpa using hne, h, k, rfl, rfl, hk, by simpa using hlen, ?_⟩
      rw [look_set xs v hi]

theorem set_sim {op : Agg V} {q : TQ V} {xs : List V} (hs : Sim op q xs) (i : Int) (v : V) :
    (0 ≤ i ∧ i < xs.length → ∃ q', q.set op i v = .ok q' ∧ Sim op q' (xs.set i.toNat v)) ∧
    (¬ (0 ≤ i ∧ i < xs.length) → q.set op i v = .error .assertionError) := by
  constructor
  · rintro ⟨h0, h1⟩
    obtain ⟨i, rfl⟩ := Int.eq_ofNat_of_zero_le h0
    obtain ⟨q', hw, hs'⟩ := write_sim hs (i := i) (by omega) v
    refine ⟨q', ?_, by simpa using hs'⟩
    unfold TQ.set
    rw [if_pos (by rw [hs.1]; omega), hw]; rfl
  · intro h
    unfold TQ.set
    rw [if_neg (by rw [hs.1]; exact h)]

theorem build_ne_nil {op : Agg V} (h : Nat) : ∀ {l : Int} {m : Int → Option V} {i : Int},
    l ≤ i → i < l + 2 ^ h → m i ≠ none → build op h l m ≠ .nil := by
  induction h with
  | zero =>
    intro l m i h1 h2 h3
    have : i = l := by simp at h2; omega
    subst this
    cases hm : m i with
    | none => exact absurd hm h3
    | some v => simp [build, hm]
  | succ h ih =>
    intro l m i h1 h2 h3
    rw [pow_succ] at h2
    simp only [build]
    intro hc
    have := (reduce_nil_iff op _ _).1 hc
    by_cases hi : i < l + 2 ^ h
    · exact ih h1 hi h3 this.1
    · exact ih (by omega) (by omega) h3 this.2

theorem build_nil {op : Agg V} (h : Nat) : ∀ {l : Int} {m : Int → Option V},
    (∀ i, l ≤ i → i < l + 2 ^ h → m i = none) → build op h l m = .nil := by
  induction h with
  | zero => intro l m hm; simp [build, hm l (by omega) (by simp)]
  | succ h ih =>
    intro l m hm
    have hp : (0 : Int) < 2 ^ h := by positivity
    rw [pow_succ] at hm
    simp only [build]
    rw [ih (fun i a b => hm i a (by omega)), ih (fun i a b => hm i (by omega) (by omega))]
    rfl

theorem val_ne_none {n : Node V} (h : n ≠ .nil) : ∃ v, n.val? = some v := by
  cases n <;> simp_all [Node.val?]

theorem append_sim {op : Agg V} {q : TQ V} {xs : List V} (hs : Sim op q xs) (v : V) :
    ∃ q', q.append op v = .ok q' ∧ Sim op q' (xs ++ [v]) := by
  obtain ⟨hl, ht⟩ := hs
  unfold TQ.append
  by_cases h0 : q.length = 0
  · rw [if_pos h0]
    have : xs = [] := List.length_eq_zero_iff.1 (by omega)
    subst this
    refine ⟨_, rfl, rfl, ?_⟩
    simp only
    refine ⟨by simp, 0, 0, by simp, by simp, by simp, by simp, ?_⟩
    simp [build, look]
  · rw [if_neg h0]
    cases hq : q.tree with
    | none => rw [hq] at ht; simp only at ht; subst ht; simp at hl; omega
    | some t =>
      obtain ⟨root, ixl, ixr⟩ := t
      rw [hq] at ht
      obtain ⟨hne, h, k, rfl, rfl, hk, hlen, rfl⟩ := ht
      simp only
      have hk' : 2 * (k : Int) < 2 ^ h := by exact_mod_cast hk
      have hp : (0 : Int) < 2 ^ h := by positivity
      have hx0 : 0 < xs.length := by omega
      by_cases hg : -(k : Int) + 2 ^ h = q.length
      · simp only [hg, if_true]
        obtain ⟨rv, hrv⟩ := val_ne_none (build_ne_nil (op := op) h (l := -(k : Int)) (m := look xs)
          (i := 0) (by omega) (by omega) (by
            have := look_nat xs 0
            simp only [Nat.cast_zero] at this
            rw [this]; simp; omega))
        rw [hrv]
        simp only
        have hb : (q.length : Int) + ((q.length : Int) - -(k : Int)) = -(k : Int) + 2 ^ (h + 1) := by
          rw [pow_succ]; omega
        rw [hb]
        unfold TQ.write
        simp only
        have hd := le_depth (h + 1) (-(k : Int))
        obtain ⟨f, hf⟩ : ∃ f, depth (-(k : Int)) (-(k : Int) + 2 ^ (h + 1)) = f + 1 :=
          ⟨_, (Nat.sub_add_cancel (by omega : 1 ≤ depth (-(k : Int)) (-(k : Int) + 2 ^ (h + 1)))).symm⟩
        rw [hf]
        have hnr : build op h (-(k : Int) + 2 ^ h) (look xs) = .nil :=
          build_nil h (fun i a b => look_none (by omega))
        rw [write_branch op q.length (some v) h f (-(k : Int)) (look xs)
          (fun l m => write_build op _ _ h f l m (by omega)) (by omega) (by rw [pow_succ]; omega) _
          (Or.inl ⟨rv, by rw [hnr]⟩)]
        simp only
        have : look xs (q.length : Int) = none := look_none (by omega)
        rw [this]
        refine ⟨_, rfl, ?_, ?_⟩
        · simp [hl]
        · refine ⟨by simp, h + 1, k, rfl, rfl, ?_, ?_, ?_⟩
          · rw [pow_succ]; omega
          · rw [pow_succ]; simp; omega
          · rw [look_append, hl]
      · simp only [hg, if_false]
        unfold TQ.write
        simp only [hq]
        rw [write_build op q.length (some v) h _ _ _ (le_depth h _) (by omega) (by omega)]
        simp only
        have : look xs (q.length : Int) = none := look_none (by omega)
        rw [this]
        refine ⟨_, rfl, ?_, ?_⟩
        · simp [hl]
        · refine ⟨by simp, h, k, rfl, rfl, hk, ?_, ?_⟩
          · simp; omega
          · rw [look_append, hl]

theorem popleft_sim {op : Agg V} {q : TQ V} {x : V} {xs : List V} (hs : Sim op q (x :: xs)) :
    ∃ q', q.popleft op = .ok (some x, q') ∧ Sim op q' xs := by
  obtain ⟨hl, ht⟩ := hs
  unfold TQ.popleft
  rw [if_neg (by simp at hl; omega)]
  unfold TQ.write
  cases hq : q.tree with
  | none => rw [hq] at ht; simp at ht
  | some t =>
    obtain ⟨root, ixl, ixr⟩ := t
    rw [hq] at ht
    obtain ⟨hne, h, k, rfl, rfl, hk, hlen, rfl⟩ := ht
    have hk' : 2 * (k : Int) < 2 ^ h := by exact_mod_cast hk
    simp only
    rw [write_build op 0 none h _ _ _ (le_depth h _) (by omega) (by omega)]
    simp only
    have hx : look (x :: xs) 0 = some x := by simp [look]
    rw [hx, hl]
    have hroot : build op h (-(k : Int)) (upd (look (x :: xs)) 0 none)
        = build op h (-(k : Int) - 1) (look xs) := by
      rw [build_shift op h _ _ 1, look_tail]
    simp only [List.length_cons, Nat.add_sub_cancel]
    by_cases h0 : xs.length = 0
    · rw [if_pos h0]
      have : xs = [] := List.length_eq_zero_iff.1 h0
      subst this
      exact ⟨_, rfl, rfl, rfl⟩
    · rw [if_neg h0]
      simp only [List.length_cons, Nat.cast_add, Nat.cast_one] at hlen
      obtain ⟨h, rfl⟩ : ∃ h', h = h' + 1 := by
        cases h with
        | zero => simp at hk hlen; omega
        | succ h => exact ⟨h, rfl⟩
      have hc : (-(k : Int) - 1 + (-(k : Int) + 2 ^ (h + 1) - 1)) / 2 = -(k : Int) - 1 + 2 ^ h := by
        rw [pow_succ]; omega
      rw [hc, hroot]
      have hne' : xs ≠ [] := by intro h; simp [h] at h0
      have hp : (0 : Int) < 2 ^ h := by positivity
      rw [pow_succ] at hk' hlen
      by_cases hz : -(k : Int) - 1 + 2 ^ h = 0
      · rw [if_pos hz]
        have hnn : build op (h + 1) (-(k : Int) - 1) (look xs) ≠ .nil :=
          build_ne_nil (h + 1) (i := 0) (by omega) (by rw [pow_succ]; omega) (by
            have := look_nat xs 0
            simp only [Nat.cast_zero] at this
            rw [this]; simp; omega)
        obtain ⟨rv, hrv⟩ := reduce_branch hnn
        simp only [build] at hrv ⊢
        rw [hrv]
        refine ⟨_, rfl, rfl, hne', h, 0, ?_, ?_, ?_, ?_, ?_⟩
        · simp; omega
        · rw [pow_succ]; simp; omega
        · simp
        · rw [pow_succ]; omega
        · rfl
      · rw [if_neg hz]
        refine ⟨_, rfl, rfl, hne', h + 1, k + 1, ?_, ?_, ?_, ?_, rfl⟩
        · push_cast; omega
        · push_cast; omega
        · zify; rw [pow_succ]; omega
        · rw [pow_succ]; omega

theorem popleft_empty {op : Agg V} {q : TQ V} (hs : Sim op q []) :
    q.popleft op = .error .assertionError := by
  have h : q.length = 0 := hs.1
  unfold TQ.popleft
  rw [if_pos h]

/-- Histories of calls agree with the list specification. -/
theorem run_sim {op : Agg V} (ops : List (Op V)) : ∀ {q : TQ V} {xs : List V}, Sim op q xs →
    match Spec.run xs ops with
    | none => q.run op ops = .error .assertionError
    | some (ys, rets) => ∃ q', q.run op ops = .ok (q', rets.map some) ∧ Sim op q' ys := by
  induction ops with
  | nil => intro q xs hs; exact ⟨q, rfl, hs⟩
  | cons o ops ih =>
    intro q xs hs
    cases o with
    | append v =>
      obtain ⟨q', h1, h2⟩ := append_sim hs v
      simp only [Spec.run, TQ.run, h1]
      exact ih h2
    | set i v =>
      simp only [Spec.run, TQ.run]
      by_cases h : 0 ≤ i ∧ i < xs.length
      · obtain ⟨q', h1, h2⟩ := (set_sim hs i v).1 h
        rw [if_pos h, h1]
        exact ih h2
      · rw [if_neg h, (set_sim hs i v).2 h]
    | popleft =>
      cases xs with
      | nil => simp only [Spec.run, TQ.run, popleft_empty hs]
      | cons x xs =>
        obtain ⟨q', h1, h2⟩ := popleft_sim hs
        simp only [Spec.run, TQ.run, h1]
        have := ih h2
        cases hr : Spec.run xs ops with
        | none => rw [hr] at this; simp only at this; simp [this]
        | some p =>
          obtain ⟨ys, rets⟩ := p
          rw [hr] at this
          obtain ⟨q'', h3, h4⟩ := this
          simp only [Option.map_some, h3]
          exact ⟨q'', rfl, h4⟩

/-! ## Aggregated values -/

/-- The values stored in `[l, l + n)`, in order. -/
def vals (m : Int → Option V) (l : Int) (n : Nat) : List V :=
  (List.range n).filterMap fun j : Nat => m (l + (j : Int))

theorem vals_add (m : Int → Option V) (l : Int) (a b : Nat) :
    vals m l (a + b) = vals m l a ++ vals m (l + a) b := by
  simp only [vals, List.range_add, List.filterMap_append, List.filterMap_map]
  congr 1
  apply List.filterMap_congr
  intro j _
  simp [Function.comp, add_assoc]

/-- `op` behaves like a fold of an associative operation over non-empty lists. -/
structure LawfulAgg (op : Agg V) : Prop where
  single : ∀ a, op a [] = a
  join : ∀ a as b bs, op (op a as) [op b bs] = op a (as ++ b :: bs)

theorem reduce_val (op : Agg V) (a b : Node V) : (reduce op a b).val? =
    match a.val?, b.val? with
    | none, none => none
    | some x, none => some (op x [])
    | none, some y => some (op y [])
    | some x, some y => some (op x [y]) := by
  cases a <;> cases b <;> rfl

theorem val_build {op : Agg V} (hop : LawfulAgg op) (h : Nat) : ∀ (l : Int) (m : Int → Option V),
    (build op h l m).val? = match vals m l (2 ^ h) with
      | [] => none
      | a :: as => some (op a as) := by
  induction h with
  | zero =>
    intro l m
    cases hm : m l <;> simp [vals, build, hm, Node.val?, hop.single]
  | succ h ih =>
    intro l m
    have e : 2 ^ (h + 1) = 2 ^ h + 2 ^ h := by rw [pow_succ]; omega
    rw [e, vals_add]
    simp only [build]
    have h1 := ih l m
    have h2 := ih (l + 2 ^ h) m
    have c : (l + ((2 ^ h : Nat) : Int)) = l + 2 ^ h := by push_cast; rfl
    rw [c]
    cases hv1 : vals m l (2 ^ h) with
    | nil =>
      rw [hv1] at h1
      cases hv2 : vals m (l + 2 ^ h) (2 ^ h) with
      | nil => rw [hv2] at h2; rw [reduce_val, h1, h2]; rfl
      | cons b bs =>
        rw [hv2] at h2; rw [reduce_val, h1, h2]; simp [hop.single]
    | cons a as =>
      rw [hv1] at h1
      cases hv2 : vals m (l + 2 ^ h) (2 ^ h) with
      | nil => rw [hv2] at h2; rw [reduce_val, h1, h2]; simp [hop.single]
      | cons b bs =>
        rw [hv2] at h2; rw [reduce_val, h1, h2]; simp [hop.join]

theorem vals_none {m : Int → Option V} {l : Int} {n : Nat} (h : ∀ j < n, m (l + (j : Nat)) = none) :
    vals m l n = [] := by
  simp only [vals, List.filterMap_eq_nil_iff, List.mem_range]
  exact h

theorem vals_look (xs : List V) : vals (look xs) 0 xs.length = xs := by
  simp only [vals, zero_add, look_nat]
  induction xs using List.reverseRecOn with
  | nil => rfl
  | append_singleton xs x ih =>
    rw [List.length_append, List.length_singleton, List.range_succ, List.filterMap_append]
    congr 1
    · conv_rhs => rw [← ih]
      apply List.filterMap_congr
      intro j hj
      rw [List.mem_range] at hj
      rw [List.getElem?_append_left hj]
    · simp

theorem vals_look_window (xs : List V) {k n : Nat} (hn : k + xs.length ≤ n) :
    vals (look xs) (-(k : Int)) n = xs := by
  obtain ⟨r, rfl⟩ := Nat.exists_eq_add_of_le hn
  rw [vals_add, vals_add]
  have h1 : vals (look xs) (-(k : Int)) k = [] :=
    vals_none fun j hj => look_none (by omega)
  have h2 : vals (look xs) (-(k : Int) + ((k + xs.length : Nat) : Int)) r = [] :=
    vals_none fun j hj => look_none (by push_cast; omega)
  rw [h1, h2, neg_add_cancel, vals_look]; simp

/-- The root value of a tree queue that stores `xs`. -/
theorem root_val {op : Agg V} (hop : LawfulAgg op) {q : TQ V} {x : V} {xs : List V}
    (hs : Sim op q (x :: xs)) : ∃ root ixl ixr, q.tree = some (root, ixl, ixr) ∧
      root.val? = some (op x xs) := by
  obtain ⟨hl, ht⟩ := hs
  cases hq : q.tree with
  | none => rw [hq] at ht; simp at ht
  | some t =>
    obtain ⟨root, ixl, ixr⟩ := t
    rw [hq] at ht
    obtain ⟨hne, h, k, rfl, rfl, hk, hlen, rfl⟩ := ht
    refine ⟨_, _, _, rfl, ?_⟩
    rw [val_build hop, vals_look_window (x :: xs)]
    zify; omega

theorem sumAgg_eq [AddCommMonoid V] (a : V) (as : List V) : sumAgg a as = (a :: as).sum := by
  rw [sumAgg, List.sum_eq_foldl]

theorem sumAgg_lawful [AddCommMonoid V] : LawfulAgg (sumAgg : Agg V) :=
  ⟨fun a => by simp [sumAgg_eq], fun a as b bs => by simp [sumAgg_eq, add_assoc]⟩

theorem minAgg_eq [LinearOrder V] (a : V) (as : List V) :
    minAgg a as = as.foldl min a := by
  unfold minAgg
  congr 1
  funext m x
  rcases lt_or_ge x m with h | h
  · rw [if_pos h, min_eq_right h.le]
  · rw [if_neg (not_lt.2 h), min_eq_left h]

theorem foldl_min_assoc [LinearOrder V] (a b : V) (bs : List V) :
    min a (bs.foldl min b) = bs.foldl min (min a b) := by
  induction bs generalizing b with
  | nil => rfl
  | cons c cs ih => simp only [List.foldl_cons]; rw [ih, min_assoc]

theorem minAgg_lawful [LinearOrder V] : LawfulAgg (minAgg : Agg V) :=
  ⟨fun a => rfl, fun a as b bs => by
    simp only [minAgg_eq, List.foldl_cons, List.foldl_nil, List.foldl_append]
    rw [foldl_min_assoc]⟩

theorem foldl_min_le [LinearOrder V] (a : V) (as : List V) :
    as.foldl min a ∈ a :: as ∧ ∀ x ∈ a :: as, as.foldl min a ≤ x := by
  induction as generalizing a with
  | nil => simp
  | cons b bs ih =>
    obtain ⟨h1, h2⟩ := ih (min a b)
    rw [List.foldl_cons]
    have h3 := h2 (min a b) (by simp)
    constructor
    · rcases List.mem_cons.1 h1 with h | h
      · rw [h]
        rcases min_choice a b with g | g <;> rw [g] <;> simp
      · simp [h]
    · intro x hx
      rcases List.mem_cons.1 hx with rfl | hx
      · exact h3.trans (min_le_left _ _)
      · rcases List.mem_cons.1 hx with rfl | hx
        · exact h3.trans (min_le_right _ _)
        · exact h2 x (by simp [hx])

/-! ## Weighted search -/

section find
variable [AddCommGroup V] [LinearOrder V] [IsOrderedAddMonoid V]

omit [LinearOrder V] [IsOrderedAddMonoid V] in
theorem val_sum_build (h : Nat) (l : Int) (m : Int → Option V) :
    (build sumAgg h l m).val?.getD 0 = (vals m l (2 ^ h)).sum := by
  rw [val_build sumAgg_lawful]
  cases vals m l (2 ^ h) with
  | nil => simp
  | cons a as => simp [sumAgg_eq]

/-- `_find` returns the position whose cumulative-sum interval contains `pos`. -/
theorem find_build (h : Nat) : ∀ (fuel : Nat) (l : Int) (m : Int → Option V) (pos : V), h ≤ fuel →
    0 ≤ pos → pos < (vals m l (2 ^ h)).sum →
    ∃ j : Nat, j < 2 ^ h ∧ find fuel l (l + 2 ^ h) (build sumAgg h l m) pos = .ok (l + j) ∧
      (vals m l j).sum ≤ pos ∧ pos < (vals m l (j + 1)).sum := by
  induction h with
  | zero =>
    intro fuel l m pos _ h0 h1
    refine ⟨0, by simp, ?_, by simpa [vals] using h0, by simpa using h1⟩
    unfold find
    rw [if_pos (by simp)]; simp
  | succ h ih =>
    intro fuel l m pos hf h0 h1
    obtain ⟨fuel, rfl⟩ : ∃ f, fuel = f + 1 := ⟨fuel - 1, by omega⟩
    have e : 2 ^ (h + 1) = 2 ^ h + 2 ^ h := by rw [pow_succ]; omega
    have ei : (2 : Int) ^ (h + 1) = 2 ^ h + 2 ^ h := by rw [pow_succ]; omega
    have c : (l + ((2 ^ h : Nat) : Int)) = l + 2 ^ h := by push_cast; rfl
    have hp : (0 : Int) < 2 ^ h := by positivity
    have hnn : build sumAgg (h + 1) l m ≠ .nil := by
      intro hc
      have := val_sum_build (h + 1) l m
      rw [hc] at this
      simp only [Node.val?, Option.getD_none] at this
      rw [← this] at h1
      exact absurd (lt_of_le_of_lt h0 h1) (lt_irrefl _)
    obtain ⟨v, hv⟩ := reduce_branch hnn
    have hb : build sumAgg (h + 1) l m
        = .branch (build sumAgg h l m) (build sumAgg h (l + 2 ^ h) m) v := hv
    rw [hb]
    unfold find
    rw [if_neg (by omega)]
    simp only
    rw [val_sum_build]
    have hc : (l + (l + 2 ^ (h + 1))) / 2 = l + 2 ^ h := by omega
    rw [hc]
    rw [e, vals_add, List.sum_append, c] at h1
    by_cases hlt : pos < (vals m l (2 ^ h)).sum
    · rw [if_pos hlt]
      obtain ⟨j, g1, g2, g3, g4⟩ := ih fuel l m pos (by omega) h0 hlt
      exact ⟨j, by omega, g2, g3, g4⟩
    · rw [if_neg hlt]
      rw [not_lt] at hlt
      obtain ⟨j, g1, g2, g3, g4⟩ := ih fuel (l + 2 ^ h) m (pos - (vals m l (2 ^ h)).sum) (by omega)
        (sub_nonneg.2 hlt) (by rw [sub_lt_iff_lt_add']; exact h1)
      refine ⟨2 ^ h + j, by omega, ?_, ?_, ?_⟩
      · have : l + 2 ^ (h + 1) = l + 2 ^ h + 2 ^ h := by omega
        rw [this, g2]; push_cast; rw [add_assoc]
      · rw [vals_add, List.sum_append, c]
        exact le_sub_iff_add_le'.1 g3
      · rw [add_assoc, vals_add, List.sum_append, c]
        exact sub_lt_iff_lt_add'.1 g4

omit [AddCommGroup V] [LinearOrder V] [IsOrderedAddMonoid V] in
theorem vals_look_prefix (xs : List V) (k j : Nat) :
    vals (look xs) (-(k : Int)) j = xs.take (j - k) := by
  by_cases h : j ≤ k
  · rw [vals_none (fun i hi => look_none (by omega))]
    simp [Nat.sub_eq_zero_of_le h]
  · obtain ⟨r, rfl⟩ := Nat.exists_eq_add_of_le (by omega : k ≤ j)
    have h1 : vals (look xs) (-(k : Int)) k = [] :=
      vals_none fun j hj => look_none (by omega)
    rw [vals_add, h1, neg_add_cancel, List.nil_append, Nat.add_sub_cancel_left]
    by_cases hr : r ≤ xs.length
    · have : vals (look xs) 0 r = vals (look (xs.take r)) 0 (xs.take r).length := by
        rw [List.length_take, min_eq_left hr]
        unfold vals
        apply List.filterMap_congr
        intro j hj
        rw [List.mem_range] at hj
        rw [zero_add, look_nat, look_nat, List.getElem?_take_of_lt hj]
      rw [this, vals_look]
    · rw [List.take_of_length_le (by omega)]
      have := vals_look_window xs (k := 0) (n := r) (by omega)
      simpa using this

/-- One weighted draw in a queue storing `xs`. -/
theorem find_sim {q : TQ V} {xs : List V} (hs : Sim sumAgg q xs) {root : Node V} {ixl ixr : Int}
    (hq : q.tree = some (root, ixl, ixr)) {pos : V} (h0 : 0 ≤ pos) (h1 : pos < xs.sum) :
    ∃ i : Nat, i < xs.length ∧ find (depth ixl ixr) ixl ixr root pos = .ok (i : Int) ∧
      (xs.take i).sum ≤ pos ∧ pos < (xs.take (i + 1)).sum := by
  obtain ⟨hl, ht⟩ := hs
  rw [hq] at ht
  obtain ⟨hne, h, k, rfl, rfl, hk, hlen, rfl⟩ := ht
  have hw : k + xs.length ≤ 2 ^ h := by zify; omega
  obtain ⟨j, g1, g2, g3, g4⟩ := find_build h _ (-(k : Int)) (look xs) pos (le_depth h _) h0
    (by rw [vals_look_window xs hw]; exact h1)
  rw [vals_look_prefix] at g3 g4
  have hjk : k ≤ j := by
    by_contra hc
    have : j + 1 - k = 0 := by omega
    rw [this] at g4
    simp at g4
    exact absurd (lt_of_le_of_lt h0 g4) (lt_irrefl _)
  obtain ⟨i, rfl⟩ := Nat.exists_eq_add_of_le hjk
  rw [Nat.add_sub_cancel_left] at g3
  rw [add_assoc, Nat.add_sub_cancel_left] at g4
  refine ⟨i, ?_, ?_, g3, g4⟩
  · by_contra hc
    rw [List.take_of_length_le (by omega)] at g3
    exact absurd (lt_of_le_of_lt g3 h1) (lt_irrefl _)
  · rw [g2]; push_cast; rw [neg_add_cancel_left]

/-! ## Sampling -/

theorem owns_pos {xs : List V} {i : Nat} {u : V} (h : Spec.Owns xs i u) :
    ∃ v, xs[i]? = some v ∧ 0 < v := by
  obtain ⟨h1, h2⟩ := h
  have hlt := lt_of_le_of_lt h1 h2
  by_cases hi : i < xs.length
  · refine ⟨xs[i], List.getElem?_eq_getElem hi, ?_⟩
    rw [List.take_succ_eq_append_getElem hi, List.sum_append, List.sum_singleton] at hlt
    exact (lt_add_iff_pos_right _).1 hlt
  · rw [List.take_of_length_le (by omega), List.take_of_length_le (by omega)] at hlt
    exact absurd hlt (lt_irrefl _)

omit [AddCommGroup V] [IsOrderedAddMonoid V] [LinearOrder V] in
theorem zeroAt_nil [Zero V] (xs : List V) : Spec.zeroAt xs [] = xs := by
  apply List.ext_getElem?; intro j; simp [Spec.zeroAt]

omit [AddCommGroup V] [IsOrderedAddMonoid V] [LinearOrder V] in
theorem zeroAt_cons [Zero V] (xs : List V) (i : Nat) (is : List Nat) :
    Spec.zeroAt (xs.set i 0) is = Spec.zeroAt xs (i :: is) := by
  apply List.ext_getElem?
  intro j
  simp only [Spec.zeroAt, List.getElem?_mapIdx, List.getElem?_set]
  by_cases hji : i = j
  · subst hji
    by_cases hl : i < xs.length
    · simp [hl]
    · simp [hl]
  · have : ¬ (j = i) := fun h => hji h.symm
    simp [hji, this]

theorem drawn_sound {rng : Nat → V → V} {t : Nat} {xs ys : List V} {is : List Nat} {vs : List V}
    (h : Spec.Drawn rng t xs is vs ys) :
    is.Nodup ∧ is.length = vs.length ∧ (∀ v ∈ vs, 0 < v) ∧ is.map (fun i => xs[i]?) = vs.map some ∧
      ys = Spec.zeroAt xs is := by
  induction h with
  | nil => simp [zeroAt_nil]
  | @cons t xs i v is vs ys ho hv hd ih =>
    obtain ⟨h1, h2, h3, h4, h5⟩ := ih
    obtain ⟨v', hv', hpos⟩ := owns_pos ho
    rw [hv] at hv'
    cases hv'
    have hnot : i ∉ is := by
      intro hi
      have hmem : (xs.set i 0)[i]? ∈ is.map (fun j => (xs.set i 0)[j]?) :=
        List.mem_map.2 ⟨i, hi, rfl⟩
      rw [h4, List.getElem?_set] at hmem
      have hil : i < xs.length := by
        by_contra hc; rw [List.getElem?_eq_none (by omega)] at hv; cases hv
      simp [hil] at hmem
      exact absurd (h3 0 hmem) (lt_irrefl _)
    refine ⟨List.nodup_cons.2 ⟨hnot, h1⟩, by simp [h2], ?_, ?_, ?_⟩
    · intro w hw
      rcases List.mem_cons.1 hw with rfl | hw
      · exact hpos
      · exact h3 w hw
    · simp only [List.map_cons, hv, List.cons.injEq, true_and]
      rw [← h4]
      apply List.map_congr_left
      intro j hj
      rw [List.getElem?_set]
      have : i ≠ j := fun e => hnot (e ▸ hj)
      simp [this]
    · rw [h5, zeroAt_cons]

/-- Number of strictly positive priorities. -/
def nPos (xs : List V) : Nat := xs.countP (fun x => decide (0 < x))

theorem sum_pos_of_nPos {xs : List V} (hnn : ∀ x ∈ xs, 0 ≤ x) (h : 0 < nPos xs) : 0 < xs.sum := by
  unfold nPos at h
  induction xs with
  | nil => simp at h
  | cons x xs ih =>
    have hx := hnn x (by simp)
    have hs : 0 ≤ xs.sum := List.sum_nonneg fun y hy => hnn y (by simp [hy])
    rw [List.sum_cons]
    by_cases hp : 0 < x
    · exact add_pos_of_pos_of_nonneg hp hs
    · rw [List.countP_cons_of_neg (by simpa using hp)] at h
      exact add_pos_of_nonneg_of_pos hx (ih (fun y hy => hnn y (by simp [hy])) h)

theorem nPos_set {xs : List V} {i : Nat} {v : V} (hv : xs[i]? = some v) (hpos : 0 < v) :
    nPos xs = nPos (xs.set i 0) + 1 := by
  unfold nPos
  induction xs generalizing i with
  | nil => simp at hv
  | cons x xs ih =>
    cases i with
    | zero =>
      simp at hv; subst hv
      simp [hpos]
    | succ i =>
      simp at hv
      simp only [List.set_cons_succ, List.countP_cons]
      rw [ih hv]; omega

/-- The draw loop performs weighted draws without replacement. -/
theorem drawLoop_sim {rng : Nat → V → V} (hrng : Spec.UniformRng rng) (n : Nat) :
    ∀ {t : Nat} {q : TQ V} {xs : List V}, Sim sumAgg q xs → (∀ x ∈ xs, 0 ≤ x) → n ≤ nPos xs →
    ∃ q' is vs ys, drawLoop rng n t q = .ok (q', is, vs) ∧ Spec.Drawn rng t xs is vs ys ∧
      Sim sumAgg q' ys ∧ is.length = n := by
  induction n with
  | zero => intro t q xs hs _ _; exact ⟨q, [], [], xs, rfl, .nil, hs, rfl⟩
  | succ n ih =>
    intro t q xs hs hnn hn
    have hsum : 0 < xs.sum := sum_pos_of_nPos hnn (by omega)
    obtain ⟨hr0, hr1⟩ := hrng t _ hsum
    obtain ⟨x, xs', rfl⟩ : ∃ x xs', xs = x :: xs' := by
      cases xs with
      | nil => simp [nPos] at hn
      | cons x xs => exact ⟨x, xs, rfl⟩
    obtain ⟨root, ixl, ixr, hq, hv⟩ := root_val sumAgg_lawful hs
    rw [sumAgg_eq] at hv
    obtain ⟨i, hi, hf, ho⟩ := find_sim hs hq hr0 hr1
    obtain ⟨v, hxi, hvpos⟩ := owns_pos ho
    obtain ⟨q1, hw, hs1⟩ := write_sim hs hi 0
    have hnn1 : ∀ y ∈ (x :: xs').set i 0, 0 ≤ y := by
      intro y hy
      rcases List.mem_or_eq_of_mem_set hy with h | h
      · exact hnn y h
      · exact h ▸ le_refl _
    obtain ⟨q', is, vs, ys, g1, g2, g3, g4⟩ := ih (t := t + 1) hs1 hnn1
      (by have := nPos_set hxi hvpos; omega)
    refine ⟨q', i :: is, v :: vs, ys, ?_, .cons ho hxi g2, g3, by simp [g4]⟩
    unfold drawLoop
    rw [hq]
    simp only [hv, hf, hw, hxi, g1]
    rfl

/-- Writing priorities back. -/
theorem restore_sim (l : List (Nat × V)) : ∀ {q : TQ V} {xs : List V}, Sim sumAgg q xs →
    (∀ p ∈ l, p.1 < xs.length) →
    ∃ q', restore q l = .ok q' ∧
      Sim sumAgg q' (l.foldl (fun ys p => ys.set p.1 p.2) xs) := by
  induction l with
  | nil => intro q xs hs _; exact ⟨q, rfl, hs⟩
  | cons p l ih =>
    intro q xs hs hl
    obtain ⟨q1, hw, hs1⟩ := write_sim hs (hl p (by simp)) p.2
    obtain ⟨q', h1, h2⟩ := ih hs1 (by intro p' hp'; simpa using hl p' (by simp [hp']))
    refine ⟨q', ?_, h2⟩
    unfold restore
    rw [hw]
    exact h1

omit [AddCommGroup V] [IsOrderedAddMonoid V] [LinearOrder V] in
theorem foldl_set_getElem? {l : List (Nat × V)} : ∀ {xs : List V} {j : Nat},
    j ∉ l.map Prod.fst → (l.foldl (fun ys p => ys.set p.1 p.2) xs)[j]? = xs[j]? := by
  induction l with
  | nil => intros; rfl
  | cons p l ih =>
    intro xs j hj
    simp only [List.map_cons, List.mem_cons, not_or] at hj
    rw [List.foldl_cons, ih hj.2, List.getElem?_set]
    simp [Ne.symm hj.1]

omit [AddCommGroup V] [IsOrderedAddMonoid V] [LinearOrder V] in
theorem foldl_set_zeroAt [Zero V] {xs : List V} : ∀ {is : List Nat} {vs : List V} {zs : List V},
    is.Nodup → is.map (fun i => xs[i]?) = vs.map some → zs.length = xs.length →
    (∀ j, j ∉ is → zs[j]? = xs[j]?) →
    (is.zip vs).foldl (fun ys p => ys.set p.1 p.2) zs = xs := by
  intro is
  induction is with
  | nil =>
    intro vs zs _ _ hlen hz
    simp only [List.zip_nil_left, List.foldl_nil]
    exact List.ext_getElem? fun j => hz j (by simp)
  | cons i is ih =>
    intro vs zs hnd hm hlen hz
    cases vs with
    | nil => simp at hm
    | cons v vs =>
      simp only [List.map_cons, List.cons.injEq] at hm
      rw [List.zip_cons_cons, List.foldl_cons]
      rw [List.nodup_cons] at hnd
      apply ih hnd.2 hm.2 (by simpa using hlen)
      intro j hj
      simp only
      rw [List.getElem?_set]
      by_cases hij : i = j
      · subst hij
        have : i < xs.length := by
          by_contra hc; rw [List.getElem?_eq_none (by omega)] at hm; simp at hm
        simp [hlen, this]
        exact (by simpa [this] using hm.1.symm)
      · simp only [hij, if_false]
        exact hz j (by simp [hj]; exact fun h => hij h.symm)

omit [AddCommGroup V] [IsOrderedAddMonoid V] [LinearOrder V] in
theorem zeroAt_getElem? [Zero V] (xs : List V) (is : List Nat) (j : Nat) (h : j ∉ is) :
    (Spec.zeroAt xs is)[j]? = xs[j]? := by
  simp [Spec.zeroAt, h]

omit [AddCommGroup V] [IsOrderedAddMonoid V] [LinearOrder V] in
theorem lt_of_map_some {xs : List V} {is : List Nat} {vs : List V}
    (h : is.map (fun i => xs[i]?) = vs.map some) : ∀ i ∈ is, i < xs.length := by
  intro i hi
  have : xs[i]? ∈ vs.map some := h ▸ List.mem_map.2 ⟨i, hi, rfl⟩
  obtain ⟨v, _, hv⟩ := List.mem_map.1 this
  by_contra hc
  rw [List.getElem?_eq_none (by omega)] at hv
  cases hv

/-- The loop of `uniform_sample` zeroes the chosen positions. -/
theorem zeroAll_sim (is : List Nat) : ∀ {q : TQ V} {xs : List V}, Sim sumAgg q xs → is.Nodup →
    (∀ i ∈ is, i < xs.length) →
    ∃ q' vs, zeroAll q is = .ok (q', vs) ∧ is.map (fun i => xs[i]?) = vs.map some ∧
      Sim sumAgg q' (Spec.zeroAt xs is) := by
  induction is with
  | nil => intro q xs hs _ _; exact ⟨q, [], rfl, rfl, by rw [zeroAt_nil]; exact hs⟩
  | cons i is ih =>
    intro q xs hs hnd hlt
    have hi := hlt i (by simp)
    rw [List.nodup_cons] at hnd
    obtain ⟨q1, hw, hs1⟩ := write_sim hs hi 0
    obtain ⟨q', vs, h1, h2, h3⟩ := ih hs1 hnd.2 (by intro j hj; simpa using hlt j (by simp [hj]))
    refine ⟨q', xs[i] :: vs, ?_, ?_, ?_⟩
    · unfold zeroAll
      rw [hw, List.getElem?_eq_getElem hi]
      simp only [h1]
    · simp only [List.map_cons, List.getElem?_eq_getElem hi, List.cons.injEq, true_and]
      rw [← h2]
      apply List.map_congr_left
      intro j hj
      rw [List.getElem?_set]
      have : i ≠ j := fun e => hnd.1 (e ▸ hj)
      simp [this]
    · rw [← zeroAt_cons]; exact h3

end find

end Pfrl.Tree
