import Verif.Queue.Spec

/-! Helper lemmas for the random access queue (not part of the claims). -/

namespace Pfrl.Queue

variable {α : Type _}

theorem RAQ.iter_length (q : RAQ α) : q.iter.length = q.len := by
  simp [RAQ.iter, RAQ.len]

theorem RAQ.popleft_len {q q' : RAQ α} {x : α} (h : q.popleft = .ok (x, q')) :
    q'.len + 1 = q.len := by
  unfold RAQ.popleft at h
  split at h
  · cases h
  · rename_i hne
    rcases q with ⟨m, f, b⟩
    cases f with
    | nil =>
      cases b with
      | nil => simp at hne
      | cons y ys =>
        simp only [List.isEmpty_nil, if_true] at h
        split at h
        · cases h
        · cases h; simp [RAQ.len]
    | cons y ys =>
      simp only [List.isEmpty_cons] at h
      split at h
      · cases h
      · cases h; simp [RAQ.len]; omega

theorem RAQ.popleft_nil {q : RAQ α} (h : q.iter = []) : q.popleft = .error .indexError := by
  rcases q with ⟨m, f, b⟩
  simp [RAQ.iter] at h
  simp [RAQ.popleft, h]

theorem RAQ.popleft_cons {q : RAQ α} {x : α} {rest : List α} (h : q.iter = x :: rest) :
    ∃ q', q.popleft = .ok (x, q') ∧ q'.iter = rest ∧ q'.maxlen = q.maxlen := by
  rcases q with ⟨m, f, b⟩
  simp only [RAQ.iter] at h
  rcases List.eq_nil_or_concat f with rfl | ⟨f', y, rfl⟩
  · simp only [List.reverse_nil, List.nil_append] at h
    subst h
    refine ⟨⟨m, rest.reverse, []⟩, ?_, ?_, rfl⟩
    · simp [RAQ.popleft]
    · simp [RAQ.iter]
  · simp only [List.concat_eq_append, List.reverse_append, List.reverse_cons, List.reverse_nil,
      List.nil_append, List.cons_append, List.cons.injEq] at h
    obtain ⟨rfl, h⟩ := h
    refine ⟨⟨m, f', b⟩, ?_, ?_, rfl⟩
    · simp [RAQ.popleft]
    · simp [RAQ.iter, h]

theorem RAQ.trim_spec (m : Nat) (fuel : Nat) (q : RAQ α) (hf : q.len ≤ fuel) :
    ∃ q', q.trim m fuel = .ok q' ∧ q'.iter = Spec.newest m q.iter ∧ q'.maxlen = q.maxlen := by
  induction fuel generalizing q with
  | zero =>
    refine ⟨q, ?_, ?_, rfl⟩
    · unfold RAQ.trim; rw [if_neg (by omega)]
    · have : q.iter = [] := by
        rw [← List.length_eq_zero_iff, RAQ.iter_length]; omega
      simp [this, Spec.newest]
  | succ n ih =>
    by_cases hgt : (q.len : Int) > m
    · have hlen : q.iter.length = q.len := RAQ.iter_length q
      obtain ⟨x, rest, hxr⟩ : ∃ x rest, q.iter = x :: rest := by
        match hq : q.iter with
        | [] => rw [hq] at hlen; simp at hlen; omega
        | x :: rest => exact ⟨x, rest, rfl⟩
      obtain ⟨q1, hp, hi, hm⟩ := RAQ.popleft_cons hxr
      have hl1 := RAQ.popleft_len hp
      obtain ⟨q2, ht, hi2, hm2⟩ := ih q1 (by omega)
      refine ⟨q2, ?_, ?_, hm2.trans hm⟩
      · unfold RAQ.trim
        rw [if_pos hgt, hp]
        exact ht
      · rw [hi2, hi, hxr]
        have hr : rest.length + 1 = q.len := by rw [hxr] at hlen; simpa using hlen
        simp only [Spec.newest, List.length_cons]
        have : rest.length + 1 - m = (rest.length - m) + 1 := by omega
        rw [this, List.drop_succ_cons]
    · refine ⟨q, ?_, ?_, rfl⟩
      · unfold RAQ.trim; rw [if_neg hgt]
      · have hlen : q.iter.length = q.len := RAQ.iter_length q
        have : q.iter.length - m = 0 := by omega
        simp [Spec.newest, this]

/-- The bound used by the specification, for a bound accepted by the constructor. -/
theorem RAQ.applyMaxlen_spec (q : RAQ α) (b : Option Nat)
    (hb : q.maxlen = b.map Int.ofNat) :
    ∃ q', q.applyMaxlen = .ok q' ∧ q'.iter = Spec.keep b q.iter ∧ q'.maxlen = q.maxlen := by
  cases b with
  | none =>
    simp at hb
    exact ⟨q, by simp [RAQ.applyMaxlen, hb], rfl, rfl⟩
  | some m =>
    simp at hb
    obtain ⟨q', h1, h2, h3⟩ := RAQ.trim_spec m q.len q (Nat.le_refl _)
    exact ⟨q', by simp [RAQ.applyMaxlen, hb, h1], h2, h3⟩

theorem keep_length_le (b : Option Nat) (l : List α) : ∀ m, b = some m → (Spec.keep b l).length ≤ m := by
  intro m hm; subst hm
  simp [Spec.keep, Spec.newest]; omega

theorem pyGet_rev (f : List α) (i : Int) : pyGet f (pyInvert i) = pyGet f.reverse i := by
  unfold pyGet pyIndex pyInvert
  simp only [List.length_reverse]
  by_cases h : 0 ≤ i
  · by_cases h2 : i < f.length
    · have e1 : ¬ (0 ≤ -i - 1) := by omega
      have e2 : -(f.length : Int) ≤ -i - 1 := by omega
      simp only [e1, e2, h, h2, if_true, if_false]
      rw [List.getElem?_reverse (by omega)]
      congr 2; omega
    · have e1 : ¬ (0 ≤ -i - 1) := by omega
      have e2 : ¬ -(f.length : Int) ≤ -i - 1 := by omega
      simp only [e1, e2, h, h2, if_true, if_false]
  · by_cases h2 : -(f.length : Int) ≤ i
    · have e1 : (0 ≤ -i - 1) := by omega
      have e2 : -i - 1 < (f.length : Int) := by omega
      simp only [e1, e2, h, h2, if_true, if_false]
      rw [List.getElem?_reverse (by omega)]
      congr 2; omega
    · have e1 : (0 ≤ -i - 1) := by omega
      have e2 : ¬ -i - 1 < (f.length : Int) := by omega
      simp only [e1, e2, h, h2, if_true, if_false]

theorem set_reverse (f : List α) (j : Nat) (x : α) (h : j < f.length) :
    (f.set (f.length - 1 - j) x).reverse = f.reverse.set j x := by
  apply List.ext_getElem
  · simp
  · intro k h1 h2
    simp only [List.getElem_reverse, List.getElem_set, List.length_set]
    simp at h1
    split <;> split <;> first | rfl | omega

theorem pySet_rev (f : List α) (i : Int) (x : α) :
    (pySet f (pyInvert i) x).map List.reverse = pySet f.reverse i x := by
  unfold pySet pyIndex pyInvert
  simp only [List.length_reverse]
  by_cases h : 0 ≤ i
  · by_cases h2 : i < f.length
    · have e1 : ¬ (0 ≤ -i - 1) := by omega
      have e2 : -(f.length : Int) ≤ -i - 1 := by omega
      simp only [e1, e2, h, h2, if_true, if_false, Except.map]
      rw [← set_reverse _ _ _ (by omega)]
      congr 3; omega
    · have e1 : ¬ (0 ≤ -i - 1) := by omega
      have e2 : ¬ -(f.length : Int) ≤ -i - 1 := by omega
      simp only [e1, e2, h, h2, if_true, if_false, Except.map]
  · by_cases h2 : -(f.length : Int) ≤ i
    · have e1 : (0 ≤ -i - 1) := by omega
      have e2 : -i - 1 < (f.length : Int) := by omega
      simp only [e1, e2, h, h2, if_true, if_false, Except.map]
      rw [← set_reverse _ _ _ (by omega)]
      congr 3; omega
    · have e1 : (0 ≤ -i - 1) := by omega
      have e2 : ¬ -i - 1 < (f.length : Int) := by omega
      simp only [e1, e2, h, h2, if_true, if_false, Except.map]

theorem pyGet_append_left (a b : List α) (i : Int) (h0 : 0 ≤ i) (h : i < a.length) :
    pyGet (a ++ b) i = pyGet a i := by
  unfold pyGet pyIndex
  have e : i < ((a ++ b).length : Int) := by simp; omega
  simp only [h0, h, e, if_true]
  rw [List.getElem?_append_left (by omega)]

theorem pyGet_append_right (a b : List α) (i : Int) (h0 : 0 ≤ i) (h : ¬ i < a.length) :
    pyGet (a ++ b) i = pyGet b (i - a.length) := by
  unfold pyGet pyIndex
  have e0 : 0 ≤ i - a.length := by omega
  by_cases e1 : i - a.length < b.length
  · have e : i < ((a ++ b).length : Int) := by simp; omega
    simp only [h0, e0, e1, e, if_true]
    rw [List.getElem?_append_right (by omega)]
    congr 2; omega
  · have e : ¬ i < ((a ++ b).length : Int) := by simp; omega
    simp only [h0, e0, e1, e, if_true, if_false]

theorem pyGet_neg_append_right (a b : List α) (i : Int) (h0 : ¬ 0 ≤ i) (h : -(b.length : Int) ≤ i) :
    pyGet (a ++ b) i = pyGet b i := by
  unfold pyGet pyIndex
  have e : -((a ++ b).length : Int) ≤ i := by simp; omega
  simp only [h0, e, h, if_true, if_false]
  rw [List.getElem?_append_right (by simp; omega)]
  congr 2; simp; omega

theorem pyGet_neg_append_left (a b : List α) (i : Int) (h0 : ¬ 0 ≤ i) (h : ¬ -(b.length : Int) ≤ i) :
    pyGet (a ++ b) i = pyGet a (i + b.length) := by
  unfold pyGet pyIndex
  have e0 : ¬ 0 ≤ i + b.length := by omega
  by_cases e1 : -(a.length : Int) ≤ i + b.length
  · have e : -((a ++ b).length : Int) ≤ i := by simp; omega
    simp only [h0, e0, e1, e, if_true, if_false]
    rw [List.getElem?_append_left (by simp; omega)]
    congr 2; simp; omega
  · have e : ¬ -((a ++ b).length : Int) ≤ i := by simp; omega
    simp only [h0, e0, e1, e, if_false]

theorem pySet_append_left (a b : List α) (i : Int) (x : α) (h0 : 0 ≤ i) (h : i < a.length) :
    pySet (a ++ b) i x = (pySet a i x).map (· ++ b) := by
  unfold pySet pyIndex
  have e : i < ((a ++ b).length : Int) := by simp; omega
  simp only [h0, h, e, if_true, Except.map]
  rw [List.set_append_left _ _ (by omega)]

theorem pySet_append_right (a b : List α) (i : Int) (x : α) (h0 : 0 ≤ i) (h : ¬ i < a.length) :
    pySet (a ++ b) i x = (pySet b (i - a.length) x).map (a ++ ·) := by
  unfold pySet pyIndex
  have e0 : 0 ≤ i - a.length := by omega
  by_cases e1 : i - a.length < b.length
  · have e : i < ((a ++ b).length : Int) := by simp; omega
    simp only [h0, e0, e1, e, if_true, Except.map]
    rw [List.set_append_right _ _ (by omega)]
    congr 3; omega
  · have e : ¬ i < ((a ++ b).length : Int) := by simp; omega
    simp only [h0, e0, e1, e, if_true, if_false, Except.map]

theorem pySet_neg_append_right (a b : List α) (i : Int) (x : α) (h0 : ¬ 0 ≤ i)
    (h : -(b.length : Int) ≤ i) :
    pySet (a ++ b) i x = (pySet b i x).map (a ++ ·) := by
  unfold pySet pyIndex
  have e : -((a ++ b).length : Int) ≤ i := by simp; omega
  simp only [h0, e, h, if_true, if_false, Except.map]
  rw [List.set_append_right _ _ (by simp; omega)]
  congr 3; simp; omega

theorem pySet_neg_append_left (a b : List α) (i : Int) (x : α) (h0 : ¬ 0 ≤ i)
    (h : ¬ -(b.length : Int) ≤ i) :
    pySet (a ++ b) i x = (pySet a (i + b.length) x).map (· ++ b) := by
  unfold pySet pyIndex
  have e0 : ¬ 0 ≤ i + b.length := by omega
  by_cases e1 : -(a.length : Int) ≤ i + b.length
  · have e : -((a ++ b).length : Int) ≤ i := by simp; omega
    simp only [h0, e0, e1, e, if_true, if_false, Except.map]
    rw [List.set_append_left _ _ (by simp; omega)]
    congr 3; simp; omega
  · have e : ¬ -((a ++ b).length : Int) ≤ i := by simp; omega
    simp only [h0, e0, e1, e, if_false, Except.map]

theorem pyGet_oob (a : List α) (i : Int) (h0 : 0 ≤ i) (h : ¬ i < a.length) :
    pyGet a i = .error .indexError := by
  simp [pyGet, pyIndex, h0, h]

theorem pyGet_oob_neg (a : List α) (i : Int) (h0 : ¬ 0 ≤ i) (h : ¬ -(a.length : Int) ≤ i) :
    pyGet a i = .error .indexError := by
  simp [pyGet, pyIndex, h0, h]

theorem pySet_oob (a : List α) (i : Int) (x : α) (h0 : 0 ≤ i) (h : ¬ i < a.length) :
    pySet a i x = .error .indexError := by
  simp [pySet, pyIndex, h0, h]

theorem pySet_oob_neg (a : List α) (i : Int) (x : α) (h0 : ¬ 0 ≤ i) (h : ¬ -(a.length : Int) ≤ i) :
    pySet a i x = .error .indexError := by
  simp [pySet, pyIndex, h0, h]

theorem RAQ.get_spec (q : RAQ α) (i : Int) : q.get i = pyGet q.iter i := by
  rcases q with ⟨m, f, b⟩
  simp only [RAQ.get, RAQ.iter]
  by_cases h0 : 0 ≤ i
  · simp only [ge_iff_le, h0, if_true]
    by_cases h1 : i < f.length
    · simp only [h1, if_true]
      rw [pyGet_rev, pyGet_append_left _ _ _ h0 (by simpa using h1)]
    · simp only [h1, if_false]
      rw [pyGet_append_right _ _ _ h0 (by simpa using h1)]
      simp only [List.length_reverse]
      split
      · rfl
      · rename_i h2; rw [pyGet_oob _ _ (by omega) h2]
  · simp only [ge_iff_le, h0, if_false]
    by_cases h1 : -(b.length : Int) ≤ i
    · simp only [h1, if_true]
      rw [pyGet_neg_append_right _ _ _ h0 h1]
    · simp only [h1, if_false]
      rw [pyGet_neg_append_left _ _ _ h0 h1, ← pyGet_rev]
      split
      · rfl
      · rename_i h2
        rw [pyGet_rev, pyGet_oob_neg _ _ (by omega) (by simpa using h2)]

theorem RAQ.set_spec (q : RAQ α) (i : Int) (x : α) :
    (q.set i x).map RAQ.iter = pySet q.iter i x ∧
    ∀ q', q.set i x = .ok q' → q'.maxlen = q.maxlen := by
  rcases q with ⟨m, f, b⟩
  simp only [RAQ.set, RAQ.iter]
  by_cases h0 : 0 ≤ i
  · simp only [ge_iff_le, h0, if_true]
    by_cases h1 : i < f.length
    · simp only [h1, if_true]
      rw [pySet_append_left _ _ _ _ h0 (by simpa using h1), ← pySet_rev]
      cases pySet f (pyInvert i) x <;> simp [Except.map, RAQ.iter]
    · simp only [h1, if_false]
      rw [pySet_append_right _ _ _ _ h0 (by simpa using h1)]
      simp only [List.length_reverse]
      split
      · cases pySet b (i - f.length) x <;> simp [Except.map, RAQ.iter]
      · rename_i h2; rw [pySet_oob _ _ _ (by omega) h2]
        simp [Except.map]
  · simp only [ge_iff_le, h0, if_false]
    by_cases h1 : -(b.length : Int) ≤ i
    · simp only [h1, if_true]
      rw [pySet_neg_append_right _ _ _ _ h0 h1]
      cases pySet b i x <;> simp [Except.map, RAQ.iter]
    · simp only [h1, if_false]
      rw [pySet_neg_append_left _ _ _ _ h0 h1, ← pySet_rev]
      split
      · cases pySet f (pyInvert (i + b.length)) x <;> simp [Except.map, RAQ.iter]
      · rename_i h2
        have := pySet_oob_neg f.reverse (i + b.length) x (by omega) (by simpa using h2)
        rw [← pySet_rev] at this
        rw [this]; simp [Except.map]

/-- Abstraction relation between a queue object and the bounded list. -/
def Sim (b : Option Nat) (q : RAQ α) (l : List α) : Prop :=
  q.iter = l ∧ q.maxlen = b.map Int.ofNat ∧ ∀ m, b = some m → l.length ≤ m

theorem pySet_length {l l' : List α} {i : Int} {x : α} (h : pySet l i x = .ok l') :
    l'.length = l.length := by
  unfold pySet at h
  split at h
  · cases h
  · cases h; simp

theorem RAQ.append_spec {b : Option Nat} {q : RAQ α} {l : List α} (h : Sim b q l) (x : α) :
    ∃ q', q.append x = .ok q' ∧ Sim b q' (Spec.keep b (l ++ [x])) := by
  obtain ⟨hi, hm, hl⟩ := h
  rcases q with ⟨m, f, bk⟩
  simp only at hm
  cases b with
  | none =>
    simp at hm; subst hm
    refine ⟨⟨none, f, bk ++ [x]⟩, by simp [RAQ.append], ?_, rfl, by simp⟩
    rw [← hi]; simp [RAQ.iter, Spec.keep]
  | some n =>
    simp at hm; subst hm
    have hl := hl n rfl
    have hq : (⟨some (n : Int), f, bk ++ [x]⟩ : RAQ α).iter = l ++ [x] := by
      rw [← hi]; simp [RAQ.iter]
    have hlen := RAQ.iter_length (⟨some (n : Int), f, bk ++ [x]⟩ : RAQ α)
    rw [hq] at hlen
    simp only [List.length_append, List.length_cons, List.length_nil] at hlen
    by_cases hgt : ((⟨some (n : Int), f, bk ++ [x]⟩ : RAQ α).len : Int) > n
    · obtain ⟨y, rest, hyr⟩ : ∃ y rest, l ++ [x] = y :: rest := by
        cases l with
        | nil => exact ⟨x, [], rfl⟩
        | cons a t => exact ⟨a, t ++ [x], rfl⟩
      obtain ⟨q', hp, hi', hm'⟩ := RAQ.popleft_cons (hq.trans hyr)
      refine ⟨q', ?_, ?_, by simpa using hm', fun k hk => keep_length_le _ _ k hk⟩
      · simp only [RAQ.append, hgt, if_true, hp, Except.map]
      · rw [hi']
        have : (y :: rest).length = l.length + 1 := by rw [← hyr]; simp
        simp only [Spec.keep, Spec.newest, hyr, this]
        have : l.length + 1 - n = 1 := by omega
        rw [this]; rfl
    · refine ⟨⟨some (n : Int), f, bk ++ [x]⟩, by simp only [RAQ.append, hgt, if_false], ?_, rfl, fun k hk => keep_length_le _ _ k hk⟩
      rw [hq]
      have : (l ++ [x]).length - n = 0 := by simp; omega
      simp only [Spec.keep, Spec.newest, this, List.drop_zero]

theorem RAQ.extend_spec {b : Option Nat} {q : RAQ α} {l : List α} (h : Sim b q l) (xs : List α) :
    ∃ q', q.extend xs = .ok q' ∧ Sim b q' (Spec.keep b (l ++ xs)) := by
  obtain ⟨hi, hm, _⟩ := h
  obtain ⟨q', h1, h2, h3⟩ := RAQ.applyMaxlen_spec { q with back := q.back ++ xs } b hm
  refine ⟨q', h1, ?_, by simpa using h3.trans hm, fun k hk => keep_length_le _ _ k hk⟩
  rw [h2, ← hi]; simp [RAQ.iter]

theorem RAQ.step_sim {b : Option Nat} {q : RAQ α} {l : List α} (h : Sim b q l) (op : Op α) :
    (q.step op).1 = (Spec.step b l op).1 ∧ Sim b (q.step op).2 (Spec.step b l op).2 := by
  cases op with
  | append x =>
    obtain ⟨q', h1, h2⟩ := RAQ.append_spec h x
    simp [RAQ.step, Spec.step, h1, h2]
  | extend xs =>
    obtain ⟨q', h1, h2⟩ := RAQ.extend_spec h xs
    simp [RAQ.step, Spec.step, h1, h2]
  | popleft =>
    obtain ⟨hi, hm, hl⟩ := h
    cases l with
    | nil => simp only [RAQ.step, Spec.step, RAQ.popleft_nil hi]; exact ⟨trivial, hi, hm, hl⟩
    | cons x rest =>
      obtain ⟨q', hp, hi', hm'⟩ := RAQ.popleft_cons hi
      simp only [RAQ.step, Spec.step, hp]
      exact ⟨trivial, hi', hm'.trans hm, fun k hk => by have := hl k hk; simp at this; omega⟩
  | get i =>
    simp only [RAQ.step, Spec.step, RAQ.get_spec, h.1]
    cases pyGet l i <;> exact ⟨rfl, h⟩
  | set i x =>
    have hs := RAQ.set_spec q i x
    obtain ⟨hi, hm, hl⟩ := h
    rw [hi] at hs
    simp only [RAQ.step, Spec.step]
    rw [← hs.1]
    cases hq : q.set i x with
    | error e => simp only [Except.map]; exact ⟨trivial, hi, hm, hl⟩
    | ok q' =>
      simp only [Except.map]
      refine ⟨trivial, rfl, (hs.2 q' hq).trans hm, fun k hk => ?_⟩
      have h1 := hs.1
      rw [hq] at h1
      simp only [Except.map] at h1
      rw [pySet_length h1.symm]; exact hl k hk
  | len =>
    simp only [RAQ.step, Spec.step]
    rw [← RAQ.iter_length, h.1]; exact ⟨rfl, h⟩
  | iter =>
    simp only [RAQ.step, Spec.step]
    rw [h.1]; exact ⟨rfl, h⟩

theorem RAQ.run_sim {b : Option Nat} (ops : List (Op α)) :
    ∀ {q : RAQ α} {l : List α}, Sim b q l →
    (q.run ops).1 = (Spec.run b l ops).1 ∧ Sim b (q.run ops).2 (Spec.run b l ops).2 := by
  induction ops with
  | nil => intro q l h; exact ⟨rfl, h⟩
  | cons op ops ih =>
    intro q l h
    obtain ⟨h1, h2⟩ := RAQ.step_sim h op
    obtain ⟨h3, h4⟩ := ih h2
    simp only [RAQ.run, Spec.run]
    exact ⟨by rw [h1, h3], h4⟩

theorem RAQ.new_sim (b : Option Nat) (init : List α) :
    ∃ q, RAQ.new (b.map Int.ofNat) init = .ok q ∧ Sim b q (Spec.keep b init) := by
  obtain ⟨q', h1, h2, h3⟩ :=
    RAQ.applyMaxlen_spec (⟨b.map Int.ofNat, [], init⟩ : RAQ α) b rfl
  refine ⟨q', ?_, by simpa [RAQ.iter] using h2, h3, fun k hk => keep_length_le _ _ k hk⟩
  cases b with
  | none => simpa [RAQ.new] using h1
  | some m =>
    have : ¬ ((m : Int) < 0) := by omega
    simpa [RAQ.new, this] using h1

end Pfrl.Queue
