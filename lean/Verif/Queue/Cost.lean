import Verif.Queue.Props

/-!
# Running time of `RandomAccessQueue` (C139)

The docstring of the class promises amortized constant time.  Here every method also counts elementary list operations: appending, popping,
reading or overwriting one element, checking a length is one; `list.reverse`, `list.extend` and copying are one per element.
-/

namespace Pfrl.Queue

variable {α : Type _}

/-! ## Model -/

/-- `popleft`, `pfrl/collections/random_access_queue.py:89-98`, with the number of elementary operations: `reverse` takes one per element. -/
def RAQ.popleftT (q : RAQ α) : Except PyErr (α × RAQ α) × Nat :=
  if q.front = [] ∧ q.back = [] then (.error .indexError, 1)
  else
    let fb := if q.front.isEmpty then ((q.back.reverse, []), q.back.length) else ((q.front, q.back), 0)
    match fb.1.1.getLast? with
    | none => (.error .indexError, fb.2 + 1)
    | some x => (.ok (x, { q with front := fb.1.1.dropLast, back := fb.1.2 }), fb.2 + 1)

/-- The loop of `_apply_maxlen`, `random_access_queue.py:22-23`, with the number of elementary operations. -/
def RAQ.trimT (m : Int) : Nat → RAQ α → Except PyErr (RAQ α) × Nat
  | 0, q => if (q.len : Int) > m then (.error .timeout, 1) else (.ok q, 1)
  | fuel + 1, q =>
    if (q.len : Int) > m then
      match q.popleftT with
      | (.error e, c) => (.error e, c + 1)
      | (.ok (_, q'), c) =>
        let r := RAQ.trimT m fuel q'
        (r.1, r.2 + c + 1)
    else (.ok q, 1)

/-- `_apply_maxlen`, `random_access_queue.py:20-23`, with the number of elementary operations. -/
def RAQ.applyMaxlenT (q : RAQ α) : Except PyErr (RAQ α) × Nat :=
  match q.maxlen with
  | none => (.ok q, 1)
  | some m => q.trimT m q.len

/-- `__init__`, `random_access_queue.py:13-18`, with the number of elementary operations: the iterable is copied. -/
def RAQ.newT (maxlen : Option Int) (init : List α) : Except PyErr (RAQ α) × Nat :=
  match maxlen with
  | some m => if m < 0 then (.error .assertionError, 1)
              else
                let r := RAQ.applyMaxlenT { maxlen := some m, front := [], back := init }
                (r.1, r.2 + init.length)
  | none =>
    let r := RAQ.applyMaxlenT { maxlen := none, front := [], back := init }
    (r.1, r.2 + init.length)

/-- `append`, `random_access_queue.py:80-83`, with the number of elementary operations. -/
def RAQ.appendT (q : RAQ α) (x : α) : Except PyErr (RAQ α) × Nat :=
  let q := { q with back := q.back ++ [x] }
  match q.maxlen with
  | none => (.ok q, 1)
  | some m =>
    if (q.len : Int) > m then
      let r := q.popleftT
      (r.1.map (·.2), r.2 + 1)
    else (.ok q, 1)

/-- `extend`, `random_access_queue.py:85-87`, with the number of elementary operations. -/
def RAQ.extendT (q : RAQ α) (xs : List α) : Except PyErr (RAQ α) × Nat :=
  let r := RAQ.applyMaxlenT { q with back := q.back ++ xs }
  (r.1, r.2 + xs.length)

/-- One call with the number of elementary operations; `__getitem__` (`random_access_queue.py:34-55`), `__setitem__` (`57-78`) and `__len__`
(`31-32`) access one element, `__iter__` (`25-26`) all of them. -/
def RAQ.stepT (q : RAQ α) : Op α → (Res α × RAQ α) × Nat
  | .append x => (match (q.appendT x).1 with | .ok q' => (.unit, q') | .error e => (.raised e, q), (q.appendT x).2)
  | .extend xs => (match (q.extendT xs).1 with | .ok q' => (.unit, q') | .error e => (.raised e, q), (q.extendT xs).2)
  | .popleft => (match q.popleftT.1 with | .ok (x, q') => (.item x, q') | .error e => (.raised e, q), q.popleftT.2)
  | .get i => (q.step (.get i), 1)
  | .set i x => (q.step (.set i x), 1)
  | .len => (q.step .len, 1)
  | .iter => (q.step .iter, q.len)

/-- A history of calls and the number of elementary operations it takes. -/
def RAQ.runT (q : RAQ α) : List (Op α) → (List (Res α) × RAQ α) × Nat
  | [] => (([], q), 0)
  | op :: ops =>
    let r := q.stepT op
    let rest := RAQ.runT r.1.2 ops
    ((r.1.1 :: rest.1.1, rest.1.2), r.2 + rest.2)

/-! ## Specification -/

/-- The number of items a history adds. -/
def Spec.added : List (Op α) → Nat
  | [] => 0
  | .append _ :: ops => 1 + Spec.added ops
  | .extend xs :: ops => xs.length + Spec.added ops
  | _ :: ops => Spec.added ops

/-- The call does not iterate over the queue. -/
def Spec.noIter : Op α → Bool
  | .iter => false
  | _ => true

/-! ## Lemmas -/

theorem RAQ.popleftT_fst (q : RAQ α) : q.popleftT.1 = q.popleft := by
  unfold RAQ.popleftT RAQ.popleft
  split
  · rfl
  · cases hf : q.front.isEmpty
    · simp only [Bool.false_eq_true, if_false]
      cases q.front.getLast? <;> rfl
    · simp only [if_true]
      cases q.back.reverse.getLast? <;> rfl

theorem RAQ.trimT_fst (m : Int) (fuel : Nat) : ∀ q : RAQ α, (q.trimT m fuel).1 = q.trim m fuel := by
  induction fuel with
  | zero => intro q; unfold RAQ.trimT RAQ.trim; split <;> rfl
  | succ fuel ih =>
    intro q
    unfold RAQ.trimT RAQ.trim
    split
    · rw [← RAQ.popleftT_fst]
      cases q.popleftT with
      | mk a c =>
        cases a with
        | error e => rfl
        | ok p => exact ih p.2
    · rfl

theorem RAQ.applyMaxlenT_fst (q : RAQ α) : q.applyMaxlenT.1 = q.applyMaxlen := by
  unfold RAQ.applyMaxlenT RAQ.applyMaxlen
  cases q.maxlen with
  | none => rfl
  | some m => exact RAQ.trimT_fst m _ q

theorem RAQ.newT_fst (maxlen : Option Int) (init : List α) : (RAQ.newT maxlen init).1 = RAQ.new maxlen init := by
  unfold RAQ.newT RAQ.new
  cases maxlen with
  | none => exact RAQ.applyMaxlenT_fst _
  | some m =>
    simp only
    split
    · rfl
    · exact RAQ.applyMaxlenT_fst _

theorem RAQ.appendT_fst (q : RAQ α) (x : α) : (q.appendT x).1 = q.append x := by
  unfold RAQ.appendT RAQ.append
  simp only
  cases q.maxlen with
  | none => rfl
  | some m =>
    simp only
    split
    · rw [← RAQ.popleftT_fst]
    · rfl

theorem RAQ.extendT_fst (q : RAQ α) (xs : List α) : (q.extendT xs).1 = q.extend xs := RAQ.applyMaxlenT_fst _

theorem RAQ.stepT_fst (q : RAQ α) (op : Op α) : (q.stepT op).1 = q.step op := by
  cases op with
  | append x => simp only [RAQ.stepT, RAQ.step, RAQ.appendT_fst]; cases q.append x <;> rfl
  | extend xs => simp only [RAQ.stepT, RAQ.step, RAQ.extendT_fst]; cases q.extend xs <;> rfl
  | popleft => simp only [RAQ.stepT, RAQ.step, RAQ.popleftT_fst]; cases q.popleft <;> rfl
  | get i => rfl
  | set i x => rfl
  | len => rfl
  | iter => rfl

theorem RAQ.runT_fst (ops : List (Op α)) : ∀ q : RAQ α, (q.runT ops).1 = q.run ops := by
  induction ops with
  | nil => intro q; rfl
  | cons op ops ih =>
    intro q
    simp only [RAQ.runT, RAQ.run, ih, RAQ.stepT_fst]

/-- What the queue has saved up: one operation for every item that is still to be moved and two for every item still to be removed. -/
def RAQ.credit (q : RAQ α) : Nat := q.back.length + 2 * q.len

theorem RAQ.popleftT_cost {q q' : RAQ α} {x : α} (h : q.popleftT.1 = .ok (x, q')) : q.popleftT.2 + q'.credit + 1 ≤ q.credit := by
  rcases q with ⟨m, f, b⟩
  rcases List.eq_nil_or_concat f with rfl | ⟨f', y, rfl⟩
  · cases b with
    | nil => simp [RAQ.popleftT] at h
    | cons y ys =>
      simp [RAQ.popleftT] at h ⊢
      obtain ⟨rfl, rfl⟩ := h
      simp [RAQ.credit, RAQ.len]
      omega
  · simp [RAQ.popleftT] at h ⊢
    obtain ⟨rfl, rfl⟩ := h
    simp [RAQ.credit, RAQ.len]
    omega

theorem RAQ.popleftT_empty {q : RAQ α} {e : PyErr} (h : q.popleftT.1 = .error e) : q.popleftT.2 ≤ 1 := by
  rcases q with ⟨m, f, b⟩
  rcases List.eq_nil_or_concat f with rfl | ⟨f', y, rfl⟩
  · cases b with
    | nil => simp [RAQ.popleftT]
    | cons y ys => simp [RAQ.popleftT] at h
  · simp [RAQ.popleftT] at h

theorem RAQ.trimT_cost (m : Int) (fuel : Nat) : ∀ {q q' : RAQ α}, (q.trimT m fuel).1 = .ok q' → (q.trimT m fuel).2 + q'.credit ≤ q.credit + 1 := by
  induction fuel with
  | zero =>
    intro q q' h
    unfold RAQ.trimT at h ⊢
    split at h
    · cases h
    · rename_i hc
      cases h
      rw [if_neg hc]
      omega
  | succ fuel ih =>
    intro q q' h
    unfold RAQ.trimT at h ⊢
    split at h
    · rename_i hc
      rw [if_pos hc]
      cases hp : q.popleftT with
      | mk a c =>
        rw [hp] at h
        cases a with
        | error e => cases h
        | ok p =>
          obtain ⟨x, q1⟩ := p
          have h1 := RAQ.popleftT_cost (q := q) (q' := q1) (x := x) (by rw [hp])
          rw [hp] at h1
          have h2 := ih h
          simp only at h1 h2 ⊢
          omega
    · rename_i hc
      cases h
      rw [if_neg hc]
      omega

theorem RAQ.applyMaxlenT_cost {q q' : RAQ α} (h : q.applyMaxlenT.1 = .ok q') : q.applyMaxlenT.2 + q'.credit ≤ q.credit + 1 := by
  unfold RAQ.applyMaxlenT at h ⊢
  cases hm : q.maxlen with
  | none => rw [hm] at h; cases h; simp only; omega
  | some m => rw [hm] at h; exact RAQ.trimT_cost m _ h

theorem RAQ.stepT_cost {b : Option Nat} {q : RAQ α} {l : List α} (hs : Sim b q l) {op : Op α} (ho : Spec.noIter op) :
    (q.stepT op).2 + (q.stepT op).1.2.credit ≤ q.credit + 1 + 4 * Spec.added [op] := by
  cases op with
  | append x =>
    obtain ⟨q', h1, _⟩ := RAQ.append_spec hs x
    rw [← RAQ.appendT_fst] at h1
    simp only [RAQ.stepT, h1, Spec.added]
    unfold RAQ.appendT at h1 ⊢
    simp only at h1 ⊢
    have hc : RAQ.credit { q with back := q.back ++ [x] } = q.credit + 3 := by simp [RAQ.credit, RAQ.len]; omega
    cases hm : q.maxlen with
    | none =>
      rw [hm] at h1
      cases h1
      have : RAQ.credit { maxlen := none, front := q.front, back := q.back ++ [x] } = q.credit + 3 := hc
      simp only
      omega
    | some m =>
      rw [hm] at h1
      simp only at h1 ⊢
      have hc : RAQ.credit { maxlen := some m, front := q.front, back := q.back ++ [x] } = q.credit + 3 := hc
      split at h1
      · rename_i hgt
        rw [if_pos hgt]
        cases hp : (RAQ.popleftT { maxlen := some m, front := q.front, back := q.back ++ [x] }).1 with
        | error e => rw [hp] at h1; cases h1
        | ok p =>
          obtain ⟨y, q1⟩ := p
          rw [hp] at h1
          cases h1
          have := RAQ.popleftT_cost hp
          simp only at this ⊢
          omega
      · rename_i hgt
        cases h1
        rw [if_neg hgt]
        simp only
        omega
  | extend xs =>
    obtain ⟨q', h1, _⟩ := RAQ.extend_spec hs xs
    rw [← RAQ.extendT_fst] at h1
    simp only [RAQ.stepT, h1, Spec.added]
    unfold RAQ.extendT at h1 ⊢
    have := RAQ.applyMaxlenT_cost h1
    have hc : RAQ.credit { q with back := q.back ++ xs } = q.credit + 3 * xs.length := by simp [RAQ.credit, RAQ.len]; omega
    simp only at this ⊢
    omega
  | popleft =>
    simp only [RAQ.stepT, Spec.added]
    cases hp : q.popleftT.1 with
    | error e =>
      have := RAQ.popleftT_empty hp
      simp only
      omega
    | ok p =>
      obtain ⟨x, q1⟩ := p
      have := RAQ.popleftT_cost hp
      simp only
      omega
  | get i =>
    simp only [RAQ.stepT, RAQ.step, Spec.added]
    cases q.get i <;> simp only <;> omega
  | set i x =>
    simp only [RAQ.stepT, RAQ.step, Spec.added]
    cases hq : q.set i x with
    | error e => simp only; omega
    | ok q' =>
      have hl : q'.back.length = q.back.length ∧ q'.front.length = q.front.length := by
        have hmap : ∀ {l : List α} {j : Int} {g : List α → RAQ α} {r : RAQ α}, (pySet l j x).map g = .ok r →
            ∃ l', l'.length = l.length ∧ r = g l' := by
          intro l j g r h
          cases hp : pySet l j x with
          | error e => rw [hp] at h; cases h
          | ok l' => rw [hp] at h; cases h; exact ⟨l', pySet_length hp, rfl⟩
        unfold RAQ.set at hq
        simp only at hq
        split at hq
        · split at hq
          · obtain ⟨l', h1, rfl⟩ := hmap hq; exact ⟨rfl, h1⟩
          · split at hq
            · obtain ⟨l', h1, rfl⟩ := hmap hq; exact ⟨h1, rfl⟩
            · cases hq
        · split at hq
          · obtain ⟨l', h1, rfl⟩ := hmap hq; exact ⟨h1, rfl⟩
          · split at hq
            · obtain ⟨l', h1, rfl⟩ := hmap hq; exact ⟨rfl, h1⟩
            · cases hq
      simp only [RAQ.credit, RAQ.len]
      omega
  | len => simp only [RAQ.stepT, RAQ.step, Spec.added]; omega
  | iter => cases ho

theorem RAQ.runT_cost {b : Option Nat} (ops : List (Op α)) : ∀ {q : RAQ α} {l : List α}, Sim b q l → (∀ op ∈ ops, Spec.noIter op) →
    (q.runT ops).2 + (q.runT ops).1.2.credit ≤ q.credit + ops.length + 4 * Spec.added ops := by
  induction ops with
  | nil => intro q l _ _; simp [RAQ.runT, Spec.added]
  | cons op ops ih =>
    intro q l hs ho
    have h1 := RAQ.stepT_cost hs (ho op (by simp))
    have h2 := (RAQ.step_sim hs op).2
    rw [← RAQ.stepT_fst] at h2
    have h3 := ih h2 (fun o h => ho o (by simp [h]))
    have h4 : Spec.added (op :: ops) = Spec.added [op] + Spec.added ops := by cases op <;> simp [Spec.added]
    simp only [RAQ.runT, List.length_cons]
    omega

/-! ## C139: the queue -/

/-- **C139 (queue).** Whatever the bound, the initial items and the history of calls other than iteration: the constructor and the calls
together take at most one elementary operation per call and four per item added.  So every call takes amortized constant time. -/
theorem raq_amortized_constant (maxlen : Option Nat) (init : List α) (ops : List (Op α)) (ho : ∀ op ∈ ops, Spec.noIter op) :
    ∃ q c, RAQ.newT (maxlen.map Int.ofNat) init = (.ok q, c) ∧ RAQ.new (maxlen.map Int.ofNat) init = .ok q ∧
      (q.runT ops).1 = q.run ops ∧ c + (q.runT ops).2 ≤ (1 + ops.length) + 4 * (init.length + Spec.added ops) := by
  obtain ⟨q, h1, h2⟩ := RAQ.new_sim maxlen init
  refine ⟨q, (RAQ.newT (maxlen.map Int.ofNat) init).2, ?_, h1, RAQ.runT_fst ops q, ?_⟩
  · rw [← h1, ← RAQ.newT_fst]
  · have h3 := RAQ.runT_cost ops h2 ho
    have h4 : (RAQ.newT (maxlen.map Int.ofNat) init).2 + q.credit ≤ 1 + 4 * init.length := by
      rw [← RAQ.newT_fst] at h1
      unfold RAQ.newT at h1 ⊢
      cases maxlen with
      | none =>
        simp only [Option.map_none] at h1 ⊢
        have := RAQ.applyMaxlenT_cost h1
        simp only [RAQ.credit, RAQ.len, List.length_nil] at this ⊢
        omega
      | some m =>
        simp only [Option.map_some] at h1 ⊢
        split at h1
        · cases h1
        · rename_i hm
          rw [if_neg hm]
          have := RAQ.applyMaxlenT_cost h1
          simp only [RAQ.credit, RAQ.len, List.length_nil] at this ⊢
          omega
    omega

/-! ## Limits and non-vacuity -/

/-- A single call can take as many operations as there are items: the first `popleft` moves all of them. -/
theorem raq_popleft_linear (x : α) (n : Nat) :
    ∃ q, RAQ.new none (List.replicate (n + 1) x) = .ok q ∧ (q.stepT .popleft).2 = n + 2 := by
  refine ⟨{ maxlen := none, front := [], back := List.replicate (n + 1) x }, rfl, ?_⟩
  simp [RAQ.stepT, RAQ.popleftT, List.replicate_succ]

/-- A history with a bound: all kinds of calls. -/
example : ∀ op ∈ ([.append 1, .extend [2, 3], .popleft, .get 0, .set 0 5, .len, .popleft, .popleft] : List (Op Nat)), Spec.noIter op := by decide

example : (((RAQ.newT (some 2) [7, 8, 9]).1.toOption.map fun q =>
    (q.runT [.append 1, .extend [2, 3], .popleft, .get 0, .set 0 5, .len, .popleft, .popleft]).2)) = some 18 := by decide

end Pfrl.Queue
