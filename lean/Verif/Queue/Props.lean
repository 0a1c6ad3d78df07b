import Verif.Queue.Lemmas

/-!
# Properties of `RandomAccessQueue` (C01, C02)
-/

namespace Pfrl.Queue

variable {α : Type _}

/-- **C01.** For every bound, every initial content and every history of API calls, a
`RandomAccessQueue` is constructed without error and every call gives exactly the observation
(value, `None` or exception) that a plain Python list kept to its newest `maxlen` items gives;
iterating it afterwards gives that list. -/
theorem raq_refines_bounded_list (maxlen : Option Nat) (init : List α) (ops : List (Op α)) :
    ∃ q, RAQ.new (maxlen.map Int.ofNat) init = .ok q ∧
      (q.run ops).1 = (Spec.run maxlen (Spec.keep maxlen init) ops).1 ∧
      (q.run ops).2.iter = (Spec.run maxlen (Spec.keep maxlen init) ops).2 := by
  obtain ⟨q, h1, h2⟩ := RAQ.new_sim maxlen init
  have h3 := RAQ.run_sim ops h2
  exact ⟨q, h1, h3.1, h3.2.1⟩

/-- Case: bound 2, three initial items, a mix of operations including negative indices and
errors. -/
example : (match RAQ.new (some 2) [1, 2, 3] with
    | .ok q => (q.run [.get (-1), .append 4, .get 0, .set (-2) 7, .iter, .popleft, .popleft,
        .popleft, .get 0]).1
    | .error _ => []) =
    [.item 3, .unit, .item 3, .unit, .items [7, 4], .item 7, .item 4,
      .raised .indexError, .raised .indexError] := by decide

/-- The constructor rejects exactly the negative bounds. -/
theorem raq_new_error_iff (maxlen : Option Int) (init : List α) :
    (∃ e, RAQ.new maxlen init = .error e) ↔ ∃ m, maxlen = some m ∧ m < 0 := by
  cases maxlen with
  | none =>
    obtain ⟨q, h, _⟩ := RAQ.new_sim (none : Option Nat) init
    simp at h; simp [h]
  | some m =>
    by_cases hm : m < 0
    · simp [RAQ.new, hm]
    · obtain ⟨n, rfl⟩ := Int.eq_ofNat_of_zero_le (by omega : 0 ≤ m)
      obtain ⟨q, h, _⟩ := RAQ.new_sim (some n) init
      simp at h; simp [h]

example : ∃ e, RAQ.new (some (-1)) [1, 2] = .error e := ⟨.assertionError, rfl⟩

/-- The insertions of a history, in order. -/
def Spec.inserted : List (Op α) → List α
  | [] => []
  | .append x :: ops => x :: Spec.inserted ops
  | .extend xs :: ops => xs ++ Spec.inserted ops
  | _ :: ops => Spec.inserted ops

/-- `op` only inserts. -/
def Spec.isInsert : Op α → Bool
  | .append _ => true
  | .extend _ => true
  | _ => false

theorem newest_append_newest (m : Nat) (a b : List α) :
    Spec.newest m (Spec.newest m a ++ b) = Spec.newest m (a ++ b) := by
  unfold Spec.newest
  simp only [List.length_append, List.length_drop]
  by_cases h : a.length ≤ m
  · have : a.length - m = 0 := by omega
    simp [this]
  · have e1 : a.length - (a.length - m) + b.length - m = b.length := by omega
    have e2 : a.length + b.length - m = (a.length - m) + b.length := by omega
    rw [e1, e2, ← List.drop_drop, List.drop_append_of_le_length (l₁ := a) (l₂ := b) (by omega)]

theorem keep_append_keep (m : Option Nat) (a b : List α) :
    Spec.keep m (Spec.keep m a ++ b) = Spec.keep m (a ++ b) := by
  cases m with
  | none => rfl
  | some m => exact newest_append_newest m a b

theorem run_inserts (maxlen : Option Nat) (ops : List (Op α)) (h : ∀ op ∈ ops, Spec.isInsert op) :
    ∀ l, (Spec.run maxlen (Spec.keep maxlen l) ops).2 = Spec.keep maxlen (l ++ Spec.inserted ops) := by
  induction ops with
  | nil => intro l; simp [Spec.run, Spec.inserted]
  | cons op ops ih =>
    intro l
    have h1 := h op (by simp)
    have h2 := ih (fun o ho => h o (by simp [ho]))
    cases op <;> simp [Spec.isInsert] at h1
    · rename_i x
      simp only [Spec.run, Spec.step, Spec.inserted]
      rw [keep_append_keep, h2]; simp
    · rename_i xs
      simp only [Spec.run, Spec.step, Spec.inserted]
      rw [keep_append_keep, h2]; simp

/-- **C02.** After any sequence of `append`/`extend` the queue iterates over exactly the newest
`maxlen` of all items ever added (initial content included), oldest first; in particular its
length is `min maxlen (number added)`. -/
theorem raq_keeps_newest (m : Nat) (init : List α) (ops : List (Op α))
    (hops : ∀ op ∈ ops, Spec.isInsert op) :
    ∃ q, RAQ.new (some (m : Int)) init = .ok q ∧
      (∃ dropped, init ++ Spec.inserted ops = dropped ++ (q.run ops).2.iter) ∧
      (q.run ops).2.len = min m (init.length + (Spec.inserted ops).length) := by
  obtain ⟨q, h1, h2⟩ := RAQ.new_sim (some m) init
  have h3 := (RAQ.run_sim ops h2).2.1
  rw [run_inserts (some m) ops hops init] at h3
  refine ⟨q, by simpa using h1, ?_, ?_⟩
  · rw [h3]
    exact ⟨_, (List.take_append_drop _ _).symm⟩
  · rw [← RAQ.iter_length, h3]
    simp [Spec.keep, Spec.newest]; omega

example : ∀ op ∈ ([.append 1, .extend [2, 3], .append 4] : List (Op Nat)), Spec.isInsert op := by
  decide

/-- Without a bound nothing is ever dropped. -/
theorem raq_unbounded_keeps_all (init : List α) (ops : List (Op α))
    (hops : ∀ op ∈ ops, Spec.isInsert op) :
    ∃ q, RAQ.new none init = .ok q ∧ (q.run ops).2.iter = init ++ Spec.inserted ops := by
  obtain ⟨q, h1, h2⟩ := RAQ.new_sim (none : Option Nat) init
  have h3 := (RAQ.run_sim ops h2).2.1
  have := run_inserts (none : Option Nat) ops hops init
  exact ⟨q, by simpa using h1, h3.trans this⟩

/-- Whatever the history, the length never exceeds the bound. -/
theorem raq_length_le_maxlen (m : Nat) (init : List α) (ops : List (Op α)) :
    ∃ q, RAQ.new (some (m : Int)) init = .ok q ∧ (q.run ops).2.len ≤ m := by
  obtain ⟨q, h1, h2⟩ := RAQ.new_sim (some m) init
  have h3 := (RAQ.run_sim ops h2).2
  refine ⟨q, by simpa using h1, ?_⟩
  rw [← RAQ.iter_length, h3.1]; exact h3.2.2 m rfl

end Pfrl.Queue
