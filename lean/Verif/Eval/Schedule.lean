import Verif.Basic
import Mathlib.Order.Lattice
import Mathlib.Order.MinMax
import Mathlib.Data.List.Basic
import Mathlib.Algebra.Order.Ring.Int

/-!
# When `Evaluator` evaluates, and which agent it saves (C39, C40)
-/

namespace Pfrl.Eval

variable {S : Type _} [LinearOrder S]

/-! ## Model -/

/-- The attributes of `Evaluator` that matter, `pfrl/experiments/evaluator.py:417-461`.  `evaluated` is the
list of the steps at which evaluations were made; `saves` is the list of the steps at which the agent was
saved as `best`, each save overwriting the one before. -/
structure Evaluator (S : Type _) where
  interval : Nat
  maxScore : S
  prevEvalT : Nat
  evaluated : List Nat
  saves : List Nat
  deriving DecidableEq, Repr

/-- `Evaluator.__init__`, `evaluator.py:417-461`; `floatMin` is `np.finfo(np.float32).min`.  `x % 0`
raises. -/
def Evaluator.new (floatMin : S) (offset interval : Nat) : Except PyErr (Evaluator S) :=
  if interval = 0 then .error .zeroDivision
  else .ok ⟨interval, floatMin, offset - offset % interval, [], []⟩

/-- `evaluate_and_update_max_score`, `evaluator.py:463-514`: `mean` is the mean score obtained.  Writing
to `scores.txt`, tensorboard and hooks are not modelled. -/
def Evaluator.evaluate (e : Evaluator S) (t : Nat) (mean : S) : Evaluator S :=
  let e := { e with evaluated := e.evaluated ++ [t] }
  if mean > e.maxScore then { e with maxScore := mean, saves := e.saves ++ [t] } else e

/-- `evaluate_if_necessary`, `evaluator.py:516-521`.  `mean` is the score the agent would obtain. -/
def Evaluator.step (e : Evaluator S) (c : Nat × S) : Evaluator S :=
  if c.1 ≥ e.prevEvalT + e.interval then
    { e.evaluate c.1 c.2 with prevEvalT := c.1 - c.1 % e.interval }
  else e

/-- A sequence of calls. -/
def Evaluator.run (e : Evaluator S) : List (Nat × S) → Evaluator S
  | [] => e
  | c :: cs => (e.step c).run cs

/-! ## Specification -/

/-- The calls at which an evaluation is due: those in another interval cell `[k·interval, (k+1)·interval)`
than the call before them (than the offset, for the first call). -/
def Spec.due (interval : Nat) : Nat → List (Nat × S) → List (Nat × S)
  | _, [] => []
  | prev, c :: cs =>
    if c.1 / interval ≠ prev / interval then c :: Spec.due interval c.1 cs
    else Spec.due interval c.1 cs

/-! ## Lemmas -/

theorem due_iff {I t p : Nat} (hI : 0 < I) (hp : p ≤ t) :
    t ≥ p / I * I + I ↔ t / I ≠ p / I := by
  have h1 : p / I ≤ t / I := Nat.div_le_div_right hp
  have h2 : t ≥ p / I * I + I ↔ p / I + 1 ≤ t / I := by
    rw [Nat.le_div_iff_mul_le hI, Nat.add_mul, Nat.one_mul]
  rw [h2]
  omega

theorem sub_mod_eq (a I : Nat) : a - a % I = a / I * I := by
  have := Nat.div_add_mod a I
  rw [Nat.mul_comm] at this
  omega

theorem evaluate_interval (e : Evaluator S) (t : Nat) (m : S) :
    (e.evaluate t m).interval = e.interval := by
  unfold Evaluator.evaluate; simp only; split <;> rfl

theorem evaluate_evaluated (e : Evaluator S) (t : Nat) (m : S) :
    (e.evaluate t m).evaluated = e.evaluated ++ [t] := by
  unfold Evaluator.evaluate; simp only; split <;> rfl

theorem evaluate_max (e : Evaluator S) (t : Nat) (m : S) :
    (e.evaluate t m).maxScore = max e.maxScore m := by
  unfold Evaluator.evaluate
  simp only
  split
  · next h => exact (max_eq_right h.le).symm
  · next h => exact (max_eq_left (not_lt.mp h)).symm

theorem evaluate_saves (e : Evaluator S) (t : Nat) (m : S) :
    (e.evaluate t m).saves = if m > e.maxScore then e.saves ++ [t] else e.saves := by
  unfold Evaluator.evaluate; simp only; split <;> rfl

/-- The saves caused by a list of evaluations. -/
def savesFrom : S → List (Nat × S) → List Nat
  | _, [] => []
  | m, c :: cs => if c.2 > m then c.1 :: savesFrom c.2 cs else savesFrom m cs

theorem run_spec {I : Nat} (hI : 0 < I) : ∀ (cs : List (Nat × S)) (e : Evaluator S) (p : Nat),
    e.interval = I → e.prevEvalT = p / I * I → (p :: cs.map Prod.fst).Pairwise (· ≤ ·) →
    (e.run cs).evaluated = e.evaluated ++ (Spec.due I p cs).map Prod.fst ∧
    (e.run cs).maxScore = ((Spec.due I p cs).map Prod.snd).foldl max e.maxScore ∧
    (e.run cs).saves = e.saves ++ savesFrom e.maxScore (Spec.due I p cs)
  | [], e, p, _, _, _ => by simp [Evaluator.run, Spec.due, savesFrom]
  | c :: cs, e, p, hint, hprev, hmono => by
    rw [List.map_cons, List.pairwise_cons] at hmono
    have hle : p ≤ c.1 := hmono.1 _ (by simp)
    have hmono' : (c.1 :: cs.map Prod.fst).Pairwise (· ≤ ·) := hmono.2
    unfold Evaluator.run Spec.due
    unfold Evaluator.step
    rw [hprev, hint]
    by_cases h : c.1 / I ≠ p / I
    · rw [if_pos ((due_iff hI hle).mpr h), if_pos h]
      obtain ⟨g1, g2, g3⟩ := run_spec hI cs
        { e.evaluate c.1 c.2 with prevEvalT := c.1 - c.1 % I } c.1
        (by simp only [evaluate_interval, hint]) (by simp only [sub_mod_eq]) hmono'
      refine ⟨?_, ?_, ?_⟩
      · rw [g1]; simp [evaluate_evaluated]
      · rw [g2]; simp [evaluate_max]
      · rw [g3]
        simp only [evaluate_saves, evaluate_max, savesFrom]
        by_cases hm : c.2 > e.maxScore
        · simp [hm, max_eq_right hm.le]
        · simp [hm, max_eq_left (not_lt.mp hm)]
    · rw [if_neg (fun hc => h ((due_iff hI hle).mp hc)), if_neg h]
      have hpq : p / I = c.1 / I := by simpa using (not_not.mp h).symm
      exact run_spec hI cs e c.1 hint (by rw [hprev, hpq]) hmono'

theorem foldl_max_le (l : List S) (m : S) : m ≤ l.foldl max m ∧ ∀ x ∈ l, x ≤ l.foldl max m := by
  induction l generalizing m with
  | nil => simp
  | cons y l ih =>
    obtain ⟨h1, h2⟩ := ih (max m y)
    simp only [List.foldl_cons, List.mem_cons, forall_eq_or_imp]
    exact ⟨le_trans (le_max_left _ _) h1, le_trans (le_max_right _ _) h1, h2⟩

theorem foldl_max_mem (l : List S) (m : S) : l.foldl max m = m ∨ l.foldl max m ∈ l := by
  induction l generalizing m with
  | nil => simp
  | cons y l ih =>
    simp only [List.foldl_cons, List.mem_cons]
    rcases ih (max m y) with h | h
    · rw [h]
      rcases le_total m y with hle | hle
      · right; left; exact max_eq_right hle
      · left; exact max_eq_left hle
    · exact .inr (.inr h)

theorem savesFrom_last : ∀ (l : List (Nat × S)) (m : S),
    match (savesFrom m l).getLast? with
    | none => ∀ x ∈ l, x.2 ≤ m
    | some t => ∃ before s after, l = before ++ (t, s) :: after ∧ m < s ∧
        (∀ x ∈ before, x.2 < s) ∧ ∀ x ∈ after, x.2 ≤ s
  | [], m => by simp [savesFrom]
  | c :: cs, m => by
    unfold savesFrom
    by_cases h : c.2 > m
    · rw [if_pos h]
      have ih := savesFrom_last cs c.2
      cases hl : (savesFrom c.2 cs).getLast? with
      | none =>
        rw [hl] at ih
        have hn : savesFrom c.2 cs = [] := List.getLast?_eq_none_iff.mp hl
        rw [hn]
        exact ⟨[], c.2, cs, rfl, h, by simp, ih⟩
      | some t =>
        rw [hl] at ih
        have : (c.1 :: savesFrom c.2 cs).getLast? = some t := by
          rw [List.getLast?_cons, hl]; rfl
        rw [this]
        obtain ⟨b, s, a, h1, h2, h3, h4⟩ := ih
        refine ⟨c :: b, s, a, by rw [h1]; rfl, lt_trans h h2, ?_, h4⟩
        intro x hx
        rcases List.mem_cons.mp hx with rfl | hx
        · exact h2
        · exact h3 x hx
    · rw [if_neg h]
      have ih := savesFrom_last cs m
      cases hl : (savesFrom m cs).getLast? with
      | none =>
        rw [hl] at ih
        intro x hx
        rcases List.mem_cons.mp hx with rfl | hx
        · exact not_lt.mp h
        · exact ih x hx
      | some t =>
        rw [hl] at ih
        obtain ⟨b, s, a, h1, h2, h3, h4⟩ := ih
        refine ⟨c :: b, s, a, by rw [h1]; rfl, h2, ?_, h4⟩
        intro x hx
        rcases List.mem_cons.mp hx with rfl | hx
        · exact lt_of_le_of_lt (not_lt.mp h) h2
        · exact h3 x hx

omit [LinearOrder S] in
theorem mem_due {I : Nat} : ∀ (cs : List (Nat × S)) (p : Nat), ∀ c ∈ Spec.due I p cs, c ∈ cs
  | [], _, c, h => by simp [Spec.due] at h
  | d :: cs, p, c, h => by
    unfold Spec.due at h
    split at h
    · rcases List.mem_cons.mp h with rfl | h
      · simp
      · exact List.mem_cons_of_mem _ (mem_due cs _ c h)
    · exact List.mem_cons_of_mem _ (mem_due cs _ c h)

omit [LinearOrder S] in
theorem due_gt {I : Nat} : ∀ (cs : List (Nat × S)) (p : Nat),
    (p :: cs.map Prod.fst).Pairwise (· ≤ ·) →
    (∀ c ∈ Spec.due I p cs, p / I < c.1 / I) ∧
    (Spec.due I p cs).Pairwise fun a b => a.1 / I < b.1 / I
  | [], _, _ => by simp [Spec.due]
  | d :: cs, p, h => by
    rw [List.map_cons, List.pairwise_cons] at h
    have hle : p ≤ d.1 := h.1 _ (by simp)
    have hdiv : p / I ≤ d.1 / I := Nat.div_le_div_right hle
    obtain ⟨h1, h2⟩ := due_gt (I := I) cs d.1 h.2
    unfold Spec.due
    split
    · next hne =>
      refine ⟨?_, List.pairwise_cons.mpr ⟨h1, h2⟩⟩
      intro c hc
      rcases List.mem_cons.mp hc with rfl | hc
      · omega
      · have := h1 c hc; omega
    · exact ⟨fun c hc => by have := h1 c hc; omega, h2⟩

omit [LinearOrder S] in
theorem due_covers {I : Nat} : ∀ (cs : List (Nat × S)) (p : Nat), ∀ c ∈ cs, c.1 / I ≠ p / I →
    ∃ d ∈ Spec.due I p cs, d.1 / I = c.1 / I
  | [], _, c, h, _ => by simp at h
  | d :: cs, p, c, h, hne => by
    unfold Spec.due
    by_cases hd : d.1 / I ≠ p / I
    · rw [if_pos hd]
      by_cases hcd : c.1 / I = d.1 / I
      · exact ⟨d, by simp, hcd.symm⟩
      · rcases List.mem_cons.mp h with rfl | h
        · exact absurd rfl hcd
        · obtain ⟨x, hx, he⟩ := due_covers cs d.1 c h hcd
          exact ⟨x, List.mem_cons_of_mem _ hx, he⟩
    · rw [if_neg hd]
      rcases List.mem_cons.mp h with rfl | h
      · exact absurd hne (by simpa using hd)
      · exact due_covers cs d.1 c h (by rw [not_not.mp hd]; exact hne)

/-! ## C39 -/

/-- **C39.** For every positive interval, every offset and every sequence of calls at steps that never
decrease (and are not below the offset): an evaluation is made exactly at the calls whose interval cell
differs from that of the call before (of the offset, for the first).  Therefore the cells of two
evaluations are different and different from the offset's, and every cell in which there is a call,
other than the offset's, has its evaluation. -/
theorem evaluation_schedule (floatMin : S) {offset interval : Nat} (hI : 0 < interval)
    (calls : List (Nat × S)) (hmono : (offset :: calls.map Prod.fst).Pairwise (· ≤ ·)) :
    ∃ e, Evaluator.new floatMin offset interval = .ok e ∧
      (e.run calls).evaluated = (Spec.due interval offset calls).map Prod.fst ∧
      ((e.run calls).evaluated.map (· / interval)).Pairwise (· < ·) ∧
      (∀ t ∈ (e.run calls).evaluated, offset / interval < t / interval) ∧
      (∀ c ∈ calls, c.1 / interval ≠ offset / interval →
        ∃ t ∈ (e.run calls).evaluated, t / interval = c.1 / interval) := by
  refine ⟨⟨interval, floatMin, offset - offset % interval, [], []⟩, ?_, ?_⟩
  · unfold Evaluator.new; rw [if_neg (by omega)]
  · obtain ⟨h, _, _⟩ := run_spec hI calls ⟨interval, floatMin, offset - offset % interval, [], []⟩ offset rfl
      (sub_mod_eq _ _) hmono
    rw [List.nil_append] at h
    obtain ⟨g1, g2⟩ := due_gt (I := interval) calls offset hmono
    rw [h]
    refine ⟨rfl, ?_, ?_, ?_⟩
    · rw [List.map_map, List.pairwise_map]
      exact g2
    · intro t ht
      obtain ⟨c, hc, rfl⟩ := List.mem_map.mp ht
      exact g1 c hc
    · intro c hc hne
      obtain ⟨d, hd, he⟩ := due_covers calls offset c hc hne
      exact ⟨d.1, List.mem_map.mpr ⟨d, hd, rfl⟩, he⟩

/-- Interval 10, offset 25: calls at every step of an episode end. -/
example : (Evaluator.run ⟨10, (-100 : Int), 20, [], []⟩
    [(25, 1), (29, 2), (30, 3), (38, 4), (59, 5), (60, 4), (60, 7)]).evaluated = [30, 59, 60] := by decide

/-! ## C40 -/

/-- **C40.** For every sequence of calls (in the sense of C39), `max_score` is the largest of the float32
minimum and of all mean scores obtained in the evaluations made; and the agent last saved as `best` is
the one of the first evaluation with the largest score (none is saved if no score exceeds the float32
minimum). -/
theorem best_agent_saved (floatMin : S) {offset interval : Nat} (hI : 0 < interval)
    (calls : List (Nat × S)) (hmono : (offset :: calls.map Prod.fst).Pairwise (· ≤ ·)) :
    ∃ e, Evaluator.new floatMin offset interval = .ok e ∧
      (floatMin ≤ (e.run calls).maxScore ∧
        (∀ c ∈ Spec.due interval offset calls, c.2 ≤ (e.run calls).maxScore) ∧
        ((e.run calls).maxScore = floatMin ∨
          ∃ c ∈ Spec.due interval offset calls, c.2 = (e.run calls).maxScore)) ∧
      match (e.run calls).saves.getLast? with
      | none => ∀ c ∈ Spec.due interval offset calls, c.2 ≤ floatMin
      | some t => ∃ before s after, Spec.due interval offset calls = before ++ (t, s) :: after ∧
          floatMin < s ∧ (∀ c ∈ before, c.2 < s) ∧ (∀ c ∈ after, c.2 ≤ s) := by
  refine ⟨⟨interval, floatMin, offset - offset % interval, [], []⟩, ?_, ?_⟩
  · unfold Evaluator.new; rw [if_neg (by omega)]
  · obtain ⟨_, h1, h2⟩ := run_spec hI calls ⟨interval, floatMin, offset - offset % interval, [], []⟩ offset
      rfl (sub_mod_eq _ _) hmono
    simp only [List.nil_append] at h1 h2
    rw [h1, h2]
    refine ⟨⟨(foldl_max_le _ _).1, ?_, ?_⟩, savesFrom_last _ _⟩
    · intro c hc
      exact (foldl_max_le _ _).2 _ (List.mem_map.mpr ⟨c, hc, rfl⟩)
    · rcases foldl_max_mem ((Spec.due interval offset calls).map Prod.snd) floatMin with h | h
      · exact .inl h
      · obtain ⟨c, hc, he⟩ := List.mem_map.mp h
        exact .inr ⟨c, hc, he⟩

example : Evaluator.run ⟨10, (-100 : Int), 0, [], []⟩ [(10, 1), (20, 5), (30, 5), (40, 2)]
    = ⟨10, 5, 40, [10, 20, 30, 40], [10, 20]⟩ := by decide

end Pfrl.Eval
