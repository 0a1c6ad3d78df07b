import Verif.Basic
import Mathlib.Algebra.BigOperators.Fin
import Mathlib.Tactic.Ring
import Mathlib.Tactic.LinearCombination

/-!
# Discounted sums: the specification shared by all return computations
-/

namespace Pfrl.Returns

variable {K : Type _} [CommRing K]

/-- `l₀ + x l₁ + x² l₂ + …`. -/
def Spec.disc (x : K) (l : List K) : K := ∑ k : Fin l.length, x ^ k.val * l[k.val]

@[simp] theorem disc_nil (x : K) : Spec.disc x [] = 0 := by simp [Spec.disc]

@[simp] theorem disc_cons (x a : K) (l : List K) :
    Spec.disc x (a :: l) = a + x * Spec.disc x l := by
  unfold Spec.disc
  refine (Fin.sum_univ_succ (n := l.length) fun k => x ^ k.val * (a :: l)[k.val]).trans ?_
  simp only [Fin.val_zero, pow_zero, one_mul, List.getElem_cons_zero, Fin.val_succ,
    List.getElem_cons_succ, Finset.mul_sum, pow_succ]
  congr 1
  apply Finset.sum_congr rfl
  intro k _
  ring

theorem disc_append (x : K) (a b : List K) :
    Spec.disc x (a ++ b) = Spec.disc x a + x ^ a.length * Spec.disc x b := by
  induction a with
  | nil => simp
  | cons y a ih => simp only [List.cons_append, disc_cons, ih, List.length_cons, pow_succ]; ring

theorem disc_zero (l : List K) : Spec.disc 0 l = l.head?.getD 0 := by cases l <;> simp

theorem disc_one (l : List K) : Spec.disc 1 l = l.sum := by
  induction l with
  | nil => simp
  | cons a l ih => simp [ih]

end Pfrl.Returns
