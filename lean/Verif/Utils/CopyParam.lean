import Mathlib.Algebra.Order.Field.Basic
import Mathlib.Data.List.Nodup
import Mathlib.Tactic.Ring
import Mathlib.Tactic.Linarith
import Mathlib.Data.Rat.Defs
import Mathlib.Algebra.Order.Ring.Unbundled.Rat
import Mathlib.Algebra.Field.Rat

/-!
# Copying parameters (C53)

A network is seen through its `state_dict`: named tensors, which share their memory with the network.  A tensor of
floating point numbers is the list of its elements (numbers exact); a tensor of another type is one integer.
-/

namespace Pfrl.CopyParam

variable {K : Type _}

/-! ## Model -/

/-- A tensor of a state dictionary. -/
inductive Val (K : Type _) where
  | float (x : List K)
  | other (n : Int)
  deriving DecidableEq, Repr

/-- Two tensors of the same type and size. -/
def Val.sameShape : Val K → Val K → Bool
  | .float a, .float b => a.length == b.length
  | .other _, .other _ => true
  | _, _ => false

/-- A state dictionary. -/
abbrev Dict (K : Type _) := List (String × Val K)

/-- `target.load_state_dict(source.state_dict())`, `pfrl/utils/copy_param.py:4-6`: every tensor of the target whose name
is in the source with the same shape is overwritten; the call raises (`false`) if a name is missing on either side or
shapes differ.  Conversions between types are not modelled. -/
def copyParam (target source : Dict K) : Dict K × Bool :=
  (target.map fun e => match source.lookup e.1 with
    | some v => if e.2.sameShape v then (e.1, v) else e
    | none => e,
   (target.all fun e => match source.lookup e.1 with
    | some v => e.2.sameShape v
    | none => false) && source.all fun e => (target.lookup e.1).isSome)

/-- The update of one tensor, `copy_param.py:13-22`.  `none`: the assertion about shapes (or the multiplication of an
integer tensor by a fraction) raises.  For the other types the code assigns to the *dictionary* (line 22), which does not
touch the network. -/
def softEntry [Mul K] [Add K] [Sub K] [One K] (tau : K) : Val K → Val K → Option (Val K)
  | .float t, .float s =>
    if t.length = s.length then some (.float (List.zipWith (fun t s => t * (1 - tau) + tau * s) t s)) else none
  | .other _, .float _ => none
  | v, .other _ => some v

/-- `soft_copy_param`, `copy_param.py:9-22`: the tensors of the target afterwards, and whether the call returned. -/
def softCopy [Mul K] [Add K] [Sub K] [One K] (tau : K) (source : Dict K) : Dict K → Dict K × Bool
  | [] => ([], true)
  | (k, v) :: rest =>
    match source.lookup k with
    | none => ((k, v) :: rest, false)
    | some s =>
      match softEntry tau v s with
      | none => ((k, v) :: rest, false)
      | some v' =>
        let r := softCopy tau source rest
        ((k, v') :: r.1, r.2)

/-- `k` soft updates in a row from the same source, as long as none raises. -/
def softCopies [Mul K] [Add K] [Sub K] [One K] (tau : K) (source : Dict K) : Nat → Dict K → Dict K × Bool
  | 0, target => (target, true)
  | n + 1, target =>
    let r := softCopies tau source n target
    if r.2 then softCopy tau source r.1 else r

/-! ## Specification -/

/-- The two networks have the same tensors: same names (each once), same types and sizes. -/
def Spec.SameStructure (target source : Dict K) : Prop :=
  (target.map Prod.fst).Nodup ∧ (source.map Prod.fst).Nodup ∧
  ∀ name, (∀ v, target.lookup name = some v → ∃ w, source.lookup name = some w ∧ v.sameShape w = true) ∧
    (∀ w, source.lookup name = some w → ∃ v, target.lookup name = some v ∧ v.sameShape w = true)

/-- `x` lies between `a` and `b`. -/
def Spec.Between [LE K] (a x b : K) : Prop := (a ≤ x ∧ x ≤ b) ∨ (b ≤ x ∧ x ≤ a)

/-! ## Lemmas -/

theorem lookup_of_mem {l : Dict K} (hn : (l.map Prod.fst).Nodup) : ∀ {e : String × Val K}, e ∈ l →
    l.lookup e.1 = some e.2 := by
  induction l with
  | nil => intro e h; cases h
  | cons x l ih =>
    intro e h
    obtain ⟨xk, xv⟩ := x
    rw [List.map_cons, List.nodup_cons] at hn
    rcases List.mem_cons.mp h with h | h
    · subst h; simp [List.lookup]
    · have hne : e.1 ≠ xk := by
        intro he
        exact hn.1 (List.mem_map.mpr ⟨e, h, he⟩)
      rw [List.lookup_cons, beq_false_of_ne hne]
      exact ih hn.2 h

theorem mem_of_lookup {l : Dict K} {k : String} {v : Val K} (h : l.lookup k = some v) : (k, v) ∈ l := by
  induction l with
  | nil => cases h
  | cons x l ih =>
    obtain ⟨xk, xv⟩ := x
    rw [List.lookup_cons] at h
    by_cases hk : k = xk
    · subst hk
      rw [beq_self_eq_true] at h
      cases h
      exact List.mem_cons_self ..
    · rw [beq_false_of_ne hk] at h
      exact List.mem_cons_of_mem _ (ih h)

theorem lookup_map_val (l : Dict K) (g : String → Val K → Val K) (k : String) :
    (l.map fun e => (e.1, g e.1 e.2)).lookup k = (l.lookup k).map (g k) := by
  induction l with
  | nil => rfl
  | cons x l ih =>
    obtain ⟨xk, xv⟩ := x
    rw [List.map_cons, List.lookup_cons, List.lookup_cons, ih]
    by_cases hk : k = xk
    · subst hk; simp
    · rw [beq_false_of_ne hk]

/-! ## C53 -/

/-- **C53 (hard update).** Between networks of the same structure, the call succeeds and afterwards every tensor of
the target is that of the source, and the target has the same names as before. -/
theorem hard_update (target source : Dict K) (h : Spec.SameStructure target source) :
    (copyParam target source).2 = true ∧
    (∀ name, (copyParam target source).1.lookup name = source.lookup name) ∧
    (copyParam target source).1.map Prod.fst = target.map Prod.fst := by
  obtain ⟨hnt, hns, hst⟩ := h
  have hform : (copyParam target source).1 = target.map fun e => (e.1, match source.lookup e.1 with
      | some v => if e.2.sameShape v then v else e.2
      | none => e.2) := by
    unfold copyParam
    simp only
    apply List.map_congr_left
    intro e he
    cases source.lookup e.1 with
    | none => rfl
    | some v => simp only; split <;> rfl
  refine ⟨?_, ?_, ?_⟩
  · unfold copyParam
    simp only [Bool.and_eq_true, List.all_eq_true]
    constructor
    · intro e he
      obtain ⟨w, hw, hs⟩ := (hst e.1).1 e.2 (lookup_of_mem hnt he)
      rw [hw]
      exact hs
    · intro e he
      obtain ⟨v, hv, _⟩ := (hst e.1).2 e.2 (lookup_of_mem hns he)
      rw [hv]; rfl
  · intro name
    rw [hform, lookup_map_val target (fun k v => match source.lookup k with
      | some w => if v.sameShape w then w else v
      | none => v)]
    cases ht : target.lookup name with
    | none =>
      cases hs : source.lookup name with
      | none => rfl
      | some w =>
        obtain ⟨v, hv, _⟩ := (hst name).2 w hs
        rw [ht] at hv; cases hv
    | some v =>
      obtain ⟨w, hw, hsame⟩ := (hst name).1 v ht
      simp only [Option.map_some, hw, hsame, if_true]
  · rw [hform, List.map_map]; rfl

theorem softCopy_spec [Mul K] [Add K] [Sub K] [One K] (tau : K) (source : Dict K) : ∀ (target : Dict K),
    (∀ e ∈ target, ∃ w, source.lookup e.1 = some w ∧ e.2.sameShape w = true) →
    (softCopy tau source target).2 = true ∧
    (softCopy tau source target).1 = target.map fun e => (e.1, match e.2, source.lookup e.1 with
      | .float t, some (.float s) => .float (List.zipWith (fun t s => t * (1 - tau) + tau * s) t s)
      | v, _ => v)
  | [], _ => ⟨rfl, rfl⟩
  | (k, v) :: rest, h => by
    obtain ⟨w, hw, hs⟩ := h (k, v) (List.mem_cons_self ..)
    obtain ⟨h1, h2⟩ := softCopy_spec tau source rest (fun e he => h e (List.mem_cons_of_mem _ he))
    simp only at hw hs
    unfold softCopy
    rw [hw]
    cases v with
    | float t =>
      cases w with
      | float s =>
        have hlen : t.length = s.length := by simpa [Val.sameShape] using hs
        simp only [softEntry, hlen, if_true, List.map_cons, hw]
        exact ⟨h1, by rw [h2]⟩
      | other n => simp [Val.sameShape] at hs
    | other m =>
      cases w with
      | float s => simp [Val.sameShape] at hs
      | other n =>
        simp only [softEntry, List.map_cons]
        exact ⟨h1, by rw [h2]⟩

theorem zipWith_soft [Field K] (tau c : K) : ∀ (t s : List K), t.length = s.length →
    List.zipWith (fun t s => t * (1 - tau) + tau * s) (List.zipWith (fun t s => s + c * (t - s)) t s) s =
      List.zipWith (fun t s => s + c * (1 - tau) * (t - s)) t s
  | [], _, _ => by simp
  | _ :: _, [], h => by simp at h
  | t :: ts, s :: ss, h => by
    simp only [List.zipWith_cons_cons]
    rw [zipWith_soft tau c ts ss (by simpa using h)]
    congr 1
    ring

theorem zipWith_one [Field K] : ∀ (t s : List K), t.length = s.length →
    List.zipWith (fun t s => s + 1 * (t - s)) t s = t
  | [], _, _ => by simp
  | _ :: _, [], h => by simp at h
  | t :: ts, s :: ss, h => by
    simp only [List.zipWith_cons_cons]
    rw [zipWith_one ts ss (by simpa using h)]
    congr 1
    ring

/-- **C53 (soft update).** Between networks of the same structure, `k` soft updates with rate `tau` succeed and
afterwards every floating point tensor of the target has the elements
`source + (1 - tau)^k * (target - source)`; tensors of other types are what they were. -/
theorem soft_updates [Field K] (tau : K) (target source : Dict K) (h : Spec.SameStructure target source) (k : Nat) :
    (softCopies tau source k target).2 = true ∧
    (softCopies tau source k target).1.map Prod.fst = target.map Prod.fst ∧
    (∀ name t s, target.lookup name = some (.float t) → source.lookup name = some (.float s) →
      (softCopies tau source k target).1.lookup name =
        some (.float (List.zipWith (fun t s => s + (1 - tau) ^ k * (t - s)) t s))) ∧
    (∀ name n, target.lookup name = some (.other n) →
      (softCopies tau source k target).1.lookup name = some (.other n)) := by
  obtain ⟨hnt, hns, hst⟩ := h
  have hbase : ∀ e ∈ target, ∃ w, source.lookup e.1 = some w ∧ e.2.sameShape w = true :=
    fun e he => (hst e.1).1 e.2 (lookup_of_mem hnt he)
  have key : ∀ k, (softCopies tau source k target).2 = true ∧
      (softCopies tau source k target).1 = target.map fun e => (e.1, match e.2, source.lookup e.1 with
        | .float t, some (.float s) => .float (List.zipWith (fun t s => s + (1 - tau) ^ k * (t - s)) t s)
        | v, _ => v) := by
    intro k
    induction k with
    | zero =>
      refine ⟨rfl, ?_⟩
      show target = _
      conv_lhs => rw [← List.map_id target]
      apply List.map_congr_left
      intro e he
      obtain ⟨w, hw, hs⟩ := hbase e he
      obtain ⟨ek, ev⟩ := e
      simp only at hw hs
      cases ev with
      | other n => rfl
      | float t =>
        cases w with
        | other n => simp [Val.sameShape] at hs
        | float s =>
          have hlen : t.length = s.length := by simpa [Val.sameShape] using hs
          simp only [hw, pow_zero, id]
          rw [zipWith_one t s hlen]
    | succ k ih =>
      unfold softCopies
      simp only [ih.1, if_true]
      have hshape : ∀ e ∈ (softCopies tau source k target).1,
          ∃ w, source.lookup e.1 = some w ∧ e.2.sameShape w = true := by
        rw [ih.2]
        intro e he
        obtain ⟨e0, he0, rfl⟩ := List.mem_map.mp he
        obtain ⟨w, hw, hs⟩ := hbase e0 he0
        refine ⟨w, hw, ?_⟩
        obtain ⟨ek, ev⟩ := e0
        simp only at hw hs ⊢
        rw [hw]
        cases ev with
        | other n => exact hs
        | float t =>
          cases w with
          | other n => exact hs
          | float s =>
            have hlen : t.length = s.length := by simpa [Val.sameShape] using hs
            simp [Val.sameShape, hlen]
      obtain ⟨h1, h2⟩ := softCopy_spec tau source _ hshape
      refine ⟨h1, ?_⟩
      rw [h2, ih.2, List.map_map]
      apply List.map_congr_left
      intro e he
      obtain ⟨w, hw, hs⟩ := hbase e he
      obtain ⟨ek, ev⟩ := e
      simp only at hw hs
      cases ev with
      | other n => simp [Function.comp]
      | float t =>
        cases w with
        | other n => simp [Val.sameShape] at hs
        | float s =>
          have hlen : t.length = s.length := by simpa [Val.sameShape] using hs
          simp only [Function.comp, hw]
          rw [zipWith_soft tau _ t s hlen, pow_succ]
  obtain ⟨h1, h2⟩ := key k
  refine ⟨h1, ?_, ?_, ?_⟩
  · rw [h2, List.map_map]; rfl
  · intro name t s ht hs
    rw [h2, lookup_map_val target (fun k' v => match v, source.lookup k' with
        | .float t, some (.float s) => .float (List.zipWith (fun t s => s + (1 - tau) ^ k * (t - s)) t s)
        | v, _ => v), ht, Option.map_some, hs]
  · intro name n ht
    rw [h2, lookup_map_val target (fun k' v => match v, source.lookup k' with
        | .float t, some (.float s) => .float (List.zipWith (fun t s => s + (1 - tau) ^ k * (t - s)) t s)
        | v, _ => v), ht, Option.map_some]

/-- **C53 (soft update, segment).** With a rate between 0 and 1 every element stays between the target's and the
source's, and with rate 1 it is the source's after one update. -/
theorem soft_update_between [Field K] [LinearOrder K] [IsStrictOrderedRing K] {tau : K} (h0 : 0 ≤ tau) (h1 : tau ≤ 1)
    (k : Nat) (t s : K) :
    Spec.Between t (s + (1 - tau) ^ k * (t - s)) s ∧ (tau = 1 → 0 < k → s + (1 - tau) ^ k * (t - s) = s) := by
  have hp0 : 0 ≤ (1 - tau) ^ k := pow_nonneg (by linarith) k
  have hp1 : (1 - tau) ^ k ≤ 1 := pow_le_one₀ (by linarith) (by linarith)
  constructor
  · rcases le_total t s with h | h
    · left; constructor <;> nlinarith
    · right; constructor <;> nlinarith
  · rintro rfl hk
    rw [sub_self, zero_pow (by omega)]; ring

/-- The structure of a network with batch normalisation. -/
def exTarget : Dict ℚ := [("weight", .float [0, 4]), ("num_batches_tracked", .other 0)]
def exSource : Dict ℚ := [("weight", .float [8, 8]), ("num_batches_tracked", .other 7)]

example : Spec.SameStructure exTarget exSource := by
  refine ⟨by decide, by decide, fun name => ?_⟩
  by_cases h1 : name = "weight"
  · subst h1
    exact ⟨fun v hv => ⟨.float [8, 8], rfl, by cases hv; rfl⟩, fun w hw => ⟨.float [0, 4], rfl, by cases hw; rfl⟩⟩
  · by_cases h2 : name = "num_batches_tracked"
    · subst h2
      exact ⟨fun v hv => ⟨.other 7, rfl, by cases hv; rfl⟩, fun w hw => ⟨.other 0, rfl, by cases hw; rfl⟩⟩
    · have e1 : exTarget.lookup name = none := by
        simp only [exTarget, List.lookup, beq_false_of_ne h1, beq_false_of_ne h2]
      have e2 : exSource.lookup name = none := by
        simp only [exSource, List.lookup, beq_false_of_ne h1, beq_false_of_ne h2]
      rw [e1, e2]
      exact ⟨by simp, by simp⟩

/-- The counter of batch normalisation is not copied by a soft update, although the code means to. -/
example : (softCopy (1 / 2) exSource exTarget) =
    ([("weight", .float [4, 6]), ("num_batches_tracked", .other 0)], true) := by decide +kernel

end Pfrl.CopyParam
