import Verif.Basic
import Mathlib.Algebra.GroupWithZero.Defs
import Mathlib.Algebra.Order.Ring.Int
import Mathlib.Data.List.Basic
import Mathlib.Data.List.Forall2

/-!
# Batched recurrent states (C34)

A tensor of a batched recurrent state has shape (layers, batch, features).  It is modelled as the list of
its slices along the batch axis; a slice is an element of a type with `0`, `1` and a product (tensors
with the elementwise product form such a type).
-/

namespace Pfrl.Recurrent

/-! ## Model -/

/-- A recurrent state of one environment: `None`, a tensor, or a tuple of states. -/
inductive State (V : Type _) where
  | none
  | tensor (v : V)
  | tuple (ss : List (State V))

/-- A batched recurrent state: `None`, a tensor given by its slices along the batch axis, or a tuple. -/
inductive Batched (V : Type _) where
  | none
  | tensor (vs : List V)
  | tuple (ss : List (Batched V))

variable {V : Type _}

/-- A comprehension whose body may raise. -/
def mapE {α β : Type _} (f : α → Except PyErr β) : List α → Except PyErr (List β)
  | [] => .ok []
  | x :: xs =>
    match f x with
    | .error e => .error e
    | .ok y =>
      match mapE f xs with
      | .error e => .error e
      | .ok ys => .ok (y :: ys)

/-- `mask = torch.ones_like(s); mask[:, indices] = 0; s * mask`, `pfrl/utils/recurrent.py:46-48`: slice
`j` is multiplied by `0` if `j` is one of the indices and by `1` if not.  `IndexError` for an index that
is not in the batch.  Indices are not negative (environment numbers). -/
def maskTensor [MulZeroOneClass V] (vs : List V) (indices : List Nat) : Except PyErr (List V) :=
  if indices.all (fun j => decide (j < vs.length)) then
    .ok (vs.mapIdx fun j v => v * (if j ∈ indices then 0 else 1))
  else .error .indexError

mutual
/-- `mask_recurrent_state_at`, `pfrl/utils/recurrent.py:31-53`. -/
def maskAt [MulZeroOneClass V] (indices : List Nat) : Batched V → Except PyErr (Batched V)
  | .none => .ok .none
  | .tensor vs =>
    match maskTensor vs indices with
    | .error e => .error e
    | .ok vs' => .ok (.tensor vs')
  | .tuple ss =>
    match maskAtList indices ss with
    | .error e => .error e
    | .ok ss' => .ok (.tuple ss')
/-- The generator over the components of a tuple, `recurrent.py:51`. -/
def maskAtList [MulZeroOneClass V] (indices : List Nat) :
    List (Batched V) → Except PyErr (List (Batched V))
  | [] => .ok []
  | s :: ss =>
    match maskAt indices s with
    | .error e => .error e
    | .ok s' =>
      match maskAtList indices ss with
      | .error e => .error e
      | .ok ss' => .ok (s' :: ss')
end

mutual
/-- `get_recurrent_state_at` with an integer index, `pfrl/utils/recurrent.py:56-79`.  `detach` cuts the
graph and leaves the values; it is not modelled. -/
def getAt (i : Nat) : Batched V → Except PyErr (State V)
  | .none => .ok .none
  | .tensor vs =>
    match vs[i]? with
    | .none => .error .indexError
    | .some v => .ok (.tensor v)
  | .tuple ss =>
    match getAtList i ss with
    | .error e => .error e
    | .ok gs => .ok (.tuple gs)
/-- The generator over the components of a tuple, `recurrent.py:75-77`. -/
def getAtList (i : Nat) : List (Batched V) → Except PyErr (List (State V))
  | [] => .ok []
  | s :: ss =>
    match getAt i s with
    | .error e => .error e
    | .ok g =>
      match getAtList i ss with
      | .error e => .error e
      | .ok gs => .ok (g :: gs)
end

/-- `s is None`. -/
def State.isNone : State V → Bool
  | .none => true
  | _ => false

/-- `s if s is not None else torch.zeros_like(non_none_s)`, `recurrent.py:98-101`; stacking a tuple
raises `TypeError`. -/
def orZeros [Zero V] : State V → Except PyErr V
  | .none => .ok 0
  | .tensor v => .ok v
  | .tuple _ => .error .typeError

/-- `s[i] if s is not None else None`, `recurrent.py:112`.  Indexing a tensor here (states of different
kinds) is not modelled: `TypeError`. -/
def component (i : Nat) : State V → Except PyErr (State V)
  | .none => .ok .none
  | .tensor _ => .error .typeError
  | .tuple ss =>
    match ss[i]? with
    | .none => .error .indexError
    | .some s => .ok s

/-- One component of the result, `recurrent.py:112-114`; `rec` is the recursive call. -/
def concatComponent (rec : List (State V) → Except PyErr (Batched V)) (ss : List (State V)) (i : Nat) :
    Except PyErr (Batched V) :=
  match mapE (component i) ss with
  | .error e => .error e
  | .ok col => rec col

/-- `concatenate_recurrent_states`, `pfrl/utils/recurrent.py:82-118`; `fuel` bounds the nesting of the
tuples.  The numpy branch (105-110) is the same as the tensor branch. -/
def concatFuel [Zero V] : Nat → List (State V) → Except PyErr (Batched V)
  | 0, _ => .error .recursionError
  | fuel + 1, ss =>
    match ss.find? fun s => !s.isNone with
    | .none => .ok .none
    | .some .none => .error .valueError
    | .some (.tensor _) =>
      match mapE orZeros ss with
      | .error e => .error e
      | .ok vs => .ok (.tensor vs)
    | .some (.tuple ts) =>
      match mapE (concatComponent (concatFuel fuel) ss) (List.range ts.length) with
      | .error e => .error e
      | .ok bs => .ok (.tuple bs)

mutual
/-- Nesting depth of a state. -/
def State.depth : State V → Nat
  | .none => 0
  | .tensor _ => 0
  | .tuple ss => depthList ss + 1
/-- Nesting depth of the deepest component. -/
def depthList : List (State V) → Nat
  | [] => 0
  | s :: ss => max s.depth (depthList ss)
end

/-- `concatenate_recurrent_states`: enough fuel for the nesting of the argument. -/
def concatenate [Zero V] (ss : List (State V)) : Except PyErr (Batched V) :=
  concatFuel (depthList ss + 1) ss

/-! ## Specification -/

/-- The form of the recurrent state of a model: one tensor or a tuple. -/
inductive Shape where
  | tensor
  | tuple (shs : List Shape)

mutual
/-- `s` is a state of a model whose states have the form `sh`; anywhere `None` may stand for an initial
state. -/
def Spec.HasShape : Shape → State V → Prop
  | _, .none => True
  | .tensor, .tensor _ => True
  | .tuple shs, .tuple ss => Spec.HasShapes shs ss
  | _, _ => False
/-- Componentwise. -/
def Spec.HasShapes : List Shape → List (State V) → Prop
  | [], [] => True
  | sh :: shs, s :: ss => Spec.HasShape sh s ∧ Spec.HasShapes shs ss
  | _, _ => False
end

mutual
/-- All tensors in the state are zero (or there are none). -/
def Spec.AllZero [Zero V] : State V → Prop
  | .none => True
  | .tensor v => v = 0
  | .tuple ss => Spec.AllZeros ss
/-- Componentwise. -/
def Spec.AllZeros [Zero V] : List (State V) → Prop
  | [] => True
  | s :: ss => Spec.AllZero s ∧ Spec.AllZeros ss
end

mutual
/-- `g` is the same state as `s`, where a `None` in `s` means zeros. -/
def Spec.SameState [Zero V] : State V → State V → Prop
  | .none, g => Spec.AllZero g
  | .tensor v, .tensor w => v = w
  | .tuple ss, .tuple gs => Spec.SameStates ss gs
  | _, _ => False
/-- Componentwise. -/
def Spec.SameStates [Zero V] : List (State V) → List (State V) → Prop
  | [], [] => True
  | s :: ss, g :: gs => Spec.SameState s g ∧ Spec.SameStates ss gs
  | _, _ => False
end

mutual
/-- The state with the same form and zeros in place of all values. -/
def Spec.zeroed [Zero V] : State V → State V
  | .none => .none
  | .tensor _ => .tensor 0
  | .tuple ss => .tuple (Spec.zeroedList ss)
/-- Componentwise. -/
def Spec.zeroedList [Zero V] : List (State V) → List (State V)
  | [] => []
  | s :: ss => Spec.zeroed s :: Spec.zeroedList ss
end

mutual
/-- All tensors have batch size `n`. -/
def Spec.BatchSize (n : Nat) : Batched V → Prop
  | .none => True
  | .tensor vs => vs.length = n
  | .tuple ss => Spec.BatchSizes n ss
/-- Componentwise. -/
def Spec.BatchSizes (n : Nat) : List (Batched V) → Prop
  | [] => True
  | s :: ss => Spec.BatchSize n s ∧ Spec.BatchSizes n ss
end

/-! ## Lemmas -/

theorem mapE_ok {α β : Type _} (f : α → Except PyErr β) (R : α → β → Prop) : ∀ (xs : List α),
    (∀ x ∈ xs, ∃ y, f x = .ok y ∧ R x y) → ∃ ys, mapE f xs = .ok ys ∧ List.Forall₂ R xs ys
  | [], _ => ⟨[], rfl, .nil⟩
  | x :: xs, h => by
    obtain ⟨y, hy, hr⟩ := h x (by simp)
    obtain ⟨ys, hys, hrs⟩ := mapE_ok f R xs fun z hz => h z (by simp [hz])
    refine ⟨y :: ys, ?_, .cons hr hrs⟩
    simp only [mapE, hy, hys]

theorem hasShapes_iff : ∀ (shs : List Shape) (ss : List (State V)),
    Spec.HasShapes shs ss ↔ List.Forall₂ Spec.HasShape shs ss
  | [], [] => by simp [Spec.HasShapes]
  | [], _ :: _ => by simp [Spec.HasShapes]
  | _ :: _, [] => by simp [Spec.HasShapes]
  | sh :: shs, s :: ss => by simp [Spec.HasShapes, hasShapes_iff shs ss]

theorem sameStates_iff [Zero V] : ∀ (ss gs : List (State V)),
    Spec.SameStates ss gs ↔ List.Forall₂ Spec.SameState ss gs
  | [], [] => by simp [Spec.SameStates]
  | [], _ :: _ => by simp [Spec.SameStates]
  | _ :: _, [] => by simp [Spec.SameStates]
  | s :: ss, g :: gs => by simp [Spec.SameStates, sameStates_iff ss gs]

theorem allZeros_iff [Zero V] : ∀ ss : List (State V), Spec.AllZeros ss ↔ ∀ s ∈ ss, Spec.AllZero s
  | [] => by simp [Spec.AllZeros]
  | s :: ss => by simp [Spec.AllZeros, allZeros_iff ss]

theorem batchSizes_iff (n : Nat) : ∀ ss : List (Batched V),
    Spec.BatchSizes n ss ↔ ∀ s ∈ ss, Spec.BatchSize n s
  | [] => by simp [Spec.BatchSizes]
  | s :: ss => by simp [Spec.BatchSizes, batchSizes_iff n ss]

theorem depth_le_depthList : ∀ (ss : List (State V)), ∀ s ∈ ss, s.depth ≤ depthList ss
  | [], s, h => by simp at h
  | x :: ss, s, h => by
    unfold depthList
    rcases List.mem_cons.mp h with rfl | h
    · exact Nat.le_max_left _ _
    · exact Nat.le_trans (depth_le_depthList ss s h) (Nat.le_max_right _ _)

theorem getAtList_ok (i : Nat) : ∀ (bs : List (Batched V)) (gs : List (State V)),
    List.Forall₂ (fun b g => getAt i b = .ok g) bs gs → getAtList i bs = .ok gs
  | _, _, .nil => rfl
  | _, _, .cons h hs => by simp only [getAtList, h, getAtList_ok i _ _ hs]

theorem orZeros_tensor [Zero V] (s : State V) (h : Spec.HasShape .tensor s) :
    ∃ v, orZeros s = .ok v ∧ Spec.SameState s (.tensor v) := by
  cases s with
  | none => exact ⟨0, rfl, by simp [Spec.SameState, Spec.AllZero]⟩
  | tensor v => exact ⟨v, rfl, by simp [Spec.SameState]⟩
  | tuple ss => simp [Spec.HasShape] at h

theorem forall₂_getElem {α β : Type _} {R : α → β → Prop} {l : List α} {m : List β}
    (h : List.Forall₂ R l m) (i : Nat) (hi : i < l.length) :
    ∃ hi' : i < m.length, R l[i] m[i] := by
  have hl := h.length_eq
  exact ⟨by omega, (List.forall₂_iff_get.mp h).2 i hi (by omega)⟩

theorem component_ok (shs : List Shape) (s : State V) (h : Spec.HasShape (.tuple shs) s) (j : Nat)
    (hj : j < shs.length) : ∃ c, component j s = .ok c ∧ Spec.HasShape shs[j] c ∧
      (c.depth < s.depth ∨ c.isNone = true) ∧ (s.isNone = true → c = .none) ∧
      ∀ ss, s = .tuple ss → ss[j]? = some c := by
  cases s with
  | none => exact ⟨.none, rfl, by simp [Spec.HasShape], .inr rfl, fun _ => rfl, by simp⟩
  | tensor v => simp [Spec.HasShape] at h
  | tuple ss =>
    unfold Spec.HasShape at h
    rw [hasShapes_iff] at h
    obtain ⟨hj', hs⟩ := forall₂_getElem h j hj
    refine ⟨ss[j], ?_, hs, .inl ?_, ?_, ?_⟩
    · simp only [component, List.getElem?_eq_getElem hj']
    · have := depth_le_depthList ss ss[j] (List.getElem_mem hj')
      simp only [State.depth]
      omega
    · intro h; simp [State.isNone] at h
    · intro ss' he
      cases he
      exact List.getElem?_eq_getElem hj'

theorem concatFuel_spec [Zero V] : ∀ (fuel : Nat) (sh : Shape) (ss : List (State V)),
    (∀ s ∈ ss, s.depth < fuel) → (∀ s ∈ ss, Spec.HasShape sh s) → 0 < fuel →
    ∃ b, concatFuel fuel ss = .ok b ∧ Spec.BatchSize ss.length b ∧
      ∀ i (hi : i < ss.length), ∃ g, getAt i b = .ok g ∧ Spec.SameState ss[i] g := by
  intro fuel
  induction fuel with
  | zero => intro sh ss _ _ h; omega
  | succ fuel ih =>
    intro sh ss hd hsh _
    unfold concatFuel
    cases hf : ss.find? fun s => !s.isNone with
    | none =>
      refine ⟨.none, rfl, by simp [Spec.BatchSize], ?_⟩
      intro i hi
      refine ⟨.none, rfl, ?_⟩
      have := List.find?_eq_none.mp hf ss[i] (List.getElem_mem hi)
      cases hs : ss[i] with
      | none => simp [Spec.SameState, Spec.AllZero]
      | tensor v => rw [hs] at this; simp [State.isNone] at this
      | tuple ts => rw [hs] at this; simp [State.isNone] at this
    | some s0 =>
      have hmem := List.mem_of_find?_eq_some hf
      have hnn := List.find?_some hf
      have hs0 := hsh s0 hmem
      cases s0 with
      | none => simp [State.isNone] at hnn
      | tensor v0 =>
        have hte : sh = .tensor := by
          cases sh with
          | tensor => rfl
          | tuple shs => simp [Spec.HasShape] at hs0
        subst hte
        obtain ⟨vs, hvs, hr⟩ := mapE_ok orZeros (fun s v => Spec.SameState s (.tensor v)) ss
          fun s hs => orZeros_tensor s (hsh s hs)
        refine ⟨.tensor vs, ?_, ?_, ?_⟩
        · simp only [hvs]
        · simp only [Spec.BatchSize]
          exact hr.length_eq.symm
        · intro i hi
          obtain ⟨hi', hri⟩ := forall₂_getElem hr i hi
          refine ⟨.tensor vs[i], ?_, hri⟩
          simp only [getAt, List.getElem?_eq_getElem hi']
      | tuple ts =>
        obtain ⟨shs, rfl⟩ : ∃ shs, sh = .tuple shs := by
          cases sh with
          | tensor => simp [Spec.HasShape] at hs0
          | tuple shs => exact ⟨shs, rfl⟩
        have hts : shs.length = ts.length := by
          unfold Spec.HasShape at hs0
          rw [hasShapes_iff] at hs0
          exact hs0.length_eq
        have hfuel : 0 < fuel := by
          have := hd _ hmem
          simp only [State.depth] at this
          omega
        -- one component
        have hcomp : ∀ j ∈ List.range ts.length, ∃ b,
            concatComponent (concatFuel fuel) ss j = .ok b ∧
            (Spec.BatchSize ss.length b ∧ ∀ i (hi : i < ss.length), ∃ g c,
              component j ss[i] = .ok c ∧ getAt i b = .ok g ∧ Spec.SameState c g) := by
          intro j hj
          have hj : j < shs.length := by rw [hts]; exact List.mem_range.mp hj
          obtain ⟨col, hcol, hr⟩ := mapE_ok (component j)
            (fun s c => component j s = .ok c ∧ Spec.HasShape shs[j] c ∧
              (c.depth < s.depth ∨ c.isNone = true)) ss (by
                intro s hs
                obtain ⟨c, h1, h2, h3, _, _⟩ := component_ok shs s (hsh s hs) j hj
                exact ⟨c, h1, h1, h2, h3⟩)
          have hlen := hr.length_eq
          have hall : ∀ c ∈ col, ∃ s ∈ ss, component j s = .ok c ∧ Spec.HasShape shs[j] c ∧
              (c.depth < s.depth ∨ c.isNone = true) := by
            intro c hc
            obtain ⟨k, hk, rfl⟩ := List.getElem_of_mem hc
            obtain ⟨_, h⟩ := forall₂_getElem hr k (by omega)
            exact ⟨ss[k], List.getElem_mem _, h⟩
          obtain ⟨b, hb, hbs, hg⟩ := ih shs[j] col (by
              intro c hc
              obtain ⟨s, hs, _, _, h⟩ := hall c hc
              rcases h with h | h
              · have := hd s hs; omega
              · cases c with
                | none => simpa [State.depth] using hfuel
                | tensor v => simp [State.isNone] at h
                | tuple v => simp [State.isNone] at h)
            (fun c hc => by obtain ⟨_, _, _, h, _⟩ := hall c hc; exact h) hfuel
          refine ⟨b, ?_, ?_, ?_⟩
          · simp only [concatComponent, hcol, hb]
          · rw [hlen]; exact hbs
          · intro i hi
            obtain ⟨g, hg1, hg2⟩ := hg i (by omega)
            obtain ⟨_, hc, _⟩ := forall₂_getElem hr i hi
            exact ⟨g, col[i], hc, hg1, hg2⟩
        obtain ⟨bs, hbs, hr⟩ := mapE_ok _ _ (List.range ts.length) hcomp
        have hblen : bs.length = ts.length := by
          have := hr.length_eq
          rw [List.length_range] at this
          exact this.symm
        have hbj : ∀ j (hj : j < bs.length), Spec.BatchSize ss.length bs[j] ∧
            ∀ i (hi : i < ss.length), ∃ g c,
              component j ss[i] = .ok c ∧ getAt i bs[j] = .ok g ∧ Spec.SameState c g := by
          intro j hj
          obtain ⟨_, h⟩ := forall₂_getElem hr j (by rw [List.length_range]; omega)
          simpa using h
        refine ⟨.tuple bs, ?_, ?_, ?_⟩
        · simp only [hbs]
        · simp only [Spec.BatchSize]
          rw [batchSizes_iff]
          intro s hs
          obtain ⟨j, hj, rfl⟩ := List.getElem_of_mem hs
          exact (hbj j hj).1
        · intro i hi
          -- collect the components of environment `i`
          obtain ⟨gs, hgs, hgl⟩ : ∃ gs : List (State V),
              List.Forall₂ (fun b g => getAt i b = .ok g) bs gs ∧
              ∀ j (hj : j < gs.length), ∃ c, component j ss[i] = .ok c ∧ Spec.SameState c gs[j] := by
            choose G hG using fun (j : Fin bs.length) => (hbj j.1 j.2).2 i hi
            refine ⟨List.ofFn G, ?_, ?_⟩
            · rw [List.forall₂_iff_get]
              refine ⟨by simp, ?_⟩
              intro k h1 h2
              obtain ⟨c, _, h, _⟩ := hG ⟨k, h1⟩
              simpa using h
            · intro j hj
              have hj' : j < bs.length := by simpa using hj
              obtain ⟨c, h1, _, h2⟩ := hG ⟨j, hj'⟩
              exact ⟨c, h1, by simpa using h2⟩
          have hglen := hgs.length_eq
          refine ⟨.tuple gs, ?_, ?_⟩
          · simp only [getAt, getAtList_ok i bs gs hgs]
          · have hsi := hsh ss[i] (List.getElem_mem hi)
            cases hs : ss[i] with
            | none =>
              simp only [Spec.SameState, Spec.AllZero]
              rw [allZeros_iff]
              intro g hg
              obtain ⟨j, hj, rfl⟩ := List.getElem_of_mem hg
              obtain ⟨c, hc, hz⟩ := hgl j hj
              rw [hs] at hc
              have : c = .none := by
                simp only [component] at hc
                exact (Except.ok.inj hc).symm
              subst this
              simpa [Spec.SameState] using hz
            | tensor v => rw [hs] at hsi; simp [Spec.HasShape] at hsi
            | tuple us =>
              rw [hs] at hsi
              simp only [Spec.HasShape] at hsi
              rw [hasShapes_iff] at hsi
              simp only [Spec.SameState]
              rw [sameStates_iff, List.forall₂_iff_get]
              have hul := hsi.length_eq
              refine ⟨by omega, ?_⟩
              intro j h1 h2
              obtain ⟨c, hc, hz⟩ := hgl j h2
              rw [hs] at hc
              simp only [component, List.getElem?_eq_getElem h1] at hc
              have := Except.ok.inj hc
              subst this
              simpa using hz

theorem maskTensor_ok [MulZeroOneClass V] (indices : List Nat) (vs : List V)
    (h : ∀ j ∈ indices, j < vs.length) : maskTensor vs indices
      = .ok (vs.mapIdx fun j v => v * (if j ∈ indices then 0 else 1)) := by
  unfold maskTensor
  rw [if_pos]
  rw [List.all_eq_true]
  intro j hj
  simpa using h j hj

mutual
theorem mask_get [MulZeroOneClass V] (n : Nat) (indices : List Nat) (hi : ∀ j ∈ indices, j < n) :
    ∀ b : Batched V, Spec.BatchSize n b → ∃ b', maskAt indices b = .ok b' ∧
      Spec.BatchSize n b' ∧ ∀ i < n, ∃ g, getAt i b = .ok g ∧
        getAt i b' = .ok (if i ∈ indices then Spec.zeroed g else g)
  | .none, _ => ⟨.none, rfl, trivial, fun i _ => ⟨.none, rfl, by
      simp only [getAt, Spec.zeroed, ite_self]⟩⟩
  | .tensor vs, h => by
    simp only [Spec.BatchSize] at h
    subst h
    refine ⟨.tensor (vs.mapIdx fun j v => v * (if j ∈ indices then 0 else 1)), ?_, ?_, ?_⟩
    · simp only [maskAt, maskTensor_ok indices vs hi]
    · simp [Spec.BatchSize]
    · intro i hin
      refine ⟨.tensor vs[i], ?_, ?_⟩
      · simp only [getAt, List.getElem?_eq_getElem hin]
      · simp only [getAt, List.getElem?_mapIdx, List.getElem?_eq_getElem hin, Option.map_some]
        by_cases hm : i ∈ indices
        · rw [if_pos hm, if_pos hm, mul_zero]; rfl
        · rw [if_neg hm, if_neg hm, mul_one]
  | .tuple ss, h => by
    simp only [Spec.BatchSize] at h
    obtain ⟨ss', h1, h2, h3⟩ := mask_getList n indices hi ss h
    refine ⟨.tuple ss', ?_, ?_, ?_⟩
    · simp only [maskAt, h1]
    · simpa only [Spec.BatchSize] using h2
    · intro i hin
      obtain ⟨gs, hg, hg'⟩ := h3 i hin
      refine ⟨.tuple gs, ?_, ?_⟩
      · simp only [getAt, hg]
      · simp only [getAt, hg']
        by_cases hm : i ∈ indices
        · rw [if_pos hm, if_pos hm]; rfl
        · rw [if_neg hm, if_neg hm]
theorem mask_getList [MulZeroOneClass V] (n : Nat) (indices : List Nat)
    (hi : ∀ j ∈ indices, j < n) :
    ∀ bs : List (Batched V), Spec.BatchSizes n bs → ∃ bs', maskAtList indices bs = .ok bs' ∧
      Spec.BatchSizes n bs' ∧ ∀ i < n, ∃ gs, getAtList i bs = .ok gs ∧
        getAtList i bs' = .ok (if i ∈ indices then Spec.zeroedList gs else gs)
  | [], _ => ⟨[], rfl, trivial, fun i _ => ⟨[], rfl, by
      simp only [getAtList, Spec.zeroedList, ite_self]⟩⟩
  | b :: bs, h => by
    simp only [Spec.BatchSizes] at h
    obtain ⟨b', h1, h2, h3⟩ := mask_get n indices hi b h.1
    obtain ⟨bs', k1, k2, k3⟩ := mask_getList n indices hi bs h.2
    refine ⟨b' :: bs', ?_, ?_, ?_⟩
    · simp only [maskAtList, h1, k1]
    · exact ⟨h2, k2⟩
    · intro i hin
      obtain ⟨g, hg, hg'⟩ := h3 i hin
      obtain ⟨gs, kg, kg'⟩ := k3 i hin
      refine ⟨g :: gs, ?_, ?_⟩
      · simp only [getAtList, hg, kg]
      · simp only [getAtList, hg', kg']
        by_cases hm : i ∈ indices
        · simp only [if_pos hm]; rfl
        · simp only [if_neg hm]
end

/-! ## C34 -/

/-- **C34** (concatenate, then get).  Let a model have states of some form, and take any list of its
states, in which `None` may stand for a state or any part of one.  Concatenating them does not raise,
gives a batch of as many entries, and getting entry `i` gives back state `i`, `None` meaning zeros. -/
theorem concatenate_get_round_trip [Zero V] (sh : Shape) (ss : List (State V))
    (h : ∀ s ∈ ss, Spec.HasShape sh s) :
    ∃ b, concatenate ss = .ok b ∧ Spec.BatchSize ss.length b ∧
      ∀ i (hi : i < ss.length), ∃ g, getAt i b = .ok g ∧ Spec.SameState ss[i] g :=
  concatFuel_spec _ sh ss (fun s hs => by have := depth_le_depthList ss s hs; omega) h (by omega)

/-- **C34** (masking).  For every batched state with `n` entries and all indices below `n`: masking does
not raise, entry `i` of the result is zero in every tensor if `i` is an index, and unchanged if not. -/
theorem mask_zeroes_exactly [MulZeroOneClass V] (n : Nat) (b : Batched V) (h : Spec.BatchSize n b)
    (indices : List Nat) (hi : ∀ j ∈ indices, j < n) :
    ∃ b', maskAt indices b = .ok b' ∧ Spec.BatchSize n b' ∧ ∀ i < n, ∃ g, getAt i b = .ok g ∧
      getAt i b' = .ok (if i ∈ indices then Spec.zeroed g else g) :=
  mask_get n indices hi b h

/-- Concatenating, masking and getting: what an agent does between the steps of a batch of
environments. -/
theorem concatenate_mask_get [MulZeroOneClass V] (sh : Shape) (ss : List (State V))
    (h : ∀ s ∈ ss, Spec.HasShape sh s) (indices : List Nat) (hi : ∀ j ∈ indices, j < ss.length) :
    ∃ b b', concatenate ss = .ok b ∧ maskAt indices b = .ok b' ∧
      ∀ i (hin : i < ss.length), ∃ g, Spec.SameState ss[i] g ∧
        getAt i b' = .ok (if i ∈ indices then Spec.zeroed g else g) := by
  obtain ⟨b, hb, hn, hg⟩ := concatenate_get_round_trip sh ss h
  obtain ⟨b', hb', _, hg'⟩ := mask_zeroes_exactly ss.length b hn indices hi
  refine ⟨b, b', hb, hb', ?_⟩
  intro i hin
  obtain ⟨g, h1, h2⟩ := hg i hin
  obtain ⟨g', h1', h2'⟩ := hg' i hin
  rw [h1] at h1'
  cases h1'
  exact ⟨g, h2, h2'⟩

/-- An LSTM (pair of tensors) beside a GRU (tensor), three environments: the second has no state, the
third has no GRU state. -/
example : concatenate [State.tuple [.tuple [.tensor (1 : Int), .tensor 2], .tensor 3], .none,
      .tuple [.tuple [.tensor 4, .tensor 5], .none]]
    = .ok (.tuple [.tuple [.tensor [1, 0, 4], .tensor [2, 0, 5]], .tensor [3, 0, 0]]) := rfl

example : maskAt [0, 2] (Batched.tuple [.tuple [.tensor [(1 : Int), 7, 4], .none], .tensor [3, 8, 6]])
    = .ok (.tuple [.tuple [.tensor [0, 7, 0], .none], .tensor [0, 8, 0]]) := rfl

example : getAt 1 (Batched.tuple [.tensor [(1 : Int), 7, 4], .none])
    = .ok (.tuple [.tensor 7, .none]) := rfl

example : Spec.HasShape (.tuple [.tuple [.tensor, .tensor], .tensor])
    (State.tuple [.tuple [.tensor (4 : Int), .tensor 5], .none]) := by
  simp [Spec.HasShape, Spec.HasShapes]

end Pfrl.Recurrent
