import Verif.Nn.Networks
import Mathlib.Algebra.BigOperators.Fin
import Mathlib.Algebra.BigOperators.Field

/-!
# The dueling networks (C150)

The two dueling Q-functions as wholes, from a batch of images to action values: the convolutions of C109, the two streams, and the
broadcasts and reshapes that combine them.  Numbers are exact; the support `z_values`, which the
distributional network only hands on, is modelled for C107.
-/

namespace Pfrl.DuelingNet

open Networks

/-! ## Model -/

/-- `F.relu`. -/
noncomputable def relu (x : ℝ) : ℝ := max x 0

/-- The convolutions of both networks, `pfrl/q_functions/dueling_dqn.py:32-38` and `91-97`, with any weights.  All biases are
`bias`, lines 11-18, 44 and 104. -/
def convLayers (nIn : ℕ) (w1 w2 w3 : ℕ → ℕ → ℕ → ℕ → ℝ) (bias : ℝ) : List Conv :=
  [⟨nIn, 32, 8, 4, w1, fun _ => bias⟩, ⟨32, 64, 4, 2, w2, fun _ => bias⟩, ⟨64, 64, 3, 1, w3, fun _ => bias⟩]

/-- `DuelingDQN`, `pfrl/q_functions/dueling_dqn.py:20-44`. -/
structure DuelingDQN where
  nActions : ℕ
  act : ℝ → ℝ
  layers : List Conv
  aStream : MLP
  vStream : MLP

/-- `DuelingDQN.__init__`, `pfrl/q_functions/dueling_dqn.py:26-44`.  `drawsA` and `drawsV` are the standard normal draws for the streams. -/
noncomputable def DuelingDQN.init (nActions nIn : ℕ) (act : ℝ → ℝ) (bias : ℝ) (w1 w2 w3 : ℕ → ℕ → ℕ → ℕ → ℝ)
    (drawsA drawsV : ℕ → ℕ → ℕ → ℝ) : Except PyErr DuelingDQN :=
  match MLP.init 3136 nActions [512] relu 1 drawsA with
  | .error e => .error e
  | .ok a =>
    match MLP.init 3136 1 [512] relu 1 drawsV with
    | .error e => .error e
    | .ok v => .ok ⟨nActions, act, convLayers nIn w1 w2 w3 bias, a, v⟩

/-- `torch.broadcast_tensors(x, y)` along a dimension where they have these entries. -/
def broadcast {α : Type} (x y : List α) : Except PyErr (List α × List α) :=
  if x.length = y.length then .ok (x, y)
  else
    match x, y with
    | x, [b] => .ok (x, List.replicate x.length b)
    | [a], y => .ok (List.replicate y.length a, y)
    | _, _ => .error .runtimeError

/-- `torch.broadcast_tensors(x, y)` along dimension 1 and an operation on the results.  Simplification: along dimension 0 nothing is
broadcast, as both have one entry per element of the batch. -/
def combine {α : Type} (op : α → α → α) (xs ys : List (List α)) : Except PyErr (List (List α)) :=
  if xs.length = ys.length then
    eachRow (fun p => match broadcast p.1 p.2 with
      | .error e => .error e
      | .ok (x, y) => .ok (List.zipWith op x y)) (List.zip xs ys)
  else .error .runtimeError

/-- `DuelingDQN.forward`, `pfrl/q_functions/dueling_dqn.py:46-64`. -/
noncomputable def DuelingDQN.forward (m : DuelingDQN) (x : List Img) : Except PyErr Batch :=
  match thenDo (convForward m.act m.layers) flatRows x with
  | .error e => .error e
  | .ok h =>
    match m.aStream.forward h with
    | .error e => .error e
    | .ok ya =>
      match combine (· - ·) ya (ya.map fun r => [r.sum / m.nActions]) with
      | .error e => .error e
      | .ok ya =>
        match m.vStream.forward h with
        | .error e => .error e
        | .ok ys => combine (· + ·) ya ys

/-- `DistributionalDuelingDQN`, `pfrl/q_functions/dueling_dqn.py:67-104`. -/
structure DistributionalDuelingDQN where
  nActions : ℕ
  nAtoms : ℕ
  act : ℝ → ℝ
  layers : List Conv
  main : Linear
  aStream : Linear
  vStream : Linear

/-- `DistributionalDuelingDQN.__init__`, `pfrl/q_functions/dueling_dqn.py:70-104`, with any parameters of the linear layers. -/
noncomputable def DistributionalDuelingDQN.init (nActions nAtoms : ℕ) (vMin vMax : ℝ) (nIn : ℕ) (act : ℝ → ℝ) (bias : ℝ)
    (w1 w2 w3 : ℕ → ℕ → ℕ → ℕ → ℝ) (wm wa wv : ℕ → ℕ → ℝ) (bm ba bv : ℕ → ℝ) : Except PyErr DistributionalDuelingDQN :=
  if 2 ≤ nAtoms then
    if vMin < vMax then
      .ok ⟨nActions, nAtoms, act, convLayers nIn w1 w2 w3 bias, ⟨3136, 1024, wm, bm⟩, ⟨512, nActions * nAtoms, wa, ba⟩,
        ⟨512, nAtoms, wv, bv⟩⟩
    else .error .assertionError
  else .error .assertionError

/-- `x.reshape((batch_size, k, n))` of a batch: the numbers of the whole batch in order, cut. -/
def reshape3 (k n : ℕ) (x : Batch) : Except PyErr (List Batch) :=
  if x.flatten.length = x.length * (k * n) then .ok (unflatten x.length k (unflatten (x.length * k) n x.flatten))
  else .error .runtimeError

/-- `torch.chunk(h, 2, dim=1)` of one row: two parts, the first of half the entries, rounded up. -/
def chunk2 (r : Row) : Row × Row := (r.take ((r.length + 1) / 2), r.drop ((r.length + 1) / 2))

/-- `ya.sum(dim=1)` of one element of the batch, a row per action: the sum of each column. -/
noncomputable def colSums (n : ℕ) (rows : Batch) : Row := (List.range n).map fun k => (rows.map fun r => r.getD k 0).sum

/-- `F.softmax` of one row. -/
noncomputable def softmax (q : Row) : Row := q.map fun v => Real.exp v / (q.map Real.exp).sum

/-- `DistributionalDuelingDQN.forward`, `pfrl/q_functions/dueling_dqn.py:106-129`: for every image and action a distribution. -/
noncomputable def DistributionalDuelingDQN.forward (m : DistributionalDuelingDQN) (x : List Img) : Except PyErr (List Batch) :=
  match thenDo (thenDo (convForward m.act m.layers) flatRows) m.main.forward x with
  | .error e => .error e
  | .ok h =>
    match thenDo m.aStream.forward (reshape3 m.nActions m.nAtoms) (h.map fun r => (chunk2 (r.map m.act)).1) with
    | .error e => .error e
    | .ok ya =>
      match combine (List.zipWith (· - ·)) ya (ya.map fun rows => [(colSums m.nAtoms rows).map (· / (m.nActions : ℝ))]) with
      | .error e => .error e
      | .ok ya =>
        match thenDo m.vStream.forward (reshape3 1 m.nAtoms) (h.map fun r => (chunk2 (r.map m.act)).2) with
        | .error e => .error e
        | .ok ys =>
          match combine (List.zipWith (· + ·)) ya ys with
          | .error e => .error e
          | .ok q => .ok (q.map (List.map softmax))

/-! ## Specification -/

/-- What the convolutions make of one image. -/
noncomputable def Spec.features (act : ℝ → ℝ) : List Conv → Img → Row
  | [], i => i.flat
  | l :: ls, i => Spec.features act ls { Spec.conv l i with px := fun c y x => act ((Spec.conv l i).px c y x) }

/-- An image the networks are made for. -/
def Spec.Fits (nIn : ℕ) (x : Img) : Prop := x.c = nIn ∧ 84 ≤ x.h ∧ x.h ≤ 91

/-- Entry `k` of the softmax of `n` numbers. -/
noncomputable def Spec.softmax (n : ℕ) (l : ℕ → ℝ) (k : ℕ) : ℝ := Real.exp (l k) / ∑ j ∈ Finset.range n, Real.exp (l j)

/-! ## Lemmas -/

theorem features_ok (act : ℝ → ℝ) (out : Linear) : ∀ (ls : List Conv) (xs : List Img), xs ≠ [] →
    (∀ x ∈ xs, Networks.Spec.CnnFits out ls x.c x.h x.w) →
    thenDo (convForward act ls) flatRows xs = .ok (xs.map (Spec.features act ls)) ∧
      ∀ x ∈ xs, (Spec.features act ls x).length = out.nIn
  | [], xs, hne, h => by
    constructor
    · simp [thenDo, convForward, flatRows, hne]
      intro a _
      rfl
    · intro x hx
      simp only [Spec.features, flat_length]
      exact (h x hx).symm
  | l :: ls, xs, hne, h => by
    have h1 : eachRow l.apply xs = .ok (xs.map (Spec.conv l)) :=
      eachRow_ok fun x hx => conv_apply ⟨(h x hx).1, (h x hx).2.1, (h x hx).2.2.1⟩
    obtain ⟨i1, i2⟩ := features_ok act out ls ((xs.map (Spec.conv l)).map fun i => { i with px := fun c y x => act (i.px c y x) })
      (by simpa using hne) (by
      intro x hx
      obtain ⟨y, hy, rfl⟩ := List.mem_map.1 hx
      obtain ⟨z, hz, rfl⟩ := List.mem_map.1 hy
      exact (h z hz).2.2.2)
    constructor
    · unfold thenDo at i1 ⊢
      simp only [convForward, h1]
      refine i1.trans ?_
      simp [Spec.features]
    · intro x hx
      exact i2 _ (List.mem_map.2 ⟨_, List.mem_map.2 ⟨x, hx, rfl⟩, rfl⟩)

theorem features_bad (act : ℝ → ℝ) (out : Linear) : ∀ (ls : List Conv) (xs : List Img) (c h w : ℕ), xs ≠ [] →
    (∀ x ∈ xs, x.c = c ∧ x.h = h ∧ x.w = w) → ¬ Networks.Spec.CnnFits out ls c h w →
    thenDo (convForward act ls) flatRows xs = .error .runtimeError ∨
      ∃ b, thenDo (convForward act ls) flatRows xs = .ok b ∧ b ≠ [] ∧ ∀ r ∈ b, r.length ≠ out.nIn
  | [], xs, c, h, w, hne, hs, hf => by
    right
    refine ⟨xs.map Img.flat, by simp [thenDo, convForward, flatRows, hne], by simpa using hne, ?_⟩
    intro r hr
    obtain ⟨x, hx, rfl⟩ := List.mem_map.1 hr
    obtain ⟨rfl, rfl, rfl⟩ := hs x hx
    rw [flat_length]
    exact fun he => hf he.symm
  | l :: ls, xs, c, h, w, hne, hs, hf => by
    by_cases hc : c = l.cIn ∧ l.k ≤ h ∧ l.k ≤ w
    · have h1 : eachRow l.apply xs = .ok (xs.map (Spec.conv l)) := eachRow_ok fun x hx => conv_apply (by
        obtain ⟨rfl, rfl, rfl⟩ := hs x hx
        exact hc)
      have ih := features_bad act out ls ((xs.map (Spec.conv l)).map fun i => { i with px := fun c y x => act (i.px c y x) })
        l.cOut ((h - l.k) / l.stride + 1) ((w - l.k) / l.stride + 1) (by simpa using hne) (by
        intro x hx
        obtain ⟨y, hy, rfl⟩ := List.mem_map.1 hx
        obtain ⟨z, hz, rfl⟩ := List.mem_map.1 hy
        obtain ⟨-, rfl, rfl⟩ := hs z hz
        exact ⟨rfl, rfl, rfl⟩) (fun hf' => hf ⟨hc.1, hc.2.1, hc.2.2, hf'⟩)
      unfold thenDo at ih ⊢
      simp only [convForward, h1]
      exact ih
    · left
      have hbad : ∀ x ∈ xs, l.apply x = .error .runtimeError := by
        intro x hx
        obtain ⟨rfl, rfl, rfl⟩ := hs x hx
        simp only [Conv.apply, if_neg hc]
      obtain ⟨x, hx⟩ := List.exists_mem_of_ne_nil _ hne
      have : eachRow l.apply xs = .error .runtimeError := eachRow_error (fun x hx => .inl (hbad x hx)) ⟨x, hx, hbad x hx⟩
      simp only [thenDo, convForward, this]

theorem features_empty (act : ℝ → ℝ) : ∀ ls : List Conv, thenDo (convForward act ls) flatRows [] = .error .runtimeError
  | [] => rfl
  | l :: ls => by
    have ih := features_empty act ls
    unfold thenDo at ih ⊢
    exact ih

theorem linear_bad (l : Linear) (xs : Batch) (hx : ∃ x ∈ xs, x.length ≠ l.nIn) : l.forward xs = .error .runtimeError := by
  refine eachRow_error (fun x _ => ?_) ?_
  · by_cases hlen : x.length = l.nIn
    · exact .inr ⟨_, linear_row hlen⟩
    · exact .inl (by simp [Linear.row, hlen])
  · obtain ⟨x, hx1, hx2⟩ := hx
    exact ⟨x, hx1, by simp [Linear.row, hx2]⟩

theorem fits_iff (out : Linear) (ho : out.nIn = 3136) (nIn : ℕ) (w1 w2 w3 : ℕ → ℕ → ℕ → ℕ → ℝ) (bias : ℝ) (c h : ℕ) :
    Networks.Spec.CnnFits out (convLayers nIn w1 w2 w3 bias) c h h ↔ c = nIn ∧ 84 ≤ h ∧ h ≤ 91 := by
  have sq : ∀ a b : ℕ, a * a = b * b → a = b := fun a b h => Nat.mul_self_inj.1 h
  simp only [convLayers, Networks.Spec.CnnFits, ho, Nat.div_one]
  constructor
  · rintro ⟨h3, h4, -, -, h5, -, -, h6, -, h7⟩
    have := sq _ 7 (show (((h - 8) / 4 + 1 - 4) / 2 + 1 - 3 + 1) * (((h - 8) / 4 + 1 - 4) / 2 + 1 - 3 + 1) = 7 * 7 by omega)
    omega
  · rintro ⟨h3, h4, h5⟩
    have e : ((h - 8) / 4 + 1 - 4) / 2 + 1 - 3 + 1 = 7 := by omega
    rw [e]
    exact ⟨h3, by omega, by omega, trivial, by omega, by omega, trivial, by omega, by omega, by norm_num⟩

theorem combine_one {α β : Type} (op : α → α → α) (f : β → List α) (g : β → α) (xs : List β) (hf : ∀ x ∈ xs, f x ≠ []) :
    combine op (xs.map f) (xs.map fun x => [g x]) = .ok (xs.map fun x => (f x).map fun a => op a (g x)) := by
  unfold combine
  rw [if_pos (by simp)]
  have hz : List.zip (xs.map f) (xs.map fun x => [g x]) = xs.map fun x => (f x, [g x]) := by
    rw [List.zip_map']
  rw [hz]
  have : ∀ ys : List β, (∀ y ∈ ys, f y ≠ []) → eachRow (fun p : List α × List α => match broadcast p.1 p.2 with
      | .error e => .error e
      | .ok (x, y) => .ok (List.zipWith op x y)) (ys.map fun x => (f x, [g x]))
      = .ok (ys.map fun x => (f x).map fun a => op a (g x)) := by
    intro ys
    induction ys with
    | nil => intro _; rfl
    | cons y ys ih =>
      intro hy
      have hb : broadcast (f y) [g y] = .ok (f y, List.replicate (f y).length (g y)) := by
        unfold broadcast
        split
        · next hl =>
          have : (f y).length = 1 := hl
          simp [this]
        · rfl
      have hzw : List.zipWith op (f y) (List.replicate (f y).length (g y)) = (f y).map fun a => op a (g y) := by
        generalize f y = l
        induction l with
        | nil => rfl
        | cons a l ih => simp [List.replicate_succ, ih]
      simp only [List.map_cons, eachRow, hb, hzw, ih fun z hz => hy z (by simp [hz])]
  exact this xs hf

theorem getD_map_range {n : ℕ} {r : Row} (h : r.length = n) : (List.range n).map (fun k => r.getD k 0) = r := by
  subst h
  apply List.ext_getElem
  · simp
  · intro i h1 h2
    simp [List.getD_eq_getElem?_getD, List.getElem?_eq_getElem h2]

theorem row_sum {n : ℕ} {r : Row} (h : r.length = n) : r.sum = ∑ k ∈ Finset.range n, r.getD k 0 := by
  rw [← sum_list_range, getD_map_range h]

theorem reshape3_rows {β : Type} (k n : ℕ) (f : β → Row) (xs : List β) (h : ∀ x ∈ xs, (f x).length = k * n) :
    reshape3 k n (xs.map f) = .ok (xs.map fun x => (List.range k).map fun a => (List.range n).map fun j => (f x).getD (a * n + j) 0) := by
  have hlen : ∀ l ∈ xs.map f, l.length = k * n := by
    intro l hl
    obtain ⟨x, hx, rfl⟩ := List.mem_map.1 hl
    exact h x hx
  have hu : ∀ l : Row, l.length = k * n → unflatten k n l
      = (List.range k).map fun a => (List.range n).map fun j => l.getD (a * n + j) 0 := by
    intro l hl
    unfold unflatten
    apply List.map_congr_left
    intro a ha
    have ha := List.mem_range.1 ha
    have : (a + 1) * n ≤ k * n := Nat.mul_le_mul_right _ ha
    rw [Nat.succ_mul] at this
    apply List.ext_getElem
    · simp only [List.length_take, List.length_drop, List.length_map, List.length_range]
      omega
    · intro j h1 h2
      have hk : j < n := by simpa using h2
      simp only [List.getElem_take, List.getElem_drop, List.getElem_map, List.getElem_range]
      rw [List.getD_eq_getElem?_getD, List.getElem?_eq_getElem (by omega)]
      rfl
  unfold reshape3
  have hfl : (xs.map f).flatten.length = (xs.map f).length * (k * n) := by
    rw [List.length_flatten]
    generalize xs.map f = ls at hlen
    induction ls with
    | nil => simp
    | cons l ls ih =>
      rw [List.map_cons, List.sum_cons, hlen l (by simp), ih fun m hm => hlen m (by simp [hm]), List.length_cons]
      ring
  rw [if_pos hfl, unflatten_flatten_rows k n _ hlen]
  have h2 : unflatten (xs.map f).length k ((xs.map f).flatMap (unflatten k n)) = (xs.map f).map (unflatten k n) := by
    have := unflatten_flatten k ((xs.map f).map (unflatten k n)) (by
      intro l hl
      obtain ⟨r, _, rfl⟩ := List.mem_map.1 hl
      exact unflatten_length _ _ _)
    rw [List.length_map] at this
    exact this
  rw [h2, List.map_map]
  congr 1
  apply List.map_congr_left
  intro x hx
  exact hu _ (h x hx)

theorem affine_entry (l : Linear) {x : Row} {n : ℕ} (hx : x.length = n) {j : ℕ} (hj : j < l.nOut) :
    (Networks.Spec.affine l x).getD j 0 = ∑ i ∈ Finset.range n, l.w j i * x.getD i 0 + l.b j := by
  subst hx
  rw [Finset.sum_range]
  unfold Networks.Spec.affine
  rw [List.getD_eq_getElem?_getD, List.getElem?_eq_getElem (by simpa using hj)]
  simp only [List.getElem_ofFn, Option.getD_some]
  congr 1
  rw [← List.ofFn_eq_map, List.sum_ofFn]
  refine Finset.sum_congr rfl fun i _ => ?_
  rw [List.getD_eq_getElem?_getD, List.getElem?_eq_getElem i.2]
  rfl

theorem chunk2_eq {r : Row} (h : r.length = 1024) : chunk2 r = (r.take 512, r.drop 512) := by simp [chunk2, h]

theorem zipWith_range (op : ℝ → ℝ → ℝ) (n : ℕ) (f g : ℕ → ℝ) :
    List.zipWith op ((List.range n).map f) ((List.range n).map g) = (List.range n).map fun k => op (f k) (g k) := by
  apply List.ext_getElem
  · simp
  · intro i h1 h2
    simp

theorem colSums_range (nA n : ℕ) (l : ℕ → ℕ → ℝ) :
    colSums n ((List.range nA).map fun a => (List.range n).map fun k => l a k) = (List.range n).map fun k => ∑ a ∈ Finset.range nA, l a k := by
  unfold colSums
  apply List.map_congr_left
  intro k hk
  have hk := List.mem_range.1 hk
  rw [List.map_map, ← sum_list_range]
  congr 1
  apply List.map_congr_left
  intro a _
  simp [List.getD_eq_getElem?_getD, hk]

theorem softmax_range (n : ℕ) (l : ℕ → ℝ) : softmax ((List.range n).map l) = (List.range n).map (Spec.softmax n l) := by
  unfold softmax Spec.softmax
  simp only [List.map_map, ← sum_list_range]
  rfl

/-! ## C150 -/

/-- **C150 (dueling network).** For every number of actions the constructor succeeds, and the convolutions start with the given bias.
For every batch of images, the value of action `a` for an image is the advantage stream's output for `a`, minus the mean of this
stream's outputs over the actions, plus the output of the value stream, all for this image alone.  So the mean of the values of an
image is the output of the value stream. -/
theorem dueling_values (nActions nIn : ℕ) (hn : 0 < nActions) (act : ℝ → ℝ) (bias : ℝ) (w1 w2 w3 : ℕ → ℕ → ℕ → ℕ → ℝ)
    (drawsA drawsV : ℕ → ℕ → ℕ → ℝ) :
    ∃ m, DuelingDQN.init nActions nIn act bias w1 w2 w3 drawsA drawsV = .ok m ∧
      (∀ l ∈ m.layers, ∀ o, l.b o = bias) ∧
      ∃ A V : Img → Row,
        (∀ x, A x = Networks.Spec.mlp relu m.aStream.output m.aStream.hidden (Spec.features act m.layers x)) ∧
        (∀ x, V x = Networks.Spec.mlp relu m.vStream.output m.vStream.hidden (Spec.features act m.layers x)) ∧
        ∀ xs : List Img, xs ≠ [] → (∀ x ∈ xs, Spec.Fits nIn x ∧ x.h = x.w) →
          (∀ x ∈ xs, (A x).length = nActions ∧ (V x).length = 1) ∧
          m.forward xs = .ok (xs.map fun x => (List.range nActions).map fun a =>
            (A x).getD a 0 - (∑ i ∈ Finset.range nActions, (A x).getD i 0) / nActions + (V x).getD 0 0) ∧
          ∀ x ∈ xs, (∑ a ∈ Finset.range nActions,
            ((A x).getD a 0 - (∑ i ∈ Finset.range nActions, (A x).getD i 0) / nActions + (V x).getD 0 0)) / nActions
              = (V x).getD 0 0 := by
  obtain ⟨ma, a1, a2, a3, a4, a5⟩ := (mlp_init 3136 nActions [512] relu 1 drawsA).1 (by norm_num) (by simp)
  obtain ⟨mv, v1, v2, v3, v4, v5⟩ := (mlp_init 3136 1 [512] relu 1 drawsV).1 (by norm_num) (by simp)
  refine ⟨⟨nActions, act, convLayers nIn w1 w2 w3 bias, ma, mv⟩, by simp only [DuelingDQN.init, a1, v1], ?_, _, _, fun _ => rfl,
    fun _ => rfl, ?_⟩
  · intro l hl o
    simp only [convLayers, List.mem_cons, List.not_mem_nil, or_false] at hl
    rcases hl with rfl | rfl | rfl <;> rfl
  · intro xs hne hx
    obtain ⟨f1, f2⟩ := features_ok act ⟨3136, 0, fun _ _ => 0, fun _ => 0⟩ (convLayers nIn w1 w2 w3 bias) xs hne (by
      intro x hx'
      obtain ⟨h1, h2⟩ := hx x hx'
      rw [← h2]
      exact (fits_iff _ rfl _ _ _ _ _ _ _).2 h1)
    obtain ⟨ra1, ra2⟩ := mlp_rows ma a2
    obtain ⟨rv1, rv2⟩ := mlp_rows mv v2
    rw [a5] at ra1 ra2
    rw [v5] at rv1 rv2
    have hin : ∀ r ∈ xs.map (Spec.features act (convLayers nIn w1 w2 w3 bias)), r.length = 3136 := by
      intro r hr
      obtain ⟨x, hx', rfl⟩ := List.mem_map.1 hr
      exact f2 x hx'
    have hA : ∀ x ∈ xs, (Networks.Spec.mlp relu ma.output ma.hidden (Spec.features act (convLayers nIn w1 w2 w3 bias) x)).length = nActions :=
      fun x hx' => by rw [ra1 _ (f2 x hx'), a3]
    have hV : ∀ x ∈ xs, (Networks.Spec.mlp relu mv.output mv.hidden (Spec.features act (convLayers nIn w1 w2 w3 bias) x)).length = 1 :=
      fun x hx' => by rw [rv1 _ (f2 x hx'), v3]
    have hn' : (nActions : ℝ) ≠ 0 := by exact_mod_cast hn.ne'
    refine ⟨fun x hx' => ⟨hA x hx', hV x hx'⟩, ?_, ?_⟩
    · unfold DuelingDQN.forward
      simp only [f1, ra2 _ hin, rv2 _ hin, List.map_map]
      generalize hFA : (Networks.Spec.mlp relu ma.output ma.hidden ∘ Spec.features act (convLayers nIn w1 w2 w3 bias)) = FA
      generalize hFV : (Networks.Spec.mlp relu mv.output mv.hidden ∘ Spec.features act (convLayers nIn w1 w2 w3 bias)) = FV
      have hA' : ∀ x ∈ xs, (FA x).length = nActions := by subst hFA; exact hA
      have hV' : ∀ x ∈ xs, (FV x).length = 1 := by subst hFV; exact hV
      have c1 := combine_one (fun a b : ℝ => a - b) FA (fun x => (FA x).sum / nActions) xs (by
        intro x hx' h0
        have := hA' x hx'
        rw [h0] at this
        simp at this
        omega)
      have e1 : (xs.map ((fun r : Row => [r.sum / (nActions : ℝ)]) ∘ FA)) = xs.map fun x => [(FA x).sum / nActions] := rfl
      rw [e1, c1]
      have e2 : xs.map FV = xs.map fun x => [(FV x).getD 0 0] := by
        apply List.map_congr_left
        intro x hx'
        have := hV' x hx'
        match hh : FV x, this with
        | [a], _ => rfl
      rw [e2]
      have c2 := combine_one (fun a b : ℝ => a + b) (fun x => (FA x).map fun a => a - (FA x).sum / nActions) (fun x => (FV x).getD 0 0) xs (by
        intro x hx' h0
        have := hA' x hx'
        rw [List.map_eq_nil_iff.1 h0] at this
        simp at this
        omega)
      simp only
      rw [c2]
      congr 1
      apply List.map_congr_left
      intro x hx'
      have hfa : Networks.Spec.mlp relu ma.output ma.hidden (Spec.features act (convLayers nIn w1 w2 w3 bias) x) = FA x := by rw [← hFA]; rfl
      have hfv : Networks.Spec.mlp relu mv.output mv.hidden (Spec.features act (convLayers nIn w1 w2 w3 bias) x) = FV x := by rw [← hFV]; rfl
      rw [hfa, hfv, row_sum (hA' x hx'), List.map_map]
      conv_lhs => rw [← getD_map_range (hA' x hx')]
      rw [List.map_map]
      simp only [getD_map_range (hA' x hx')]
      rfl
    · intro x _
      rw [Finset.sum_add_distrib, Finset.sum_sub_distrib]
      simp only [Finset.sum_const, Finset.card_range, nsmul_eq_mul]
      field_simp
      ring

/-- **C150 (distributional dueling network).** The constructor demands two atoms and a range of values.  Then, for every batch of images,
the distribution of action `a` for an image is the softmax over the atoms of the advantage stream's outputs for `a`, minus their mean
over the actions, plus the outputs of the value stream.  The advantage stream reads the first half of the 1024 units after the
convolutions and the value stream the second.  The results are probability distributions. -/
theorem distributional_dueling (nActions nAtoms nIn : ℕ) (vMin vMax : ℝ) (hn : 0 < nActions) (act : ℝ → ℝ) (bias : ℝ)
    (w1 w2 w3 : ℕ → ℕ → ℕ → ℕ → ℝ) (wm wa wv : ℕ → ℕ → ℝ) (bm ba bv : ℕ → ℝ) :
    (¬ (2 ≤ nAtoms ∧ vMin < vMax) → DistributionalDuelingDQN.init nActions nAtoms vMin vMax nIn act bias w1 w2 w3 wm wa wv bm ba bv
      = .error .assertionError) ∧
    (2 ≤ nAtoms → vMin < vMax → ∃ m, DistributionalDuelingDQN.init nActions nAtoms vMin vMax nIn act bias w1 w2 w3 wm wa wv bm ba bv
        = .ok m ∧ (∀ l ∈ m.layers, ∀ o, l.b o = bias) ∧
      ∃ (H : Img → Row) (A : Img → ℕ → ℕ → ℝ) (V : Img → ℕ → ℝ) (l : Img → ℕ → ℕ → ℝ),
        (∀ x, H x = (Networks.Spec.affine ⟨3136, 1024, wm, bm⟩ (Spec.features act m.layers x)).map act) ∧
        (∀ x a k, A x a k = ∑ i ∈ Finset.range 512, wa (a * nAtoms + k) i * (H x).getD i 0 + ba (a * nAtoms + k)) ∧
        (∀ x k, V x k = ∑ i ∈ Finset.range 512, wv k i * (H x).getD (512 + i) 0 + bv k) ∧
        (∀ x a k, l x a k = A x a k - (∑ i ∈ Finset.range nActions, A x i k) / nActions + V x k) ∧
        ∀ xs : List Img, xs ≠ [] → (∀ x ∈ xs, Spec.Fits nIn x ∧ x.h = x.w) →
          m.forward xs = .ok (xs.map fun x => (List.range nActions).map fun a => (List.range nAtoms).map (Spec.softmax nAtoms (l x a))) ∧
          ∀ x a, (∀ k, 0 < Spec.softmax nAtoms (l x a) k) ∧ ∑ k ∈ Finset.range nAtoms, Spec.softmax nAtoms (l x a) k = 1) := by
  constructor
  · intro h
    unfold DistributionalDuelingDQN.init
    by_cases h1 : 2 ≤ nAtoms
    · rw [if_pos h1, if_neg fun h2 => h ⟨h1, h2⟩]
    · rw [if_neg h1]
  intro h1 h2
  refine ⟨⟨nActions, nAtoms, act, convLayers nIn w1 w2 w3 bias, ⟨3136, 1024, wm, bm⟩, ⟨512, nActions * nAtoms, wa, ba⟩,
        ⟨512, nAtoms, wv, bv⟩⟩, by simp only [DistributionalDuelingDQN.init, if_pos h1, if_pos h2], ?_, _, _, _, _, fun _ => rfl,
        fun _ _ _ => rfl, fun _ _ => rfl, fun _ _ _ => rfl, ?_⟩
  · intro l hl o
    simp only [convLayers, List.mem_cons, List.not_mem_nil, or_false] at hl
    rcases hl with rfl | rfl | rfl <;> rfl
  intro xs hne hx
  obtain ⟨f1, f2⟩ := features_ok act ⟨3136, 1024, wm, bm⟩ (convLayers nIn w1 w2 w3 bias) xs hne (by
    intro x hx'
    obtain ⟨h1, h2⟩ := hx x hx'
    rw [← h2]
    exact (fits_iff _ rfl _ _ _ _ _ _ _).2 h1)
  constructor
  · generalize hFe : Spec.features act (convLayers nIn w1 w2 w3 bias) = Fe at f1 f2
    have hH : ∀ x, ((Networks.Spec.affine ⟨3136, 1024, wm, bm⟩ (Fe x)).map act).length = 1024 := by
      intro x
      rw [List.length_map, affine_length]
    have m1 := (linear_rows ⟨3136, 1024, wm, bm⟩).2 (xs.map Fe) (by
      intro r hr
      obtain ⟨x, hx', rfl⟩ := List.mem_map.1 hr
      exact f2 x hx')
    unfold DistributionalDuelingDQN.forward
    simp only [thenDo] at f1 ⊢
    rw [f1]
    simp only [m1, List.map_map]
    generalize hHH : (fun x => (Networks.Spec.affine ⟨3136, 1024, wm, bm⟩ (Fe x)).map act) = HH at hH
    have hHx : ∀ x, (Networks.Spec.affine ⟨3136, 1024, wm, bm⟩ (Fe x)).map act = HH x := fun x => by rw [← hHH]
    have hH : ∀ x, (HH x).length = 1024 := fun x => by rw [← hHx]; exact hH x
    have ea : xs.map ((fun r => (chunk2 (r.map act)).1) ∘ Networks.Spec.affine ⟨3136, 1024, wm, bm⟩ ∘ Fe) = xs.map fun x => (HH x).take 512 := by
      apply List.map_congr_left
      intro x _
      simp only [Function.comp, hHx, chunk2_eq (hH x)]
    have ev : xs.map ((fun r => (chunk2 (r.map act)).2) ∘ Networks.Spec.affine ⟨3136, 1024, wm, bm⟩ ∘ Fe) = xs.map fun x => (HH x).drop 512 := by
      apply List.map_congr_left
      intro x _
      simp only [Function.comp, hHx, chunk2_eq (hH x)]
    rw [ea, ev]
    have a1 := (linear_rows ⟨512, nActions * nAtoms, wa, ba⟩).2 (xs.map fun x => (HH x).take 512) (by
      intro r hr
      obtain ⟨x, hx', rfl⟩ := List.mem_map.1 hr
      simp [hH])
    have v1 := (linear_rows ⟨512, nAtoms, wv, bv⟩).2 (xs.map fun x => (HH x).drop 512) (by
      intro r hr
      obtain ⟨x, hx', rfl⟩ := List.mem_map.1 hr
      simp [hH])
    rw [List.map_map] at a1 v1
    have r1 := reshape3_rows nActions nAtoms (Networks.Spec.affine ⟨512, nActions * nAtoms, wa, ba⟩ ∘ fun x => (HH x).take 512) xs
      (fun x _ => affine_length _ _)
    have r2 := reshape3_rows 1 nAtoms (Networks.Spec.affine ⟨512, nAtoms, wv, bv⟩ ∘ fun x => (HH x).drop 512) xs
      (fun x _ => by rw [Nat.one_mul]; exact affine_length _ _)
    have hA : ∀ x, ∀ a < nActions, ∀ k < nAtoms,
        (Networks.Spec.affine ⟨512, nActions * nAtoms, wa, ba⟩ ((HH x).take 512)).getD (a * nAtoms + k) 0
        = ∑ i ∈ Finset.range 512, wa (a * nAtoms + k) i * (HH x).getD i 0 + ba (a * nAtoms + k) := by
      intro x a ha k hk
      have hlt : a * nAtoms + k < nActions * nAtoms := by
        have : (a + 1) * nAtoms ≤ nActions * nAtoms := Nat.mul_le_mul_right _ ha
        rw [Nat.succ_mul] at this
        omega
      rw [affine_entry _ (n := 512) (by simp [hH]) hlt]
      refine congrArg (· + ba (a * nAtoms + k)) (Finset.sum_congr rfl fun i hi => ?_)
      have hi := Finset.mem_range.1 hi
      simp [List.getD_eq_getElem?_getD, hi]
    have hV : ∀ x, ∀ k < nAtoms, (Networks.Spec.affine ⟨512, nAtoms, wv, bv⟩ ((HH x).drop 512)).getD k 0
        = ∑ i ∈ Finset.range 512, wv k i * (HH x).getD (512 + i) 0 + bv k := by
      intro x k hk
      rw [affine_entry _ (n := 512) (by simp [hH]) hk]
      refine congrArg (· + bv k) (Finset.sum_congr rfl fun i _ => ?_)
      simp [List.getD_eq_getElem?_getD, List.getElem?_drop]
    have r1' : reshape3 nActions nAtoms (xs.map (Networks.Spec.affine ⟨512, nActions * nAtoms, wa, ba⟩ ∘ fun x => (HH x).take 512))
        = .ok (xs.map fun x => (List.range nActions).map fun a => (List.range nAtoms).map fun k =>
          ∑ i ∈ Finset.range 512, wa (a * nAtoms + k) i * (HH x).getD i 0 + ba (a * nAtoms + k)) := by
      rw [r1]
      congr 1
      apply List.map_congr_left
      intro x _
      apply List.map_congr_left
      intro a ha
      apply List.map_congr_left
      intro k hk
      exact hA x a (List.mem_range.1 ha) k (List.mem_range.1 hk)
    have r2' : reshape3 1 nAtoms (xs.map (Networks.Spec.affine ⟨512, nAtoms, wv, bv⟩ ∘ fun x => (HH x).drop 512))
        = .ok (xs.map fun x => [(List.range nAtoms).map fun k =>
          ∑ i ∈ Finset.range 512, wv k i * (HH x).getD (512 + i) 0 + bv k]) := by
      rw [r2]
      congr 1
      apply List.map_congr_left
      intro x _
      simp only [List.range_one, List.map_cons, List.map_nil, Nat.zero_mul, Nat.zero_add]
      congr 1
      apply List.map_congr_left
      intro k hk
      exact hV x k (List.mem_range.1 hk)
    simp only [a1, v1, r1', r2', List.map_map, hHx]
    have c1 := combine_one (List.zipWith fun a b : ℝ => a - b) (fun x => (List.range nActions).map fun a => (List.range nAtoms).map fun k =>
          ∑ i ∈ Finset.range 512, wa (a * nAtoms + k) i * (HH x).getD i 0 + ba (a * nAtoms + k))
      (fun x => (List.range nAtoms).map fun k => (∑ a ∈ Finset.range nActions,
        (∑ i ∈ Finset.range 512, wa (a * nAtoms + k) i * (HH x).getD i 0 + ba (a * nAtoms + k))) / (nActions : ℝ)) xs (by
        intro x _ h0
        have := congrArg List.length h0
        simp at this
        omega)
    have e1 : xs.map ((fun rows => [(colSums nAtoms rows).map (· / (nActions : ℝ))]) ∘ fun x =>
        (List.range nActions).map fun a => (List.range nAtoms).map fun k =>
          ∑ i ∈ Finset.range 512, wa (a * nAtoms + k) i * (HH x).getD i 0 + ba (a * nAtoms + k))
        = xs.map fun x => [(List.range nAtoms).map fun k => (∑ a ∈ Finset.range nActions,
        (∑ i ∈ Finset.range 512, wa (a * nAtoms + k) i * (HH x).getD i 0 + ba (a * nAtoms + k))) / (nActions : ℝ)] := by
      apply List.map_congr_left
      intro x _
      simp only [Function.comp, colSums_range, List.map_map]
      rfl
    rw [e1, c1]
    simp only [List.map_map, Function.comp_def, zipWith_range]
    rw [combine_one (List.zipWith fun a b : ℝ => a + b) (fun x => (List.range nActions).map fun a => (List.range nAtoms).map fun k =>
        (∑ i ∈ Finset.range 512, wa (a * nAtoms + k) i * (HH x).getD i 0 + ba (a * nAtoms + k)) - (∑ a ∈ Finset.range nActions,
        (∑ i ∈ Finset.range 512, wa (a * nAtoms + k) i * (HH x).getD i 0 + ba (a * nAtoms + k))) / (nActions : ℝ))
      (fun x => (List.range nAtoms).map fun k => ∑ i ∈ Finset.range 512, wv k i * (HH x).getD (512 + i) 0 + bv k) xs (by
        intro x _ h0
        have := congrArg List.length h0
        simp at this
        omega)]
    simp only [List.map_map, Function.comp_def, zipWith_range, softmax_range]
  · intro x a
    have hpos : ∀ l : ℕ → ℝ, 0 < ∑ j ∈ Finset.range nAtoms, Real.exp (l j) := fun l =>
      Finset.sum_pos (fun _ _ => Real.exp_pos _) ⟨0, Finset.mem_range.2 (by omega)⟩
    refine ⟨fun k => div_pos (Real.exp_pos _) (hpos _), ?_⟩
    unfold Spec.softmax
    rw [← Finset.sum_div]
    exact div_self (hpos _).ne'

/-- **C150 (wrong images).** Both networks raise for an empty batch, and for a batch of square images with another number of channels,
or with sides below 84 or above 91. -/
theorem dueling_raises (m : DuelingDQN) (d : DistributionalDuelingDQN) (nIn : ℕ) (w1 w2 w3 : ℕ → ℕ → ℕ → ℕ → ℝ) (bias : ℝ)
    (hm : m.layers = convLayers nIn w1 w2 w3 bias) (hd : d.layers = convLayers nIn w1 w2 w3 bias)
    (hma : Networks.Spec.Fits m.aStream.output 3136 m.aStream.hidden) (hdm : d.main.nIn = 3136) :
    m.forward [] = .error .runtimeError ∧ d.forward [] = .error .runtimeError ∧
    ∀ (xs : List Img) (c h : ℕ), xs ≠ [] → (∀ x ∈ xs, x.c = c ∧ x.h = h ∧ x.w = h) → ¬ (c = nIn ∧ 84 ≤ h ∧ h ≤ 91) →
      m.forward xs = .error .runtimeError ∧ d.forward xs = .error .runtimeError := by
  refine ⟨?_, ?_, ?_⟩
  · simp only [DuelingDQN.forward, features_empty]
  · have := features_empty d.act d.layers
    unfold DistributionalDuelingDQN.forward
    rw [thenDo, this]
  · intro xs c h hne hs hbad
    have hf : ¬ Networks.Spec.CnnFits ⟨3136, 0, fun _ _ => 0, fun _ => 0⟩ (convLayers nIn w1 w2 w3 bias) c h h :=
      fun hf => hbad ((fits_iff _ rfl _ _ _ _ _ _ _).1 hf)
    constructor
    · unfold DuelingDQN.forward
      rw [hm]
      rcases features_bad m.act _ _ xs c h h hne hs hf with he | ⟨b, hb, hb1, hb2⟩
      · rw [he]
      · obtain ⟨r, hr⟩ := List.exists_mem_of_ne_nil _ hb1
        rw [hb]
        simp only [mlp_wrong_size m.aStream hma b ⟨r, hr, hb2 r hr⟩]
    · unfold DistributionalDuelingDQN.forward
      rw [hd]
      rcases features_bad d.act _ _ xs c h h hne hs hf with he | ⟨b, hb, hb1, hb2⟩
      · rw [thenDo, he]
      · obtain ⟨r, hr⟩ := List.exists_mem_of_ne_nil _ hb1
        rw [thenDo, hb]
        simp only [linear_bad d.main b ⟨r, hr, by rw [hdm]; exact hb2 r hr⟩]

/-! ## Non-vacuity -/

/-- Two images of the size `wrap_deepmind` produces are a batch as the theorems demand, and one of side 92 is not. -/
example (px py : ℕ → ℕ → ℕ → ℝ) : (∀ x ∈ [(⟨4, 84, 84, px⟩ : Img), ⟨4, 84, 84, py⟩], Spec.Fits 4 x ∧ x.h = x.w) ∧
    ¬ (4 = 4 ∧ 84 ≤ 92 ∧ 92 ≤ 91) := by
  simp [Spec.Fits]

/-- A network with three actions has values for two images. -/
example (px py : ℕ → ℕ → ℕ → ℝ) (w1 w2 w3 : ℕ → ℕ → ℕ → ℕ → ℝ) (da dv : ℕ → ℕ → ℕ → ℝ) :
    ∃ m q r, DuelingDQN.init 3 4 relu (1 / 10) w1 w2 w3 da dv = .ok m ∧ m.forward [⟨4, 84, 84, px⟩, ⟨4, 84, 84, py⟩] = .ok [q, r] ∧
      q.length = 3 := by
  obtain ⟨m, h1, -, A, V, -, -, h2⟩ := dueling_values 3 4 (by norm_num) relu (1 / 10) w1 w2 w3 da dv
  exact ⟨m, _, _, h1, (h2 [⟨4, 84, 84, px⟩, ⟨4, 84, 84, py⟩] (by simp) (by simp [Spec.Fits])).2.1, by simp⟩

/-- The networks of `dueling_raises` exist. -/
example (w1 w2 w3 : ℕ → ℕ → ℕ → ℕ → ℝ) (da dv : ℕ → ℕ → ℕ → ℝ) (x : Img) (hx : x.c = 4 ∧ x.h = 92 ∧ x.w = 92) :
    ∃ m, DuelingDQN.init 3 4 relu (1 / 10) w1 w2 w3 da dv = .ok m ∧ m.forward [x] = .error .runtimeError := by
  obtain ⟨ma, a1, a2, a3, a4, a5⟩ := (mlp_init 3136 3 [512] relu 1 da).1 (by norm_num) (by simp)
  obtain ⟨mv, v1, v2, v3, v4, v5⟩ := (mlp_init 3136 1 [512] relu 1 dv).1 (by norm_num) (by simp)
  refine ⟨⟨3, relu, convLayers 4 w1 w2 w3 (1 / 10), ma, mv⟩, by simp only [DuelingDQN.init, a1, v1], ?_⟩
  exact ((dueling_raises _ ⟨3, 2, relu, convLayers 4 w1 w2 w3 (1 / 10), ⟨3136, 1024, fun _ _ => 0, fun _ => 0⟩,
    ⟨512, 6, fun _ _ => 0, fun _ => 0⟩, ⟨512, 2, fun _ _ => 0, fun _ => 0⟩⟩ 4 w1 w2 w3 (1 / 10) rfl rfl a2 rfl).2.2 [x] 4 92
    (by simp) (by simpa using hx) (by norm_num)).1

end Pfrl.DuelingNet
