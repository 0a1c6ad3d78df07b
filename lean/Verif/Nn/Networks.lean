import Verif.Basic
import Mathlib.Algebra.BigOperators.Group.List.Basic
import Mathlib.Data.List.GetD
import Mathlib.Analysis.SpecialFunctions.Pow.Real
import Mathlib.Analysis.SpecialFunctions.Trigonometric.Basic
import Mathlib.Tactic.Linarith
import Mathlib.Tactic.NormNum

/-!
# The networks pfrl provides (C109)

A two-dimensional tensor is a list of rows.  Numbers are exact.  Nonlinearities are elementwise, as the documentation of the
networks demands.  A module of PyTorch (`Linear`, `Conv2d`, `BatchNorm1d`) is modelled by what it documents.
-/

namespace Pfrl.Networks

abbrev Row := List ℝ

abbrev Batch := List Row

/-! ## Model -/

/-- `torch.nn.Linear`. -/
structure Linear where
  nIn : ℕ
  nOut : ℕ
  w : ℕ → ℕ → ℝ
  b : ℕ → ℝ

/-- Applying a function to every row, stopping at the first error. -/
def eachRow {α β : Type} (f : α → Except PyErr β) : List α → Except PyErr (List β)
  | [] => .ok []
  | x :: xs =>
    match f x with
    | .error e => .error e
    | .ok y =>
      match eachRow f xs with
      | .error e => .error e
      | .ok ys => .ok (y :: ys)

/-- `Linear.forward` on one row; a row of another length does not fit. -/
noncomputable def Linear.row (l : Linear) (x : Row) : Except PyErr Row :=
  if x.length = l.nIn then
    .ok ((List.range l.nOut).map fun j => ((List.range l.nIn).map fun i => l.w j i * x.getD i 0).sum + l.b j)
  else .error .runtimeError

/-- `Linear.forward` on a batch. -/
noncomputable def Linear.forward (l : Linear) (xs : Batch) : Except PyErr Batch := eachRow l.row xs

/-- `pfrl/nn/mlp.py:7-29`: a perceptron, with any parameters. -/
structure MLP where
  hidden : List Linear
  output : Linear
  act : ℝ → ℝ

/-- The loop of `MLP.forward`, `pfrl/nn/mlp.py:33-35`. -/
noncomputable def hiddenForward (act : ℝ → ℝ) : List Linear → Batch → Except PyErr Batch
  | [], h => .ok h
  | l :: ls, h =>
    match l.forward h with
    | .error e => .error e
    | .ok h => hiddenForward act ls (h.map (List.map act))

/-- `MLP.forward`, `pfrl/nn/mlp.py:31-36`. -/
noncomputable def MLP.forward (m : MLP) (x : Batch) : Except PyErr Batch :=
  match hiddenForward m.act m.hidden x with
  | .error e => .error e
  | .ok h => m.output.forward h

/-- The sizes `MLP.__init__` gives to the hidden layers, `pfrl/nn/mlp.py:18-22`. -/
def hiddenSizes : ℕ → List ℕ → List (ℕ × ℕ)
  | _, [] => []
  | nIn, h :: hs => (nIn, h) :: hiddenSizes h hs

/-- `init_lecun_normal`, `pfrl/initializers/lecun_normal.py:5-10`: standard normal draws times the standard deviation.
`1.0 / fan_in` raises without inputs. -/
noncomputable def initLecunNormal (scale : ℝ) (fanIn : ℕ) (draws : ℕ → ℕ → ℝ) : Except PyErr (ℕ → ℕ → ℝ) :=
  if fanIn = 0 then .error .zeroDivision else .ok fun j i => scale * √(1 / fanIn) * draws j i

/-- The hidden layers made by `MLP.__init__`, with `init_chainer_default`, `pfrl/initializers/chainer_default.py:9-21`.
`draws` are the standard normal draws of each layer. -/
noncomputable def initHidden : List (ℕ × ℕ) → (ℕ → ℕ → ℕ → ℝ) → Except PyErr (List Linear)
  | [], _ => .ok []
  | (nIn, nOut) :: sizes, draws =>
    match initLecunNormal 1 nIn (draws 0) with
    | .error e => .error e
    | .ok w =>
      match initHidden sizes fun k => draws (k + 1) with
      | .error e => .error e
      | .ok ls => .ok (⟨nIn, nOut, w, fun _ => 0⟩ :: ls)

/-- `MLP.__init__`, `pfrl/nn/mlp.py:10-29`. -/
noncomputable def MLP.init (inSize outSize : ℕ) (hiddenSizes' : List ℕ) (act : ℝ → ℝ) (lastWscale : ℝ) (draws : ℕ → ℕ → ℕ → ℝ) :
    Except PyErr MLP :=
  match initHidden (hiddenSizes inSize hiddenSizes') draws with
  | .error e => .error e
  | .ok ls =>
    match initLecunNormal lastWscale (hiddenSizes'.getLastD inSize) (draws hiddenSizes'.length) with
    | .error e => .error e
    | .ok w => .ok ⟨ls, ⟨hiddenSizes'.getLastD inSize, outSize, w, fun _ => 0⟩, act⟩

/-- `torch.cat((xs, ys), dim=1)` of two batches. -/
def catRows (xs ys : Batch) : Except PyErr Batch :=
  if xs.length = ys.length then .ok (List.zipWith (· ++ ·) xs ys) else .error .runtimeError

/-- `FCSAQFunction.forward`, `pfrl/q_functions/state_action_q_functions.py:63-65`. -/
noncomputable def fcsa (m : MLP) (state action : Batch) : Except PyErr Batch :=
  match catRows state action with
  | .error e => .error e
  | .ok h => m.forward h

/-- `FCLateActionSAQFunction.forward`, `pfrl/q_functions/state_action_q_functions.py:285-288`. -/
noncomputable def lateAction (act : ℝ → ℝ) (obsMlp mlp : MLP) (state action : Batch) : Except PyErr Batch :=
  match obsMlp.forward state with
  | .error e => .error e
  | .ok h =>
    match catRows (h.map (List.map act)) action with
    | .error e => .error e
    | .ok h => mlp.forward h

/-! ### Batch normalisation -/

/-- The state of `torch.nn.BatchNorm1d`. -/
structure BatchNorm where
  size : ℕ
  gamma : ℕ → ℝ
  beta : ℕ → ℝ
  mean : ℕ → ℝ
  var : ℕ → ℝ
  eps : ℝ

/-- The mean of column `j` of a batch. -/
noncomputable def colMean (xs : Batch) (j : ℕ) : ℝ := (xs.map fun x => x.getD j 0).sum / xs.length

/-- The mean squared deviation of column `j` of a batch. -/
noncomputable def colVar (xs : Batch) (j : ℕ) : ℝ := (xs.map fun x => (x.getD j 0 - colMean xs j) ^ 2).sum / xs.length

/-- Normalising a row with these statistics. -/
noncomputable def BatchNorm.row (n : BatchNorm) (mean var : ℕ → ℝ) (x : Row) : Except PyErr Row :=
  if x.length = n.size then
    .ok ((List.range n.size).map fun j => (x.getD j 0 - mean j) / √(var j + n.eps) * n.gamma j + n.beta j)
  else .error .runtimeError

/-- `BatchNorm1d.forward`.  In training mode the statistics are those of the batch, which must have more than one row (the running
statistics it also updates are not modelled: they are not used in training mode). -/
noncomputable def BatchNorm.forward (n : BatchNorm) (training : Bool) (xs : Batch) : Except PyErr Batch :=
  if training then
    if xs.length ≤ 1 then .error .valueError else eachRow (n.row (colMean xs) (colVar xs)) xs
  else eachRow (n.row n.mean n.var) xs

/-- `pfrl/nn/mlp_bn.py:19-69`. -/
structure MLPBN where
  inputBn : Option BatchNorm
  hidden : List (Linear × BatchNorm)
  output : Linear
  outputBn : Option BatchNorm
  act : ℝ → ℝ

/-- Sequencing two network parts. -/
def thenDo {α β γ : Type} (f : α → Except PyErr β) (g : β → Except PyErr γ) (x : α) : Except PyErr γ :=
  match f x with
  | .error e => .error e
  | .ok y => g y

/-- An optional normalisation, `pfrl/nn/mlp_bn.py:73-74` and `79-80`. -/
noncomputable def optBn (training : Bool) : Option BatchNorm → Batch → Except PyErr Batch
  | none, x => .ok x
  | some n, x => n.forward training x

/-- The loop of `MLPBN.forward`, `pfrl/nn/mlp_bn.py:75-77`, with `LinearBN.forward`, lines 15-16. -/
noncomputable def hiddenBnForward (act : ℝ → ℝ) (training : Bool) : List (Linear × BatchNorm) → Batch → Except PyErr Batch
  | [], h => .ok h
  | (l, n) :: ls, h =>
    match thenDo l.forward (n.forward training) h with
    | .error e => .error e
    | .ok h => hiddenBnForward act training ls (h.map (List.map act))

/-- `MLPBN.forward`, `pfrl/nn/mlp_bn.py:71-81`. -/
noncomputable def MLPBN.forward (m : MLPBN) (training : Bool) : Batch → Except PyErr Batch :=
  thenDo (optBn training m.inputBn) (thenDo (hiddenBnForward m.act training m.hidden)
    (thenDo m.output.forward (optBn training m.outputBn)))

/-! ### Reshaping networks -/

/-- `x.reshape(k, n, …)` of a tensor whose leading dimension has `k * n` entries. -/
def unflatten {α : Type} (k n : ℕ) (l : List α) : List (List α) := (List.range k).map fun i => (l.drop (i * n)).take n

/-- The model of `DistributionalFCStateQFunctionWithDiscreteAction`, `pfrl/q_functions/state_q_functions.py:129-140`: the numbers of
the whole batch, reshaped to `(-1, n_actions, n_atoms)`, and a softmax over the atoms. -/
noncomputable def distributionalFC (m : MLP) (nActions nAtoms : ℕ) (x : Batch) : Except PyErr (List (List Row)) :=
  match m.forward x with
  | .error e => .error e
  | .ok h =>
    .ok ((unflatten h.length nActions (unflatten (h.length * nActions) nAtoms h.flatten)).map (List.map fun q =>
      q.map fun v => Real.exp v / (q.map Real.exp).sum))

/-- `cosine_basis_functions`, `pfrl/agents/iqn.py:11-29`, of one number. -/
noncomputable def cosineBasis (n : ℕ) (t : ℝ) : Row := (List.range n).map fun i => Real.cos (t * ((i + 1 : ℕ) * Real.pi))

/-- `CosineBasisLinear.forward`, `pfrl/agents/iqn.py:47-60`, for a batch of `nTaus` thresholds per row. -/
noncomputable def cosineBasisLinear (l : Linear) (nBasis nTaus : ℕ) (taus : Batch) : Except PyErr (List Batch) :=
  match l.forward (taus.map (List.map (cosineBasis nBasis))).flatten with
  | .error e => .error e
  | .ok out => .ok (unflatten taus.length nTaus out)

/-- `_evaluate_psi_x_with_quantile_thresholds`, `pfrl/agents/iqn.py:63-80`. -/
noncomputable def evaluatePsi (hiddenSize nTaus : ℕ) (psiX : Batch) (phi : Batch → Except PyErr (List Batch))
    (f : Batch → Except PyErr Batch) (taus : Batch) : Except PyErr (List Batch) :=
  if taus.length = psiX.length then
    match phi taus with
    | .error e => .error e
    | .ok phiTaus =>
      if phiTaus.length = psiX.length ∧ ∀ p ∈ phiTaus, p.length = nTaus ∧ ∀ r ∈ p, r.length = hiddenSize then
        match f (List.zipWith (fun x p => p.map fun r => List.zipWith (· * ·) x r) psiX phiTaus).flatten with
        | .error e => .error e
        | .ok h =>
          if h.length = psiX.length * nTaus then .ok (unflatten psiX.length nTaus h) else .error .assertionError
      else .error .assertionError
  else .error .assertionError

/-- `ImplicitQuantileQFunction.forward`, `pfrl/agents/iqn.py:106-124`, and the call of the function it returns. -/
noncomputable def implicitQuantile (hiddenSize nTaus : ℕ) (psi : Batch → Except PyErr Batch) (phi : Batch → Except PyErr (List Batch))
    (f : Batch → Except PyErr Batch) (x taus : Batch) : Except PyErr (List Batch) :=
  match psi x with
  | .error e => .error e
  | .ok psiX => if psiX.length = x.length then evaluatePsi hiddenSize nTaus psiX phi f taus else .error .assertionError

/-! ### Convolutional networks -/

/-- An image: channels, height, width and pixels. -/
structure Img where
  c : ℕ
  h : ℕ
  w : ℕ
  px : ℕ → ℕ → ℕ → ℝ

/-- `torch.nn.Conv2d` with a square kernel, a stride, and no padding. -/
structure Conv where
  cIn : ℕ
  cOut : ℕ
  k : ℕ
  stride : ℕ
  wt : ℕ → ℕ → ℕ → ℕ → ℝ
  b : ℕ → ℝ

/-- `Conv2d.forward` of one image. -/
noncomputable def Conv.apply (l : Conv) (x : Img) : Except PyErr Img :=
  if x.c = l.cIn ∧ l.k ≤ x.h ∧ l.k ≤ x.w then
    .ok ⟨l.cOut, (x.h - l.k) / l.stride + 1, (x.w - l.k) / l.stride + 1, fun o y z =>
      ((List.range l.cIn).map fun c => ((List.range l.k).map fun dy => ((List.range l.k).map fun dz =>
        l.wt o c dy dz * x.px c (y * l.stride + dy) (z * l.stride + dz)).sum).sum).sum + l.b o⟩
  else .error .runtimeError

/-- The loop over the layers, `pfrl/nn/atari_cnn.py:43-45`. -/
noncomputable def convForward (act : ℝ → ℝ) : List Conv → List Img → Except PyErr (List Img)
  | [], h => .ok h
  | l :: ls, h =>
    match eachRow l.apply h with
    | .error e => .error e
    | .ok h => convForward act ls (h.map fun i => { i with px := fun c y x => act (i.px c y x) })

/-- All numbers of an image, in the order of `view(h.size(0), -1)`. -/
def Img.flat (i : Img) : Row :=
  (List.range i.c).flatMap fun c => (List.range i.h).flatMap fun y => (List.range i.w).map fun x => i.px c y x

/-- `h.view(h.size(0), -1)`, as in `pfrl/nn/atari_cnn.py:46` and `78`: every image as a row.  Without images the size of a row could be
anything, and PyTorch raises. -/
def flatRows (h : List Img) : Except PyErr Batch :=
  if h = [] then .error .runtimeError else .ok (h.map Img.flat)

/-- `LargeAtariCNN.forward` and `SmallAtariCNN.forward`, `pfrl/nn/atari_cnn.py:42-47` and `74-79`. -/
noncomputable def cnnForward (act : ℝ → ℝ) (layers : List Conv) (output : Linear) (x : List Img) : Except PyErr Batch :=
  match convForward act layers x with
  | .error e => .error e
  | .ok h =>
    match thenDo flatRows output.forward h with
    | .error e => .error e
    | .ok h => .ok (h.map (List.map act))

/-- The layers of `LargeAtariCNN`, `pfrl/nn/atari_cnn.py:30-37`, with any parameters. -/
def largeLayers (nIn : ℕ) (w1 w2 w3 : ℕ → ℕ → ℕ → ℕ → ℝ) (b1 b2 b3 : ℕ → ℝ) : List Conv :=
  [⟨nIn, 32, 8, 4, w1, b1⟩, ⟨32, 64, 4, 2, w2, b2⟩, ⟨64, 64, 3, 1, w3, b3⟩]

/-- The layers of `SmallAtariCNN`, `pfrl/nn/atari_cnn.py:63-69`. -/
def smallLayers (nIn : ℕ) (w1 w2 : ℕ → ℕ → ℕ → ℕ → ℝ) (b1 b2 : ℕ → ℝ) : List Conv :=
  [⟨nIn, 16, 8, 4, w1, b1⟩, ⟨16, 32, 4, 2, w2, b2⟩]

/-! ### Making a batch -/

/-- Features of an observation. -/
inductive Feature where
  | array (x : Row)
  | tuple (xs : List Feature)
  | dict
  deriving Inhabited

/-- What collating gives. -/
inductive Collated where
  | tensor (x : Batch)
  | list (xs : List Collated)
  | tuple (xs : List Collated)
  | dict
  deriving Inhabited

/-- Column `j` of a list of tuples. -/
def column (j : ℕ) : List Feature → List Feature
  | [] => []
  | .tuple xs :: fs => (xs[j]?).toList ++ column j fs
  | _ :: fs => column j fs

/-- `torch.utils.data.default_collate` (`fuel`: depth of the features).  Arrays of different sizes, tuples of different lengths, and
mixtures raise `RuntimeError` or `TypeError`; these are not distinguished.  Tuples become a list. -/
def collate : ℕ → List Feature → Except PyErr Collated
  | 0, _ => .error .timeout
  | _, [] => .error .indexError
  | _ + 1, .array x :: fs =>
    match eachRow (fun f => match f with
      | .array y => if y.length = x.length then .ok y else .error .runtimeError
      | _ => .error .runtimeError) fs with
    | .error e => .error e
    | .ok ys => .ok (.tensor (x :: ys))
  | fuel + 1, .tuple xs :: fs =>
    match eachRow (fun f => match f with
      | .tuple ys => if ys.length = xs.length then .ok () else .error .runtimeError
      | _ => .error .runtimeError) fs with
    | .error e => .error e
    | .ok _ =>
      match eachRow (fun j => collate fuel (column j (.tuple xs :: fs))) (List.range xs.length) with
      | .error e => .error e
      | .ok cs => .ok (.list cs)
  | _ + 1, .dict :: _ => .ok .dict

/-- `x.to(device)` of an element of a list or tuple: only tensors have it. -/
def toDevice : Collated → Except PyErr Collated
  | .tensor x => .ok (.tensor x)
  | _ => .error .attributeError

/-- `_to_recursive`, `pfrl/utils/batch_states.py:7-15`. -/
def toRecursive : Collated → Except PyErr Collated
  | .tensor x => .ok (.tensor x)
  | .list xs =>
    match eachRow toDevice xs with
    | .error e => .error e
    | .ok ys => .ok (.list ys)
  | .tuple xs =>
    match eachRow toDevice xs with
    | .error e => .error e
    | .ok ys => .ok (.tuple ys)
  | .dict => .error .typeError

/-- `batch_states`, `pfrl/utils/batch_states.py:18-36`. -/
def batchStates {α : Type} (fuel : ℕ) (phi : α → Feature) (states : List α) : Except PyErr Collated :=
  match collate fuel (states.map phi) with
  | .error e => .error e
  | .ok c =>
    match (states.map phi).head?, c with
    | some (.tuple _), .list cs => toRecursive (.tuple cs)
    | _, c => toRecursive c

/-! ## Specification -/

/-- `F` treats every row by itself, by the function `f` from rows of length `nIn` to rows of length `nOut`: for batches of every
size it succeeds, and row `i` of the result is computed from row `i` alone. -/
def Spec.RowWise (F : Batch → Except PyErr Batch) (nIn nOut : ℕ) (f : Row → Row) : Prop :=
  (∀ x, x.length = nIn → (f x).length = nOut) ∧
  ∀ xs : Batch, (∀ x ∈ xs, x.length = nIn) → F xs = .ok (xs.map f)

/-- The same with two inputs. -/
def Spec.RowWise2 (F : Batch → Batch → Except PyErr Batch) (n1 n2 nOut : ℕ) (f : Row → Row → Row) : Prop :=
  (∀ x y, x.length = n1 → y.length = n2 → (f x y).length = nOut) ∧
  ∀ ps : List (Row × Row), (∀ p ∈ ps, p.1.length = n1 ∧ p.2.length = n2) →
    F (ps.map Prod.fst) (ps.map Prod.snd) = .ok (ps.map fun p => f p.1 p.2)

/-- `y` is the affine image of `x`: entry `j` is the sum of `w j i * x i`, plus `b j`. -/
noncomputable def Spec.affine (l : Linear) (x : Row) : Row :=
  List.ofFn fun j : Fin l.nOut => ((List.finRange x.length).map fun i => l.w j.1 i.1 * x[i]).sum + l.b j.1

/-- What a perceptron computes: affine maps with the nonlinearity in between. -/
noncomputable def Spec.mlp (act : ℝ → ℝ) (output : Linear) : List Linear → Row → Row
  | [], x => Spec.affine output x
  | l :: ls, x => Spec.mlp act output ls ((Spec.affine l x).map act)

/-- The sizes of consecutive layers fit. -/
def Spec.Fits (output : Linear) : ℕ → List Linear → Prop
  | n, [] => output.nIn = n
  | n, l :: ls => l.nIn = n ∧ Spec.Fits output l.nOut ls

/-- What batch normalisation computes in evaluation mode. -/
noncomputable def Spec.normalise (n : BatchNorm) (x : Row) : Row :=
  List.ofFn fun j : Fin x.length => (x[j] - n.mean j.1) / √(n.var j.1 + n.eps) * n.gamma j.1 + n.beta j.1

/-- An optional normalisation. -/
noncomputable def Spec.optNormalise : Option BatchNorm → Row → Row
  | none, x => x
  | some n, x => Spec.normalise n x

/-- What a perceptron with batch normalisation computes in evaluation mode, after the normalisation of its input. -/
noncomputable def Spec.mlpbn (act : ℝ → ℝ) (output : Linear) (outputBn : Option BatchNorm) : List (Linear × BatchNorm) → Row → Row
  | [], x => Spec.optNormalise outputBn (Spec.affine output x)
  | (l, n) :: ls, x => Spec.mlpbn act output outputBn ls ((Spec.normalise n (Spec.affine l x)).map act)

/-- The sizes of consecutive layers fit, and normalisations have the sizes of their layers. -/
def Spec.FitsBn (output : Linear) (outputBn : Option BatchNorm) : ℕ → List (Linear × BatchNorm) → Prop
  | n, [] => output.nIn = n ∧ ∀ b, outputBn = some b → b.size = output.nOut
  | n, (l, b) :: ls => l.nIn = n ∧ b.size = l.nOut ∧ Spec.FitsBn output outputBn l.nOut ls

/-- A convolution of one image. -/
noncomputable def Spec.conv (l : Conv) (x : Img) : Img where
  c := l.cOut
  h := (x.h - l.k) / l.stride + 1
  w := (x.w - l.k) / l.stride + 1
  px o y z := (∑ c ∈ Finset.range l.cIn, ∑ dy ∈ Finset.range l.k, ∑ dz ∈ Finset.range l.k,
    l.wt o c dy dz * x.px c (y * l.stride + dy) (z * l.stride + dz)) + l.b o

/-! ## Lemmas -/

theorem eachRow_ok {α β : Type} {f : α → Except PyErr β} {g : α → β} : ∀ {xs : List α}, (∀ x ∈ xs, f x = .ok (g x)) →
    eachRow f xs = .ok (xs.map g)
  | [], _ => rfl
  | x :: xs, h => by
    simp only [eachRow, h x (by simp), eachRow_ok (xs := xs) fun y hy => h y (by simp [hy]), List.map_cons]

theorem eachRow_error {α β : Type} {f : α → Except PyErr β} {e : PyErr} : ∀ {xs : List α}, (∀ x ∈ xs, f x = .error e ∨ ∃ y, f x = .ok y) →
    (∃ x ∈ xs, f x = .error e) → eachRow f xs = .error e
  | [], _, h => by obtain ⟨x, hx, _⟩ := h; cases hx
  | x :: xs, h, h2 => by
    rcases h x (by simp) with hx | ⟨y, hx⟩
    · simp only [eachRow, hx]
    · have : ∃ x ∈ xs, f x = .error e := by
        obtain ⟨z, hz, hze⟩ := h2
        rcases List.mem_cons.1 hz with rfl | hz
        · rw [hx] at hze; cases hze
        · exact ⟨z, hz, hze⟩
      simp only [eachRow, hx, eachRow_error (xs := xs) (fun y hy => h y (by simp [hy])) this]

theorem range_sum {n : ℕ} (f : ℕ → ℝ) (x : Row) (hx : x.length = n) :
    ((List.range n).map fun i => f i * x.getD i 0).sum = ((List.finRange x.length).map fun i => f i.1 * x[i]).sum := by
  subst hx
  rw [← List.map_coe_finRange_eq_range, List.map_map]
  congr 1
  apply List.map_congr_left
  intro i _
  simp

theorem linear_row {l : Linear} {x : Row} (h : x.length = l.nIn) : l.row x = .ok (Spec.affine l x) := by
  unfold Linear.row Spec.affine
  rw [if_pos h]
  congr 1
  rw [List.ofFn_eq_map, ← List.map_coe_finRange_eq_range (n := l.nOut), List.map_map]
  apply List.map_congr_left
  intro j _
  show _ + _ = _ + _
  rw [range_sum (fun i => l.w j.1 i) x h]

theorem affine_length (l : Linear) (x : Row) : (Spec.affine l x).length = l.nOut := by simp [Spec.affine]

theorem linear_rows (l : Linear) : Spec.RowWise l.forward l.nIn l.nOut (Spec.affine l) :=
  ⟨fun x _ => affine_length l x, fun _ h => eachRow_ok fun x hx => linear_row (h x hx)⟩

theorem mlp_aux (act : ℝ → ℝ) (output : Linear) : ∀ (ls : List Linear) (n : ℕ), Spec.Fits output n ls →
    Spec.RowWise (fun x => match hiddenForward act ls x with
      | .error e => .error e
      | .ok h => output.forward h) n output.nOut (Spec.mlp act output ls)
  | [], n, h => by
    have h : output.nIn = n := h
    subst h
    exact linear_rows output
  | l :: ls, n, h => by
    obtain ⟨rfl, h2⟩ := h
    obtain ⟨g1, g2⟩ := mlp_aux act output ls l.nOut h2
    refine ⟨fun x _ => g1 _ (by simp [affine_length]), fun xs hxs => ?_⟩
    have := g2 ((xs.map (Spec.affine l)).map (List.map act)) (by
      intro x hx
      obtain ⟨y, hy, rfl⟩ := List.mem_map.1 hx
      obtain ⟨z, _, rfl⟩ := List.mem_map.1 hy
      simp [affine_length])
    simp only [hiddenForward, (linear_rows l).2 xs hxs]
    refine this.trans ?_
    simp [Spec.mlp]

theorem hiddenSizes_last : ∀ (hs : List ℕ) (n : ℕ), ((hiddenSizes n hs).map Prod.snd) = hs
  | [], _ => rfl
  | h :: hs, n => by simp [hiddenSizes, hiddenSizes_last hs h]

theorem initHidden_ok (output : Linear) : ∀ (hs : List ℕ) (n : ℕ) (draws : ℕ → ℕ → ℕ → ℝ), 0 < n → (∀ h ∈ hs, 0 < h) →
    output.nIn = hs.getLastD n →
    ∃ ls, initHidden (hiddenSizes n hs) draws = .ok ls ∧ Spec.Fits output n ls ∧ ls.map Linear.nOut = hs
  | [], n, _, _, _, ho => ⟨[], rfl, by simpa [Spec.Fits] using ho, rfl⟩
  | h :: hs, n, draws, hn, hh, ho => by
    obtain ⟨ls, h1, h2, h3⟩ := initHidden_ok output hs h (fun k => draws (k + 1)) (hh h (by simp)) (fun k hk => hh k (by simp [hk])) (by
      rw [ho]; cases hs <;> rfl)
    refine ⟨⟨n, h, _, fun _ => 0⟩ :: ls, by simp only [hiddenSizes, initHidden, initLecunNormal, if_neg hn.ne', h1]; rfl, ?_, by simp [h3]⟩
    exact ⟨rfl, h2⟩

theorem bn_row {n : BatchNorm} {x : Row} (h : x.length = n.size) : n.row n.mean n.var x = .ok (Spec.normalise n x) := by
  unfold BatchNorm.row Spec.normalise
  rw [if_pos h, ← h]
  congr 1
  rw [← List.map_coe_finRange_eq_range, List.map_map, List.ofFn_eq_map]
  apply List.map_congr_left
  intro j _
  simp

theorem bn_rows (n : BatchNorm) : Spec.RowWise (n.forward false) n.size n.size (Spec.normalise n) :=
  ⟨fun x h => by simp [Spec.normalise, h], fun _ h => eachRow_ok fun x hx => bn_row (h x hx)⟩

theorem optBn_rows (o : Option BatchNorm) (k : ℕ) (h : ∀ b, o = some b → b.size = k) :
    Spec.RowWise (optBn false o) k k (Spec.optNormalise o) := by
  cases o with
  | none => exact ⟨fun _ h => h, fun xs _ => congrArg Except.ok (List.map_id xs).symm⟩
  | some b =>
    have := h b rfl
    subst this
    exact bn_rows b

theorem rowWise_then {F G : Batch → Except PyErr Batch} {a b c : ℕ} {f g : Row → Row} (hF : Spec.RowWise F a b f)
    (hG : Spec.RowWise G b c g) : Spec.RowWise (thenDo F G) a c (fun x => g (f x)) := by
  refine ⟨fun x hx => hG.1 _ (hF.1 x hx), fun xs hxs => ?_⟩
  simp only [thenDo, hF.2 xs hxs]
  rw [hG.2 _ (by
    intro y hy
    obtain ⟨x, hx, rfl⟩ := List.mem_map.1 hy
    exact hF.1 x (hxs x hx))]
  simp

theorem mlpbn_aux (act : ℝ → ℝ) (output : Linear) (outputBn : Option BatchNorm) : ∀ (ls : List (Linear × BatchNorm)) (n : ℕ),
    Spec.FitsBn output outputBn n ls →
    Spec.RowWise (thenDo (hiddenBnForward act false ls) (thenDo output.forward (optBn false outputBn))) n output.nOut
      (Spec.mlpbn act output outputBn ls)
  | [], n, h => by
    obtain ⟨rfl, h2⟩ := h
    have := rowWise_then (linear_rows output) (optBn_rows outputBn _ h2)
    exact this
  | (l, b) :: ls, n, h => by
    obtain ⟨rfl, h2, h3⟩ := h
    obtain ⟨g1, g2⟩ := mlpbn_aux act output outputBn ls l.nOut h3
    have hl : Spec.RowWise (thenDo l.forward (b.forward false)) l.nIn l.nOut (fun x => Spec.normalise b (Spec.affine l x)) :=
      rowWise_then (linear_rows l) (h2 ▸ bn_rows b)
    refine ⟨fun x hx => g1 _ (by simpa using hl.1 x hx), fun xs hxs => ?_⟩
    have := g2 ((xs.map fun x => Spec.normalise b (Spec.affine l x)).map (List.map act)) (by
      intro x hx
      obtain ⟨y, hy, rfl⟩ := List.mem_map.1 hx
      obtain ⟨z, hz, rfl⟩ := List.mem_map.1 hy
      simpa using hl.1 z (hxs z hz))
    have h4 := hl.2 xs hxs
    simp only [thenDo] at this h4 ⊢
    simp only [hiddenBnForward, thenDo]
    simp only [h4]
    rw [this]
    simp [Spec.mlpbn]

theorem unflatten_flatten {α : Type} (n : ℕ) : ∀ (ls : List (List α)), (∀ l ∈ ls, l.length = n) → unflatten ls.length n ls.flatten = ls
  | [], _ => rfl
  | l :: ls, h => by
    have hl : l.length = n := h l (by simp)
    have ih := unflatten_flatten n ls fun x hx => h x (by simp [hx])
    unfold unflatten at ih ⊢
    rw [List.length_cons, List.range_succ_eq_map, List.map_cons, List.map_map]
    congr 1
    · simp [hl]
    · conv_rhs => rw [← ih]
      apply List.map_congr_left
      intro i _
      simp only [Function.comp, List.flatten_cons]
      rw [Nat.succ_mul, Nat.add_comm (i * n) n, ← List.drop_drop, ← hl, List.drop_left]

theorem unflatten_length {α : Type} (k n : ℕ) (l : List α) : (unflatten k n l).length = k := by simp [unflatten]

theorem unflatten_flatten_rows {α : Type} (k n : ℕ) : ∀ (ls : List (List α)), (∀ l ∈ ls, l.length = k * n) →
    unflatten (ls.length * k) n ls.flatten = ls.flatMap (unflatten k n)
  | ls, h => by
    have h1 : ls.flatten = (ls.flatMap (unflatten k n)).flatten := by
      rw [List.flatMap_def, List.flatten_flatten, List.map_map]
      congr 1
      conv_lhs => rw [← List.map_id ls]
      apply List.map_congr_left
      intro l hl
      have hlen := h l hl
      clear h hl
      simp only [Function.comp, id]
      induction k generalizing l with
      | zero => simp [unflatten] at hlen ⊢; exact hlen
      | succ k ih =>
        unfold unflatten
        rw [List.range_succ_eq_map, List.map_cons, List.map_map, List.flatten_cons]
        have := ih (l.drop n) (by rw [List.length_drop, hlen, Nat.succ_mul]; omega)
        unfold unflatten at this
        conv_lhs => rw [← List.take_append_drop n l]
        simp only [Nat.zero_mul, List.drop_zero]
        congr 1
        conv_lhs => rw [this]
        congr 1
        apply List.map_congr_left
        intro i _
        simp only [Function.comp, List.drop_drop]
        rw [Nat.succ_mul, Nat.add_comm (i * n) n]
    have h2 : (ls.flatMap (unflatten k n)).length = ls.length * k := by
      rw [List.length_flatMap]
      simp [unflatten_length]
    rw [h1, ← h2]
    refine unflatten_flatten n _ fun l hl => ?_
    obtain ⟨r, hr, hlr⟩ := List.mem_flatMap.1 hl
    unfold unflatten at hlr
    obtain ⟨i, hi, rfl⟩ := List.mem_map.1 hlr
    have hi := List.mem_range.1 hi
    rw [List.length_take, List.length_drop, h r hr]
    have : (i + 1) * n ≤ k * n := Nat.mul_le_mul_right n hi
    rw [Nat.succ_mul] at this
    omega

theorem sum_list_range (n : ℕ) (f : ℕ → ℝ) : ((List.range n).map f).sum = ∑ i ∈ Finset.range n, f i := rfl

theorem conv_apply {l : Conv} {x : Img} (h : x.c = l.cIn ∧ l.k ≤ x.h ∧ l.k ≤ x.w) : l.apply x = .ok (Spec.conv l x) := by
  unfold Conv.apply Spec.conv
  rw [if_pos h]
  simp only [sum_list_range]

theorem flat_length (i : Img) : i.flat.length = i.c * (i.h * i.w) := by
  simp [Img.flat]

/-! ## C109 -/

/-- **C109 (perceptron).** A perceptron whose layers fit computes, for a batch of any size, every row of the output from the same row
of the input: affine maps with the nonlinearity between them. -/
theorem mlp_rows (m : MLP) {n : ℕ} (h : Spec.Fits m.output n m.hidden) :
    Spec.RowWise m.forward n m.output.nOut (Spec.mlp m.act m.output m.hidden) := mlp_aux m.act m.output m.hidden n h

/-- **C109 (sizes).** With positive sizes, the constructor makes layers that fit, with the given numbers of hidden units and outputs.
Without inputs it raises. -/
theorem mlp_init (inSize outSize : ℕ) (hidden : List ℕ) (act : ℝ → ℝ) (scale : ℝ) (draws : ℕ → ℕ → ℕ → ℝ) :
    (0 < inSize → (∀ h ∈ hidden, 0 < h) → ∃ m, MLP.init inSize outSize hidden act scale draws = .ok m ∧
      Spec.Fits m.output inSize m.hidden ∧ m.output.nOut = outSize ∧ m.hidden.map Linear.nOut = hidden ∧ m.act = act) ∧
    MLP.init 0 outSize hidden act scale draws = .error .zeroDivision := by
  constructor
  · intro hn hh
    have hlast : 0 < hidden.getLastD inSize := by
      cases hidden with
      | nil => exact hn
      | cons a l =>
        rw [List.getLastD_cons]
        exact hh _ List.getLastD_mem_cons
    obtain ⟨ls, h1, h2, h3⟩ := initHidden_ok ⟨hidden.getLastD inSize, outSize, fun j i =>
      scale * √(1 / (hidden.getLastD inSize : ℕ)) * draws hidden.length j i, fun _ => 0⟩ hidden inSize draws hn hh rfl
    exact ⟨_, by simp only [MLP.init, h1, initLecunNormal, if_neg hlast.ne']; rfl, h2, rfl, h3, rfl⟩
  · cases hidden with
    | nil => simp [MLP.init, hiddenSizes, initHidden, initLecunNormal]
    | cons a l => simp [MLP.init, hiddenSizes, initHidden, initLecunNormal]

/-- **C109 (wrong size).** A batch with a row that does not have the size of the first layer raises. -/
theorem mlp_wrong_size (m : MLP) {n : ℕ} (h : Spec.Fits m.output n m.hidden) (xs : Batch) (hx : ∃ x ∈ xs, x.length ≠ n) :
    m.forward xs = .error .runtimeError := by
  have key : ∀ l : Linear, l.nIn = n → l.forward xs = .error .runtimeError := by
    intro l hl
    refine eachRow_error (fun x _ => ?_) ?_
    · by_cases hlen : x.length = l.nIn
      · exact .inr ⟨_, linear_row hlen⟩
      · exact .inl (by simp [Linear.row, hlen])
    · obtain ⟨x, hx1, hx2⟩ := hx
      exact ⟨x, hx1, by rw [← hl] at hx2; simp [Linear.row, hx2]⟩
  unfold MLP.forward
  cases hh : m.hidden with
  | nil =>
    rw [hh] at h
    exact key _ h
  | cons l ls =>
    rw [hh] at h
    simp only [hiddenForward, key l h.1]

theorem cat_rows (ps : List (Row × Row)) : catRows (ps.map Prod.fst) (ps.map Prod.snd) = .ok (ps.map fun p => p.1 ++ p.2) := by
  unfold catRows
  rw [if_pos (by simp)]
  simp [List.zipWith_map_left, List.zipWith_map_right]

/-- **C109 (observation and action).** The critics that concatenate observation and action, at their input or after the first layer,
compute every row of the output from the observation and the action of this row. -/
theorem state_action_rows (m mlp obsMlp : MLP) (act : ℝ → ℝ) {nObs nAct : ℕ} (h : Spec.Fits m.output (nObs + nAct) m.hidden)
    (h1 : Spec.Fits obsMlp.output nObs obsMlp.hidden) (h2 : Spec.Fits mlp.output (obsMlp.output.nOut + nAct) mlp.hidden) :
    Spec.RowWise2 (fcsa m) nObs nAct m.output.nOut (fun x a => Spec.mlp m.act m.output m.hidden (x ++ a)) ∧
    Spec.RowWise2 (lateAction act obsMlp mlp) nObs nAct mlp.output.nOut (fun x a => Spec.mlp mlp.act mlp.output mlp.hidden
      ((Spec.mlp obsMlp.act obsMlp.output obsMlp.hidden x).map act ++ a)) := by
  constructor
  · refine ⟨fun x y hx hy => (mlp_rows m h).1 _ (by simp [hx, hy]), fun ps hps => ?_⟩
    simp only [fcsa, cat_rows]
    rw [(mlp_rows m h).2 _ (by
      intro r hr
      obtain ⟨p, hp, rfl⟩ := List.mem_map.1 hr
      simp [hps p hp])]
    simp
  · have ho := mlp_rows obsMlp h1
    refine ⟨fun x y hx hy => (mlp_rows mlp h2).1 _ (by simp [ho.1 x hx, hy]), fun ps hps => ?_⟩
    have e : (((ps.map Prod.fst).map (Spec.mlp obsMlp.act obsMlp.output obsMlp.hidden)).map (List.map act))
        = (ps.map fun p => ((Spec.mlp obsMlp.act obsMlp.output obsMlp.hidden p.1).map act, p.2)).map Prod.fst := by simp
    have e2 : ps.map Prod.snd = (ps.map fun p => ((Spec.mlp obsMlp.act obsMlp.output obsMlp.hidden p.1).map act, p.2)).map Prod.snd := by
      simp
    simp only [lateAction]
    rw [ho.2 _ (by
      intro r hr
      obtain ⟨p, hp, rfl⟩ := List.mem_map.1 hr
      exact (hps p hp).1)]
    simp only
    rw [e, e2, cat_rows]
    simp only
    rw [(mlp_rows mlp h2).2 _ (by
      intro r hr
      obtain ⟨p, hp, rfl⟩ := List.mem_map.1 hr
      obtain ⟨q, hq, rfl⟩ := List.mem_map.1 hp
      simp [ho.1 _ (hps q hq).1, (hps q hq).2])]
    simp

/-- **C109 (batch normalisation).** In evaluation mode, perceptrons with batch normalisation also treat every row by itself.  In
training mode a batch of one row raises. -/
theorem mlpbn_rows (m : MLPBN) {n : ℕ} (h : Spec.FitsBn m.output m.outputBn n m.hidden) (hin : ∀ b, m.inputBn = some b → b.size = n) :
    Spec.RowWise (m.forward false) n m.output.nOut (fun x => Spec.mlpbn m.act m.output m.outputBn m.hidden (Spec.optNormalise m.inputBn x)) ∧
    (∀ b x, m.inputBn = some b → m.forward true [x] = .error .valueError) := by
  refine ⟨rowWise_then (optBn_rows m.inputBn n hin) (mlpbn_aux m.act m.output m.outputBn m.hidden n h), fun b x hb => ?_⟩
  simp [MLPBN.forward, thenDo, optBn, hb, BatchNorm.forward]

/-- **C109 (training mode mixes rows).** In training mode the output for a row depends on the other rows. -/
theorem mlpbn_training_mixes : ∃ (m : MLPBN) (x y z : Row) (a b c d : Row), m.forward true [x, y] = .ok [a, b] ∧
    m.forward true [x, z] = .ok [c, d] ∧ a ≠ c := by
  refine ⟨⟨some ⟨1, fun _ => 1, fun _ => 0, fun _ => 0, fun _ => 1, 1⟩, [], ⟨1, 1, fun _ _ => 1, fun _ => 0⟩, none, id⟩,
    [0], [0], [2], [0], [0], [-1 / √2], [1 / √2], ?_, ?_, ?_⟩
  · simp [MLPBN.forward, thenDo, optBn, BatchNorm.forward, eachRow, BatchNorm.row, colMean, colVar, hiddenBnForward, Linear.forward,
      Linear.row]
  · have e2 : (1 + (2 - 1) ^ 2 : ℝ) / 2 + 1 = 2 := by norm_num
    have e3 : (2 - 1 : ℝ) = 1 := by norm_num
    simp [MLPBN.forward, thenDo, optBn, BatchNorm.forward, eachRow, BatchNorm.row, colMean, colVar, hiddenBnForward, Linear.forward,
      Linear.row, neg_div]
    rw [e2, e3]
    simp
  · intro hh
    have := (List.cons.inj hh).1
    have h2 : (0 : ℝ) < √2 := Real.sqrt_pos.2 (by norm_num)
    have : -1 / √2 < 0 := div_neg_of_neg_of_pos (by norm_num) h2
    linarith

/-- **C109 (distributional Q-function).** For a batch of any size, the distribution of action `a` in row `b` is the softmax of the
`n_atoms` network outputs for this row that begin at `a * n_atoms`; it is a probability distribution. -/
theorem distributional_rows (m : MLP) {n nActions nAtoms : ℕ} (h : Spec.Fits m.output n m.hidden)
    (hout : m.output.nOut = nActions * nAtoms) (hpos : 0 < nAtoms) (xs : Batch) (hx : ∀ x ∈ xs, x.length = n) :
    ∃ q, distributionalFC m nActions nAtoms xs = .ok q ∧
      q = xs.map (fun x => (List.range nActions).map fun a => (List.range nAtoms).map fun k =>
        Real.exp ((Spec.mlp m.act m.output m.hidden x).getD (a * nAtoms + k) 0) /
          ((List.range nAtoms).map fun k => Real.exp ((Spec.mlp m.act m.output m.hidden x).getD (a * nAtoms + k) 0)).sum) ∧
      ∀ r ∈ q, ∀ d ∈ r, d.length = nAtoms ∧ (∀ p ∈ d, 0 < p) ∧ d.sum = 1 := by
  obtain ⟨g1, g2⟩ := mlp_rows m h
  have hlen : ∀ l ∈ xs.map (Spec.mlp m.act m.output m.hidden), l.length = nActions * nAtoms := by
    intro l hl
    obtain ⟨x, hx', rfl⟩ := List.mem_map.1 hl
    rw [g1 x (hx x hx'), hout]
  have hu : ∀ l : Row, l.length = nActions * nAtoms → unflatten nActions nAtoms l
      = (List.range nActions).map fun a => (List.range nAtoms).map fun k => l.getD (a * nAtoms + k) 0 := by
    intro l hl
    unfold unflatten
    apply List.map_congr_left
    intro a ha
    have ha := List.mem_range.1 ha
    have : (a + 1) * nAtoms ≤ nActions * nAtoms := Nat.mul_le_mul_right _ ha
    rw [Nat.succ_mul] at this
    apply List.ext_getElem
    · simp only [List.length_take, List.length_drop, List.length_map, List.length_range]
      omega
    · intro k h1 h2
      have hk : k < nAtoms := by simpa using h2
      simp only [List.getElem_take, List.getElem_drop, List.getElem_map, List.getElem_range]
      rw [List.getD_eq_getElem?_getD, List.getElem?_eq_getElem (by omega)]
      rfl
  have e : distributionalFC m nActions nAtoms xs = .ok (xs.map (fun x => (List.range nActions).map fun a => (List.range nAtoms).map fun k =>
        Real.exp ((Spec.mlp m.act m.output m.hidden x).getD (a * nAtoms + k) 0) /
          ((List.range nAtoms).map fun k => Real.exp ((Spec.mlp m.act m.output m.hidden x).getD (a * nAtoms + k) 0)).sum)) := by
    unfold distributionalFC
    rw [g2 xs hx]
    simp only
    rw [unflatten_flatten_rows nActions nAtoms _ hlen]
    have : unflatten (xs.map (Spec.mlp m.act m.output m.hidden)).length nActions
        ((xs.map (Spec.mlp m.act m.output m.hidden)).flatMap (unflatten nActions nAtoms))
        = (xs.map (Spec.mlp m.act m.output m.hidden)).map (unflatten nActions nAtoms) := by
      have := unflatten_flatten nActions ((xs.map (Spec.mlp m.act m.output m.hidden)).map (unflatten nActions nAtoms)) (by
        intro l hl
        obtain ⟨r, _, rfl⟩ := List.mem_map.1 hl
        exact unflatten_length _ _ _)
      rw [List.length_map] at this
      exact this
    rw [this, List.map_map, List.map_map]
    congr 1
    apply List.map_congr_left
    intro x hx'
    simp only [Function.comp]
    rw [hu _ (hlen _ (List.mem_map_of_mem hx')), List.map_map]
    apply List.map_congr_left
    intro a _
    simp only [Function.comp, List.map_map]
    rfl
  refine ⟨_, e, rfl, ?_⟩
  intro r hr d hd
  obtain ⟨x, _, rfl⟩ := List.mem_map.1 hr
  obtain ⟨a, _, rfl⟩ := List.mem_map.1 hd
  have hsum : 0 < ((List.range nAtoms).map fun k => Real.exp ((Spec.mlp m.act m.output m.hidden x).getD (a * nAtoms + k) 0)).sum := by
    apply List.sum_pos
    · intro y hy
      obtain ⟨k, _, rfl⟩ := List.mem_map.1 hy
      exact Real.exp_pos _
    · intro h0
      have := congrArg List.length h0
      simp at this
      omega
  refine ⟨by simp, ?_, ?_⟩
  · intro p hp
    obtain ⟨k, _, rfl⟩ := List.mem_map.1 hp
    exact div_pos (Real.exp_pos _) hsum
  · simp only [div_eq_mul_inv]
    rw [List.sum_map_mul_right, mul_inv_cancel₀ hsum.ne']

/-- **C109 (cosine embedding).** For a batch of any size, the embedding of threshold `i` of row `b` is the affine image of the cosines
of the multiples `1, …, n` of `pi` times this threshold. -/
theorem cosine_rows (l : Linear) (nBasis nTaus : ℕ) (hl : l.nIn = nBasis) (taus : Batch) (ht : ∀ t ∈ taus, t.length = nTaus) :
    cosineBasisLinear l nBasis nTaus taus = .ok (taus.map (List.map fun t => Spec.affine l (List.ofFn fun i : Fin nBasis =>
      Real.cos ((i.1 + 1) * Real.pi * t)))) := by
  have hc : ∀ t, cosineBasis nBasis t = List.ofFn fun i : Fin nBasis => Real.cos ((i.1 + 1) * Real.pi * t) := by
    intro t
    unfold cosineBasis
    rw [← List.map_coe_finRange_eq_range, List.map_map, List.ofFn_eq_map]
    apply List.map_congr_left
    intro i _
    simp only [Function.comp]
    push_cast
    ring_nf
  unfold cosineBasisLinear
  rw [(linear_rows l).2 _ (by
    intro x hx
    obtain ⟨y, hy, hxy⟩ := List.mem_flatten.1 hx
    obtain ⟨t, _, rfl⟩ := List.mem_map.1 hy
    obtain ⟨s, _, rfl⟩ := List.mem_map.1 hxy
    simp [cosineBasis, hl])]
  simp only
  rw [List.map_flatten]
  have := unflatten_flatten nTaus ((taus.map (List.map (cosineBasis nBasis))).map (List.map (Spec.affine l))) (by
    intro x hx
    obtain ⟨y, hy, rfl⟩ := List.mem_map.1 hx
    obtain ⟨t, ht', rfl⟩ := List.mem_map.1 hy
    simp [ht t ht'])
  rw [List.length_map, List.length_map] at this
  rw [this]
  simp only [List.map_map]
  congr 1
  apply List.map_congr_left
  intro t _
  simp only [Function.comp, List.map_map]
  apply List.map_congr_left
  intro s _
  simp only [Function.comp, hc]

/-- **C109 (implicit quantile networks).** If `psi` and `f` treat every row by itself and `phi` every threshold by itself, then for a
batch of any size and any number of thresholds, the values for threshold `i` of row `b` are `f` of the product of the features of
observation `b` and the embedding of that threshold. -/
theorem iqn_rows {psi f : Batch → Except PyErr Batch} {phi : Batch → Except PyErr (List Batch)} {nObs hidden nActions nTaus : ℕ}
    {psi1 f1 : Row → Row} {phi1 : ℝ → Row} (hpsi : Spec.RowWise psi nObs hidden psi1) (hf : Spec.RowWise f hidden nActions f1)
    (hphi : ∀ t, (phi1 t).length = hidden) (hphi2 : ∀ taus : Batch, (∀ t ∈ taus, t.length = nTaus) → phi taus = .ok (taus.map (List.map phi1)))
    (ps : List (Row × Row)) (hps : ∀ p ∈ ps, p.1.length = nObs ∧ p.2.length = nTaus) :
    implicitQuantile hidden nTaus psi phi f (ps.map Prod.fst) (ps.map Prod.snd)
      = .ok (ps.map fun p => p.2.map fun t => f1 (List.zipWith (· * ·) (psi1 p.1) (phi1 t))) := by
  have h1 := hpsi.2 (ps.map Prod.fst) (by
    intro x hx
    obtain ⟨p, hp, rfl⟩ := List.mem_map.1 hx
    exact (hps p hp).1)
  have h2 := hphi2 (ps.map Prod.snd) (by
    intro x hx
    obtain ⟨p, hp, rfl⟩ := List.mem_map.1 hx
    exact (hps p hp).2)
  have h3 : List.zipWith (fun x (p : Batch) => p.map fun r => List.zipWith (· * ·) x r) ((ps.map Prod.fst).map psi1)
      ((ps.map Prod.snd).map (List.map phi1)) = ps.map fun p => p.2.map fun t => List.zipWith (· * ·) (psi1 p.1) (phi1 t) := by
    simp [List.zipWith_map_left, List.zipWith_map_right, Function.comp_def]
  have h4 := hf.2 (ps.map fun p => p.2.map fun t => List.zipWith (· * ·) (psi1 p.1) (phi1 t)).flatten (by
    intro x hx
    obtain ⟨y, hy, hxy⟩ := List.mem_flatten.1 hx
    obtain ⟨p, hp, rfl⟩ := List.mem_map.1 hy
    obtain ⟨t, _, rfl⟩ := List.mem_map.1 hxy
    rw [List.length_zipWith, hphi, hpsi.1 _ (hps p hp).1, min_self])
  have h5 := unflatten_flatten nTaus (ps.map fun p => p.2.map fun t => f1 (List.zipWith (· * ·) (psi1 p.1) (phi1 t))) (by
    intro x hx
    obtain ⟨p, hp, rfl⟩ := List.mem_map.1 hx
    simp [(hps p hp).2])
  have h6 : (ps.map fun p => p.2.map fun t => List.zipWith (· * ·) (psi1 p.1) (phi1 t)).flatten.map f1
      = (ps.map fun p => p.2.map fun t => f1 (List.zipWith (· * ·) (psi1 p.1) (phi1 t))).flatten := by
    rw [List.map_flatten, List.map_map]
    simp [Function.comp_def]
  have h7 : (ps.map fun p => p.2.map fun t => f1 (List.zipWith (· * ·) (psi1 p.1) (phi1 t))).flatten.length = ps.length * nTaus := by
    rw [List.length_flatten, List.map_map]
    have : List.map (List.length ∘ fun p : Row × Row => p.2.map fun t => f1 (List.zipWith (· * ·) (psi1 p.1) (phi1 t))) ps
        = List.replicate ps.length nTaus := by
      rw [List.eq_replicate_iff]
      refine ⟨by simp, ?_⟩
      intro b hb
      obtain ⟨p, hp, rfl⟩ := List.mem_map.1 hb
      simp [(hps p hp).2]
    rw [this]
    simp
  have hshape : ((ps.map Prod.snd).map (List.map phi1)).length = ((ps.map Prod.fst).map psi1).length ∧
      ∀ p ∈ (ps.map Prod.snd).map (List.map phi1), p.length = nTaus ∧ ∀ r ∈ p, r.length = hidden := by
    refine ⟨by simp, ?_⟩
    intro p hp
    obtain ⟨t, ht, rfl⟩ := List.mem_map.1 hp
    obtain ⟨q, hq, rfl⟩ := List.mem_map.1 ht
    refine ⟨by simp [(hps q hq).2], ?_⟩
    intro r hr
    obtain ⟨s, _, rfl⟩ := List.mem_map.1 hr
    exact hphi s
  unfold implicitQuantile
  rw [h1]
  simp only [List.length_map, if_true]
  unfold evaluatePsi
  rw [if_pos (by simp), h2]
  simp only
  rw [if_pos hshape, h3, h4]
  simp only
  rw [h6, if_pos (by rw [h7]; simp)]
  rw [List.length_map] at h5
  rw [List.length_map, List.length_map, h5]

/-- What a convolutional network computes for one image. -/
noncomputable def Spec.cnn (act : ℝ → ℝ) (output : Linear) : List Conv → Img → Row
  | [], i => (Spec.affine output i.flat).map act
  | l :: ls, i => Spec.cnn act output ls { Spec.conv l i with px := fun c y x => act ((Spec.conv l i).px c y x) }

/-- The image fits the layers. -/
def Spec.CnnFits (output : Linear) : List Conv → ℕ → ℕ → ℕ → Prop
  | [], c, h, w => output.nIn = c * (h * w)
  | l :: ls, c, h, w => c = l.cIn ∧ l.k ≤ h ∧ l.k ≤ w ∧ Spec.CnnFits output ls l.cOut ((h - l.k) / l.stride + 1) ((w - l.k) / l.stride + 1)

theorem cnn_aux (act : ℝ → ℝ) (output : Linear) : ∀ (ls : List Conv) (xs : List Img), xs ≠ [] → (∀ x ∈ xs, Spec.CnnFits output ls x.c x.h x.w) →
    cnnForward act ls output xs = .ok (xs.map (Spec.cnn act output ls))
  | [], xs, hne, h => by
    unfold cnnForward convForward thenDo flatRows
    simp only [if_neg hne]
    rw [(linear_rows output).2 _ (by
      intro r hr
      obtain ⟨x, hx, rfl⟩ := List.mem_map.1 hr
      rw [flat_length]
      exact (h x hx).symm)]
    simp [Spec.cnn]
  | l :: ls, xs, hne, h => by
    have h1 : eachRow l.apply xs = .ok (xs.map (Spec.conv l)) :=
      eachRow_ok fun x hx => conv_apply ⟨(h x hx).1, (h x hx).2.1, (h x hx).2.2.1⟩
    have ih := cnn_aux act output ls ((xs.map (Spec.conv l)).map fun i => { i with px := fun c y x => act (i.px c y x) })
      (by simpa using hne) (by
      intro x hx
      obtain ⟨y, hy, rfl⟩ := List.mem_map.1 hx
      obtain ⟨z, hz, rfl⟩ := List.mem_map.1 hy
      exact (h z hz).2.2.2)
    unfold cnnForward at ih ⊢
    simp only [convForward, h1]
    refine ih.trans ?_
    simp [Spec.cnn]

theorem cnn_not_fits (act : ℝ → ℝ) (output : Linear) : ∀ (ls : List Conv) (x : Img), ¬ Spec.CnnFits output ls x.c x.h x.w →
    cnnForward act ls output [x] = .error .runtimeError
  | [], x, h => by
    have : x.flat.length ≠ output.nIn := by
      rw [flat_length]
      exact fun he => h he.symm
    simp [cnnForward, convForward, thenDo, flatRows, Linear.forward, eachRow, Linear.row, this]
  | l :: ls, x, h => by
    by_cases hc : x.c = l.cIn ∧ l.k ≤ x.h ∧ l.k ≤ x.w
    · have ih := cnn_not_fits act output ls { Spec.conv l x with px := fun c y z => act ((Spec.conv l x).px c y z) } (by
        intro hf
        exact h ⟨hc.1, hc.2.1, hc.2.2, hf⟩)
      unfold cnnForward at ih ⊢
      simp only [convForward, eachRow, conv_apply hc, List.map_cons, List.map_nil]
      exact ih
    · simp only [cnnForward, convForward, eachRow, Conv.apply, if_neg hc]

theorem cnn_empty (act : ℝ → ℝ) (output : Linear) : ∀ ls : List Conv, cnnForward act ls output [] = .error .runtimeError
  | [] => rfl
  | l :: ls => by
    have ih := cnn_empty act output ls
    unfold cnnForward at ih ⊢
    exact ih

/-- **C109 (Atari networks).** The networks for Atari treat every image of a batch by itself.  For square images, the large network
accepts exactly heights from 84 to 91 (84 is what `wrap_deepmind` produces), and so does the small one.  An empty batch raises. -/
theorem atari_cnn_rows (act : ℝ → ℝ) (nIn : ℕ) (w1 w2 w3 : ℕ → ℕ → ℕ → ℕ → ℝ) (b1 b2 b3 : ℕ → ℝ) (out1 out2 : Linear)
    (h1 : out1.nIn = 3136) (h2 : out2.nIn = 2592) :
    (∀ xs : List Img, xs ≠ [] → (∀ x ∈ xs, x.c = nIn ∧ x.h = x.w ∧ 84 ≤ x.h ∧ x.h ≤ 91) →
      cnnForward act (largeLayers nIn w1 w2 w3 b1 b2 b3) out1 xs
        = .ok (xs.map (Spec.cnn act out1 (largeLayers nIn w1 w2 w3 b1 b2 b3))) ∧
      cnnForward act (smallLayers nIn w1 w2 b1 b2) out2 xs = .ok (xs.map (Spec.cnn act out2 (smallLayers nIn w1 w2 b1 b2)))) ∧
    (∀ x : Img, x.h = x.w → ¬ (x.c = nIn ∧ 84 ≤ x.h ∧ x.h ≤ 91) →
      cnnForward act (largeLayers nIn w1 w2 w3 b1 b2 b3) out1 [x] = .error .runtimeError ∧
      cnnForward act (smallLayers nIn w1 w2 b1 b2) out2 [x] = .error .runtimeError) ∧
    cnnForward act (largeLayers nIn w1 w2 w3 b1 b2 b3) out1 [] = .error .runtimeError ∧
    cnnForward act (smallLayers nIn w1 w2 b1 b2) out2 [] = .error .runtimeError := by
  have sq : ∀ a b : ℕ, a * a = b * b → a = b := fun a b h => Nat.mul_self_inj.1 h
  have large : ∀ x : Img, x.h = x.w → (Spec.CnnFits out1 (largeLayers nIn w1 w2 w3 b1 b2 b3) x.c x.h x.w ↔
      x.c = nIn ∧ 84 ≤ x.h ∧ x.h ≤ 91) := by
    intro x hx
    simp only [largeLayers, Spec.CnnFits, h1, ← hx, Nat.div_one]
    constructor
    · rintro ⟨h3, h4, -, -, h5, -, -, h6, -, h7⟩
      have := sq _ 7 (show (((x.h - 8) / 4 + 1 - 4) / 2 + 1 - 3 + 1) * (((x.h - 8) / 4 + 1 - 4) / 2 + 1 - 3 + 1) = 7 * 7 by omega)
      omega
    · rintro ⟨h3, h4, h5⟩
      have e : ((x.h - 8) / 4 + 1 - 4) / 2 + 1 - 3 + 1 = 7 := by omega
      rw [e]
      exact ⟨h3, by omega, by omega, trivial, by omega, by omega, trivial, by omega, by omega, by norm_num⟩
  have small : ∀ x : Img, x.h = x.w → (Spec.CnnFits out2 (smallLayers nIn w1 w2 b1 b2) x.c x.h x.w ↔
      x.c = nIn ∧ 84 ≤ x.h ∧ x.h ≤ 91) := by
    intro x hx
    simp only [smallLayers, Spec.CnnFits, h2, ← hx]
    constructor
    · rintro ⟨h3, h4, -, -, h5, -, h7⟩
      have := sq _ 9 (show (((x.h - 8) / 4 + 1 - 4) / 2 + 1) * (((x.h - 8) / 4 + 1 - 4) / 2 + 1) = 9 * 9 by omega)
      omega
    · rintro ⟨h3, h4, h5⟩
      have e : ((x.h - 8) / 4 + 1 - 4) / 2 + 1 = 9 := by omega
      rw [e]
      exact ⟨h3, by omega, by omega, trivial, by omega, by omega, by norm_num⟩
  refine ⟨fun xs hne hxs => ⟨cnn_aux _ _ _ _ hne fun x hx => ?_, cnn_aux _ _ _ _ hne fun x hx => ?_⟩, fun x hx hn =>
    ⟨cnn_not_fits _ _ _ _ fun hf => hn ((large x hx).1 hf), cnn_not_fits _ _ _ _ fun hf => hn ((small x hx).1 hf)⟩,
    cnn_empty _ _ _, cnn_empty _ _ _⟩
  · obtain ⟨a, b, c, d⟩ := hxs x hx
    exact (large x b).2 ⟨a, c, d⟩
  · obtain ⟨a, b, c, d⟩ := hxs x hx
    exact (small x b).2 ⟨a, c, d⟩

theorem collate_arrays (fuel : ℕ) (rows : List Row) (n : ℕ) (hn : ∀ r ∈ rows, r.length = n) (hne : rows ≠ []) :
    collate (fuel + 1) (rows.map Feature.array) = .ok (.tensor rows) := by
  cases rows with
  | nil => exact absurd rfl hne
  | cons x xs =>
    have : eachRow (fun f => match f with
      | Feature.array y => if y.length = x.length then Except.ok y else .error .runtimeError
      | _ => .error .runtimeError) (xs.map Feature.array) = .ok xs := by
      have h0 : ∀ ys : List Row, (∀ r ∈ ys, r.length = n) → eachRow (fun f => match f with
          | Feature.array y => if y.length = x.length then Except.ok y else .error .runtimeError
          | _ => .error .runtimeError) (ys.map Feature.array) = .ok ys := by
        intro ys
        induction ys with
        | nil => intro _; rfl
        | cons y ys ih =>
          intro h
          have hy : y.length = x.length := by rw [h y (by simp), hn x (by simp)]
          simp only [List.map_cons, eachRow, hy, if_true, ih fun r hr => h r (by simp [hr])]
      exact h0 xs fun r hr => hn r (by simp [hr])
    simp only [List.map_cons, collate, this]

theorem column_tuples (j : ℕ) : ∀ (rs : List (List Row)) (m : ℕ), (∀ r ∈ rs, r.length = m) → j < m →
    column j (rs.map fun r => .tuple (r.map Feature.array)) = (rs.map fun r => r.getD j []).map Feature.array
  | [], _, _, _ => rfl
  | r :: rs, m, h, hj => by
    have hr : j < r.length := by rw [h r (by simp)]; exact hj
    simp only [List.map_cons, column, column_tuples j rs m (fun r hr => h r (by simp [hr])) hj]
    rw [List.getElem?_map, List.getElem?_eq_getElem hr]
    simp [List.getD_eq_getElem?_getD, List.getElem?_eq_getElem hr]

/-- **C109 (making a batch).** `batch_states` of at least one observation: if the features are arrays of one size, row `i` of the
result is the feature of observation `i`; if they are tuples of arrays, the result is a tuple whose component `j` has in row `i`
component `j` of the feature of observation `i`. -/
theorem batch_states_rows {α : Type} (fuel : ℕ) (phi : α → Feature) (states : List α) (hne : states ≠ []) :
    (∀ (feat : α → Row) (n : ℕ), (∀ s ∈ states, phi s = .array (feat s) ∧ (feat s).length = n) →
      batchStates (fuel + 1) phi states = .ok (.tensor (states.map feat))) ∧
    (∀ (feat : α → List Row) (sizes : List ℕ), (∀ s ∈ states, phi s = .tuple ((feat s).map .array) ∧ (feat s).map List.length = sizes) →
      batchStates (fuel + 2) phi states = .ok (.tuple ((List.range sizes.length).map fun j =>
        .tensor (states.map fun s => (feat s).getD j [])))) := by
  obtain ⟨s0, rest, rfl⟩ := List.exists_cons_of_ne_nil hne
  constructor
  · intro feat n h
    have e : (s0 :: rest).map phi = ((s0 :: rest).map feat).map Feature.array := by
      rw [List.map_map]
      exact List.map_congr_left fun s hs => (h s hs).1
    unfold batchStates
    rw [e, collate_arrays fuel _ n (by
      intro r hr
      obtain ⟨s, hs, rfl⟩ := List.mem_map.1 hr
      exact (h s hs).2) (by simp)]
    rfl
  · intro feat sizes h
    have e : (s0 :: rest).map phi = ((s0 :: rest).map feat).map fun r => .tuple (r.map Feature.array) := by
      rw [List.map_map]
      exact List.map_congr_left fun s hs => (h s hs).1
    have hlen : ∀ r ∈ (s0 :: rest).map feat, r.length = sizes.length := by
      intro r hr
      obtain ⟨s, hs, rfl⟩ := List.mem_map.1 hr
      rw [← (h s hs).2, List.length_map]
    have h1 : eachRow (fun f => match f with
        | Feature.tuple ys => if ys.length = ((feat s0).map Feature.array).length then Except.ok () else .error .runtimeError
        | _ => .error .runtimeError) ((rest.map feat).map fun r => .tuple (r.map Feature.array)) = .ok ((rest.map feat).map fun _ => ()) := by
      rw [show ((rest.map feat).map fun _ => ()) = ((rest.map feat).map fun r => Feature.tuple (r.map Feature.array)).map fun _ => () by simp]
      refine eachRow_ok fun f hf => ?_
      obtain ⟨r, hr, rfl⟩ := List.mem_map.1 hf
      have := hlen r (by simp only [List.map_cons, List.mem_cons]; exact .inr hr)
      have h0 := hlen (feat s0) (by simp)
      simp [this, h0]
    have h2 : eachRow (fun j => collate (fuel + 1) (column j (.tuple ((feat s0).map Feature.array) ::
        (rest.map feat).map fun r => .tuple (r.map Feature.array)))) (List.range ((feat s0).map Feature.array).length)
        = .ok ((List.range sizes.length).map fun j => .tensor ((s0 :: rest).map fun s => (feat s).getD j [])) := by
      rw [List.length_map, hlen (feat s0) (by simp)]
      refine eachRow_ok fun j hj => ?_
      have hj := List.mem_range.1 hj
      have := column_tuples j ((s0 :: rest).map feat) sizes.length hlen hj
      simp only [List.map_cons] at this
      rw [this]
      have h3 := collate_arrays fuel (((s0 :: rest).map feat).map fun r => r.getD j []) (sizes.getD j 0) (by
        intro r hr
        obtain ⟨q, hq, rfl⟩ := List.mem_map.1 hr
        obtain ⟨s, hs, rfl⟩ := List.mem_map.1 hq
        have hl := hlen (feat s) hq
        rw [← (h s hs).2, List.getD_eq_getElem?_getD, List.getD_eq_getElem?_getD, List.getElem?_map, List.getElem?_eq_getElem (by omega)]
        rfl) (by simp)
      simp only [List.map_cons, List.map_map] at h3 ⊢
      exact h3
    have h4 : eachRow toDevice ((List.range sizes.length).map fun j => Collated.tensor ((s0 :: rest).map fun s => (feat s).getD j []))
        = .ok ((List.range sizes.length).map fun j => .tensor ((s0 :: rest).map fun s => (feat s).getD j [])) := by
      have := eachRow_ok (f := toDevice) (g := id) (xs := (List.range sizes.length).map fun j =>
        Collated.tensor ((s0 :: rest).map fun s => (feat s).getD j [])) (by
        intro c hc
        obtain ⟨j, _, rfl⟩ := List.mem_map.1 hc
        rfl)
      rw [this, List.map_id]
    unfold batchStates
    rw [e]
    simp only [List.map_cons] at h1 h2 h4 ⊢
    simp only [collate, h1, h2, List.head?_cons, toRecursive, h4]

/-- **C109 (what cannot be a batch).** No observations raise `IndexError`, dictionaries raise `TypeError`, and a tuple within a tuple
raises `AttributeError`. -/
theorem batch_states_raises {α : Type} (fuel : ℕ) (phi : α → Feature) (s : α) (x : Row) :
    batchStates (fuel + 1) phi [] = .error .indexError ∧
    (phi s = .dict → batchStates (fuel + 1) phi [s] = .error .typeError) ∧
    (phi s = .tuple [.tuple [.array x]] → batchStates (fuel + 3) phi [s] = .error .attributeError) := by
  refine ⟨rfl, fun h => ?_, fun h => ?_⟩
  · simp only [batchStates, List.map_cons, List.map_nil, h, collate, List.head?_cons, toRecursive]
  · have e : collate (fuel + 3) [.tuple [.tuple [.array x]]] = .ok (.list [.list [.tensor [x]]]) := by
      simp [collate, eachRow, column, List.range_succ]
    simp only [batchStates, List.map_cons, List.map_nil, h, e, List.head?_cons, toRecursive, eachRow, toDevice]

/-! ## Non-vacuity -/

/-- A perceptron with two inputs, three hidden units and one output. -/
example : Spec.Fits (⟨3, 1, fun _ _ => 1, fun _ => 0⟩ : Linear) 2 [⟨2, 3, fun j i => j + i, fun _ => 1⟩] := ⟨rfl, rfl⟩

/-- Constructed perceptrons fit. -/
example (draws : ℕ → ℕ → ℕ → ℝ) (act : ℝ → ℝ) : ∃ m, MLP.init 4 2 [64, 64] act 1 draws = .ok m ∧
    Spec.RowWise m.forward 4 2 (Spec.mlp m.act m.output m.hidden) := by
  obtain ⟨m, h1, h2, h3, -⟩ := (mlp_init 4 2 [64, 64] act 1 draws).1 (by norm_num) (by simp)
  exact ⟨m, h1, h3 ▸ mlp_rows m h2⟩

/-- A normalised perceptron. -/
example (n2 n1 : BatchNorm) (h2 : n2.size = 3) (h1 : n1.size = 1) : Spec.FitsBn (⟨3, 1, fun _ _ => 1, fun _ => 0⟩ : Linear) (some n1) 2
    [(⟨2, 3, fun j i => j + i, fun _ => 1⟩, n2)] := by
  refine ⟨rfl, h2, rfl, ?_⟩
  rintro b ⟨⟩
  exact h1

/-- An implicit quantile network: a perceptron for the features, a cosine embedding, and a linear layer. -/
example (m : MLP) (e o : Linear) (hm : Spec.Fits m.output 4 m.hidden) (hmo : m.output.nOut = 32) (he : e.nIn = 64) (heo : e.nOut = 32)
    (ho : o.nIn = 32) (hoo : o.nOut = 2) (ps : List (Row × Row)) (hps : ∀ p ∈ ps, p.1.length = 4 ∧ p.2.length = 8) :
    implicitQuantile 32 8 m.forward (cosineBasisLinear e 64 8) o.forward (ps.map Prod.fst) (ps.map Prod.snd)
      = .ok (ps.map fun p => p.2.map fun t => Spec.affine o (List.zipWith (· * ·) (Spec.mlp m.act m.output m.hidden p.1)
        (Spec.affine e (List.ofFn fun i : Fin 64 => Real.cos ((i.1 + 1) * Real.pi * t))))) :=
  iqn_rows (hmo ▸ mlp_rows m hm) (by have := linear_rows o; rw [ho, hoo] at this; exact this)
    (fun t => by rw [affine_length, heo]) (fun taus ht => cosine_rows e 64 8 he taus ht) ps hps

/-- An Atari screen. -/
example (w1 w2 w3 : ℕ → ℕ → ℕ → ℕ → ℝ) (b1 b2 b3 : ℕ → ℝ) (w : ℕ → ℕ → ℝ) (b : ℕ → ℝ) (px : ℕ → ℕ → ℕ → ℝ) (act : ℝ → ℝ) :
    ∃ y, cnnForward act (largeLayers 4 w1 w2 w3 b1 b2 b3) ⟨3136, 512, w, b⟩ [⟨4, 84, 84, px⟩] = .ok y :=
  ⟨_, ((atari_cnn_rows act 4 w1 w2 w3 b1 b2 b3 ⟨3136, 512, w, b⟩ ⟨2592, 256, w, b⟩ rfl rfl).1 [⟨4, 84, 84, px⟩] (by simp) (by simp)).1⟩

/-- Observations that are pairs of an image and a goal. -/
example : batchStates 2 (fun s : ℝ => .tuple [.array [s, 1], .array [2 * s]]) [3, 5]
    = .ok (.tuple [.tensor [[3, 1], [5, 1]], .tensor [[2 * 3], [2 * 5]]]) :=
  (batch_states_rows 0 _ [3, 5] (by simp)).2 (fun s => [[s, 1], [2 * s]]) [2, 1] (by simp)

end Pfrl.Networks
