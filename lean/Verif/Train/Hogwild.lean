import Verif.Numeric.RMSprop
import Mathlib.Tactic.NormNum
import Mathlib.Tactic.SplitIfs
import Mathlib.Data.Fintype.Basic
import Mathlib.Algebra.Order.Field.Basic
import Mathlib.Algebra.BigOperators.Group.List.Basic

/-!
# Asynchronous updates without locks (C129)

The processes of `train_agent_async` train one model in shared memory: each computes gradients with a model of its own, lets the shared
optimiser `SharedRMSpropEpsInsideSqrt` change the shared parameters in place, and copies them back.  There is no lock.
`pfrl/agents/a3c.py:108-109,209-221`, `pfrl/agents/acer.py:396-401,581-592`, `pfrl/optimizers/rmsprop_eps_inside_sqrt.py`,
`pfrl/experiments/train_agent_async.py:233-293`.

Tensors are flattened to their elements `ι`.  An in-place operation of PyTorch on an element is a read and a write (`atomic = false`); the
variant in which it cannot be interrupted is `atomic = true`.  Every element of a process's step runs at its own pace, which includes the
order of the code, tensor after tensor.
-/

namespace Pfrl.Train.Hogwild

set_option linter.unusedSectionVars false

open Pfrl.RMSprop (Hyper)

variable {ι D : Type} [Fintype ι] [DecidableEq ι]

/-! ## Model -/

/-- What is in shared memory for each element of the parameters, `pfrl/experiments/train_agent_async.py:239-250`. -/
inductive Cell where
  | param
  | squareAvg
  | gradAvg
  | momentumBuffer
  deriving DecidableEq

/-- The temporary values of a process for one element: `grad`, the operands of the operation under way, and `avg`. -/
structure Regs where
  grad : ℝ
  x : ℝ
  y : ℝ
  avg : ℝ

/-- What a process does to one element: read a shared value, write one, change one without being interrupted, or take the root of a
temporary value. -/
inductive Instr where
  | read (c : Cell) (f : Regs → ℝ → Regs)
  | write (c : Cell) (f : Regs → ℝ)
  | change (c : Cell) (f : Regs → ℝ → ℝ)
  | root (f : Regs → ℝ)

/-- An in-place operation on a shared tensor. -/
def inplace (atomic : Bool) (c : Cell) (f : Regs → ℝ → ℝ) : List Instr :=
  if atomic then [.change c f] else [.read c fun r x => { r with x := x }, .write c fun r => f r r.x]

/-- `RMSpropEpsInsideSqrt.step` for one element, `pfrl/optimizers/rmsprop_eps_inside_sqrt.py:40-65`. -/
noncomputable def stepProgram (atomic : Bool) (h : Hyper) (lr : ℝ) : List Instr :=
  (if h.weightDecay ≠ 0 then [.read .param fun r p => { r with grad := r.grad + h.weightDecay * p }] else []) ++
  inplace atomic .squareAvg (fun _ v => v * h.alpha) ++
  inplace atomic .squareAvg (fun r v => v + (1 - h.alpha) * (r.grad * r.grad)) ++
  (if h.centered then
    inplace atomic .gradAvg (fun _ m => m * h.alpha) ++
    inplace atomic .gradAvg (fun r m => m + (1 - h.alpha) * r.grad) ++
    [.read .squareAvg fun r v => { r with x := v }, .read .gradAvg fun r m => { r with x := r.x + -1 * (m * m) }]
  else [.read .squareAvg fun r v => { r with x := v }]) ++
  [.root fun r => r.x + h.eps] ++
  (if 0 < h.momentum then
    inplace atomic .momentumBuffer (fun _ b => b * h.momentum) ++
    inplace atomic .momentumBuffer (fun r b => b + r.grad / r.avg) ++
    [.read .momentumBuffer fun r b => { r with y := b }] ++
    inplace atomic .param (fun r p => p + -lr * r.y)
  else inplace atomic .param (fun r p => p + -lr * (r.grad / r.avg)))

/-- Where a process is: collecting experience, inside `optimizer.step()`, or inside `sync_parameters()`. -/
inductive Phase where
  | ready
  | stepping
  | syncing
  deriving DecidableEq

/-- A process: its own model, the rest of its step for each element, and the elements it still has to copy. -/
structure Worker (ι : Type) where
  phase : Phase
  model : ι → ℝ
  thread : ι → Regs × List Instr
  todo : ι → Bool

/-- Shared memory, and the processes.  `nan`: a process has met the root of a number that is not positive. -/
structure World (ι : Type) where
  shared : Cell → ι → ℝ
  worker : Nat → Worker ι
  nan : Bool

/-- What can happen next: process `i` computes the gradient of its loss on the data `d` and enters the optimiser; goes on with one element;
leaves the optimiser and begins to copy; copies one element; or goes on to collect experience. -/
inductive Event (ι D : Type) where
  | begin (i : Nat) (d : D) (lr : ℝ)
  | exec (i : Nat) (j : ι)
  | sync (i : Nat)
  | copy (i : Nat) (j : ι)
  | resume (i : Nat)

def World.setWorker (w : World ι) (i : Nat) (k : Worker ι) : World ι := { w with worker := Function.update w.worker i k }

def World.store (w : World ι) (c : Cell) (j : ι) (x : ℝ) : World ι :=
  { w with shared := Function.update w.shared c (Function.update (w.shared c) j x) }

/-- Process `i` has executed an instruction on element `j`. -/
def World.next (w : World ι) (i : Nat) (j : ι) (r : Regs) (rest : List Instr) : World ι :=
  w.setWorker i { w.worker i with thread := Function.update (w.worker i).thread j (r, rest) }

/-- The next instruction of process `i` on element `j`; `r` and the list are its temporary values and the rest of its program. -/
noncomputable def World.instr (w : World ι) (i : Nat) (j : ι) (r : Regs) : List Instr → World ι
  | [] => w
  | .read c f :: rest => w.next i j (f r (w.shared c j)) rest
  | .write c f :: rest => (w.store c j (f r)).next i j r rest
  | .change c f :: rest => (w.store c j (f r (w.shared c j))).next i j r rest
  | .root f :: rest => if 0 < f r then w.next i j { r with avg := Real.sqrt (f r) } rest else { w.next i j r [] with nan := true }

noncomputable def World.exec (w : World ι) (i : Nat) (j : ι) : World ι := w.instr i j ((w.worker i).thread j).1 ((w.worker i).thread j).2

/-- One event; an event that is not possible changes nothing.  `grad d θ` is the gradient after clipping, `None` where the loss does not
depend on an element, `pfrl/agents/a3c.py:209-221`. -/
noncomputable def step (atomic : Bool) (h : Hyper) (grad : D → (ι → ℝ) → ι → Option ℝ) (w : World ι) : Event ι D → World ι
  | .begin i d lr =>
    let k := w.worker i
    if k.phase = .ready then
      w.setWorker i { k with
        phase := .stepping
        thread := fun j => match grad d k.model j with
          | none => (⟨0, 0, 0, 0⟩, [])
          | some g => (⟨g, 0, 0, 0⟩, stepProgram atomic h lr) }
    else w
  | .exec i j => w.exec i j
  | .sync i =>
    let k := w.worker i
    if k.phase = .stepping ∧ ∀ j, (k.thread j).2.isEmpty = true then w.setWorker i { k with phase := .syncing, todo := fun _ => true } else w
  | .copy i j =>
    let k := w.worker i
    if k.phase = .syncing then
      w.setWorker i { k with model := Function.update k.model j (w.shared .param j), todo := Function.update k.todo j false }
    else w
  | .resume i =>
    let k := w.worker i
    if k.phase = .syncing ∧ ∀ j, k.todo j = false then w.setWorker i { k with phase := .ready } else w

noncomputable def run (atomic : Bool) (h : Hyper) (grad : D → (ι → ℝ) → ι → Option ℝ) (w : World ι) (es : List (Event ι D)) : World ι :=
  es.foldl (step atomic h grad) w

/-- The beginning, `pfrl/experiments/train_agent_async.py:233-293`: the shared model has the parameters `θ`, the shared optimiser is new
(`SharedRMSpropEpsInsideSqrt.__init__`), and process `i` has the model `models i`: a copy of the shared one if the training is given one
`agent`, and the one of `make_agent(i)` otherwise, which `setattr` at line 284 leaves as it is. -/
def start (θ : ι → ℝ) (models : Nat → ι → ℝ) : World ι where
  shared c j := if c = .param then θ j else 0
  worker i := ⟨.ready, models i, fun _ => (⟨0, 0, 0, 0⟩, []), fun _ => false⟩
  nan := false

/-! ## Specification -/

/-- The learning rates with which the processes entered the optimiser last, after an event. -/
def Spec.rates (w : World ι) (lrs : Nat → ℝ) : Event ι D → Nat → ℝ
  | .begin i _ lr => if (w.worker i).phase = .ready then Function.update lrs i lr else lrs
  | _ => lrs

/-- If the event is the last of a process's step on element `j`: the learning rate, the gradient and the root of that step. -/
def Spec.finishes (w : World ι) (lrs : Nat → ℝ) (j : ι) : Event ι D → List (ℝ × ℝ × ℝ)
  | .exec i j' =>
    if j' = j ∧ ((w.worker i).thread j).2.length = 1 then [(lrs i, ((w.worker i).thread j).1.grad, ((w.worker i).thread j).1.avg)] else []
  | _ => []

/-- The steps of all processes on element `j` that are finished after the events `es`, in the order in which they were finished. -/
noncomputable def Spec.finished (atomic : Bool) (h : Hyper) (grad : D → (ι → ℝ) → ι → Option ℝ) (j : ι) :
    World ι → (Nat → ℝ) → List (Event ι D) → List (ℝ × ℝ × ℝ)
  | _, _, [] => []
  | w, lrs, e :: es => Spec.finishes w lrs j e ++ Spec.finished atomic h grad j (step atomic h grad w e) (Spec.rates w lrs e) es

/-- How often a process has computed a gradient, at most. -/
def Spec.begins (es : List (Event ι D)) : Nat := es.countP fun | .begin .. => true | _ => false

/-! ## Lemmas: what every process keeps true, whatever the others do -/

/-- The number of writes to the parameter. -/
def bump (c : Cell) (k : Nat) : Nat := if c = .param then k + 1 else k

theorem le_bump (c : Cell) (k : Nat) : k ≤ bump c k := by unfold bump; split <;> omega

/-- If the shared cells of an element satisfy `Inv`, at any later time too, the rest of a program keeps it so and meets positive numbers at
every root. -/
def Safe (Inv : Nat → Cell → ℝ → Prop) : Nat → List Instr → Regs → Prop
  | _, [], _ => True
  | k, .read c f :: is, r => ∀ k', k ≤ k' → ∀ x, Inv k' c x → Safe Inv k' is (f r x)
  | k, .write c f :: is, r => ∀ k', k ≤ k' → Inv (bump c k') c (f r) ∧ Safe Inv (bump c k') is r
  | k, .change c f :: is, r => ∀ k', k ≤ k' → (∀ x, Inv k' c x → Inv (bump c k') c (f r x)) ∧ Safe Inv (bump c k') is r
  | k, .root f :: is, r => 0 < f r ∧ Safe Inv k is { r with avg := Real.sqrt (f r) }

theorem safe_mono {Inv : Nat → Cell → ℝ → Prop} : ∀ {is : List Instr} {r : Regs} {k k' : Nat}, k ≤ k' → Safe Inv k is r → Safe Inv k' is r
  | [], _, _, _, _, _ => trivial
  | .read _ _ :: _, _, _, _, hk, h => fun k'' hk'' => h k'' (hk.trans hk'')
  | .write _ _ :: _, _, _, _, hk, h => fun k'' hk'' => h k'' (hk.trans hk'')
  | .change _ _ :: _, _, _, _, hk, h => fun k'' hk'' => h k'' (hk.trans hk'')
  | .root _ :: is, _, _, _, hk, h => ⟨h.1, safe_mono (is := is) hk h.2⟩

structure Good (Inv : ι → Nat → Cell → ℝ → Prop) (K : ι → Nat) (w : World ι) : Prop where
  cells : ∀ c j, Inv j (K j) c (w.shared c j)
  threads : ∀ i j, Safe (Inv j) (K j) ((w.worker i).thread j).2 ((w.worker i).thread j).1
  finite : w.nan = false

/-- 1 if the next instruction writes the parameter. -/
def head : List Instr → Nat
  | .write c _ :: _ => bump c 0
  | .change c _ :: _ => bump c 0
  | _ => 0

/-- The number of writes to the parameter that an event makes. -/
def wrote (w : World ι) (j : ι) : Event ι D → Nat
  | .exec i j' => if j' = j then head ((w.worker i).thread j).2 else 0
  | _ => 0

theorem store_eq (w : World ι) (c c' : Cell) (j j' : ι) (x : ℝ) :
    (w.store c j x).shared c' j' = if c' = c ∧ j' = j then x else w.shared c' j' := by
  unfold World.store
  by_cases hc : c' = c
  · subst hc
    by_cases hj : j' = j
    · subst hj; simp
    · simp [hj]
  · simp [hc]

theorem setWorker_worker (w : World ι) (i i' : Nat) (k : Worker ι) : (w.setWorker i k).worker i' = if i' = i then k else w.worker i' := by
  unfold World.setWorker
  by_cases h : i' = i
  · subst h; simp
  · simp [h]

theorem good_set {Inv : ι → Nat → Cell → ℝ → Prop} {K K' : ι → Nat} {w w' : World ι} {i : Nat} {j : ι} {r : Regs} {is : List Instr}
    (hg : Good Inv K w) (hK : ∀ j, K j ≤ K' j) (hcell : ∀ c j, Inv j (K' j) c (w'.shared c j)) (hnan : w'.nan = false)
    (hw : w'.worker = Function.update w.worker i { w.worker i with thread := Function.update (w.worker i).thread j (r, is) })
    (hs : Safe (Inv j) (K' j) is r) : Good Inv K' w' := by
  refine ⟨hcell, ?_, hnan⟩
  intro i' j'
  rw [hw]
  by_cases hi : i' = i
  · subst hi
    simp only [Function.update_self]
    by_cases hj : j' = j
    · subst hj
      simpa only [Function.update_self] using hs
    · simp only [Function.update_of_ne hj]
      exact safe_mono (hK j') (hg.threads i' j')
  · simp only [Function.update_of_ne hi]
    exact safe_mono (hK j') (hg.threads i' j')

theorem good_exec {Inv : ι → Nat → Cell → ℝ → Prop} (hm : ∀ j c x k k', k ≤ k' → Inv j k c x → Inv j k' c x) {K : ι → Nat} {w : World ι}
    (hg : Good Inv K w) (i : Nat) (j : ι) :
    Good Inv (fun j' => K j' + wrote (D := D) w j' (.exec i j)) (w.exec i j) := by
  have hle : ∀ j', K j' ≤ K j' + wrote (D := D) w j' (.exec i j) := fun _ => Nat.le_add_right _ _
  have ht := hg.threads i j
  have hw : ∀ j', wrote (D := D) w j' (.exec i j) = if j = j' then head ((w.worker i).thread j').2 else 0 := fun _ => rfl
  have hadd : ∀ c k, k + bump c 0 = bump c k := by intro c k; unfold bump; split <;> omega
  unfold World.exec
  revert ht hw
  generalize hth : ((w.worker i).thread j).2 = is
  generalize hr : ((w.worker i).thread j).1 = r
  intro ht hw
  have hself : wrote (D := D) w j (.exec i j) = head is := by rw [hw, if_pos rfl, hth]
  have hzero : head is = 0 → ∀ j', wrote (D := D) w j' (.exec i j) = 0 := by
    intro h0 j'
    by_cases h : j = j'
    · subst h; rw [hself, h0]
    · rw [hw, if_neg h]
  cases is with
  | nil =>
    simp only [hzero rfl, Nat.add_zero]
    exact hg
  | cons ins rest =>
    cases ins with
    | read c f =>
      simp only [hzero rfl, Nat.add_zero]
      exact good_set hg (fun _ => le_rfl) hg.cells hg.finite rfl (ht _ le_rfl _ (hg.cells c j))
    | write c f =>
      have hb : K j + wrote (D := D) w j (.exec i j) = bump c (K j) := by rw [hself]; exact hadd c (K j)
      have ht' := ht (K j) le_rfl
      refine good_set (w' := (w.store c j (f r)).next i j r rest) hg hle ?_ hg.finite rfl ?_
      · intro c' j'
        show Inv j' _ c' ((w.store c j _).shared c' j')
        rw [store_eq]
        split
        · rename_i he
          obtain ⟨rfl, rfl⟩ := he
          rw [hb]
          exact ht'.1
        · exact hm _ _ _ _ _ (hle j') (hg.cells c' j')
      · show Safe (Inv j) (K j + wrote (D := D) w j (.exec i j)) _ _
        rw [hb]
        exact ht'.2
    | change c f =>
      have hb : K j + wrote (D := D) w j (.exec i j) = bump c (K j) := by rw [hself]; exact hadd c (K j)
      have ht' := ht (K j) le_rfl
      refine good_set (w' := (w.store c j (f r (w.shared c j))).next i j r rest) hg hle ?_ hg.finite rfl ?_
      · intro c' j'
        show Inv j' _ c' ((w.store c j _).shared c' j')
        rw [store_eq]
        split
        · rename_i he
          obtain ⟨rfl, rfl⟩ := he
          rw [hb]
          exact ht'.1 _ (hg.cells _ _)
        · exact hm _ _ _ _ _ (hle j') (hg.cells c' j')
      · show Safe (Inv j) (K j + wrote (D := D) w j (.exec i j)) _ _
        rw [hb]
        exact ht'.2
    | root f =>
      simp only [hzero rfl, Nat.add_zero]
      show Good Inv _ (if 0 < f r then _ else _)
      rw [if_pos ht.1]
      exact good_set hg (fun _ => le_rfl) hg.cells hg.finite rfl ht.2

theorem good_step {Inv : ι → Nat → Cell → ℝ → Prop} (hm : ∀ j c x k k', k ≤ k' → Inv j k c x → Inv j k' c x) (atomic : Bool) (h : Hyper)
    (grad : D → (ι → ℝ) → ι → Option ℝ) {K : ι → Nat} {w : World ι} (hg : Good Inv K w) (e : Event ι D)
    (hb : ∀ i d lr, e = .begin i d lr → ∀ θ j g k, grad d θ j = some g → Safe (Inv j) k (stepProgram atomic h lr) ⟨g, 0, 0, 0⟩) :
    Good Inv (fun j => K j + wrote w j e) (step atomic h grad w e) := by
  cases e with
  | exec i j => exact good_exec hm hg i j
  | begin i d lr =>
    show Good Inv (fun j => K j + 0) _
    unfold step
    simp only [Nat.add_zero]
    split
    · refine ⟨hg.cells, ?_, hg.finite⟩
      intro i' j
      rw [setWorker_worker]
      split
      · cases hgr : grad d (w.worker i).model j with
        | none => simp only [hgr]; trivial
        | some g => simp only [hgr]; exact hb i d lr rfl _ _ _ _ hgr
      · exact hg.threads i' j
    · exact hg
  | sync i =>
    show Good Inv (fun j => K j + 0) _
    unfold step
    simp only [Nat.add_zero]
    split
    · refine ⟨hg.cells, ?_, hg.finite⟩
      intro i' j
      rw [setWorker_worker]
      split
      · rename_i h; subst h; exact hg.threads i' j
      · exact hg.threads i' j
    · exact hg
  | copy i j =>
    show Good Inv (fun j => K j + 0) _
    unfold step
    simp only [Nat.add_zero]
    split
    · refine ⟨hg.cells, ?_, hg.finite⟩
      intro i' j
      rw [setWorker_worker]
      split
      · rename_i h; subst h; exact hg.threads i' j
      · exact hg.threads i' j
    · exact hg
  | resume i =>
    show Good Inv (fun j => K j + 0) _
    unfold step
    simp only [Nat.add_zero]
    split
    · refine ⟨hg.cells, ?_, hg.finite⟩
      intro i' j
      rw [setWorker_worker]
      split
      · rename_i h; subst h; exact hg.threads i' j
      · exact hg.threads i' j
    · exact hg

/-- The number of writes to the parameter in a run. -/
noncomputable def writes (atomic : Bool) (h : Hyper) (grad : D → (ι → ℝ) → ι → Option ℝ) (j : ι) : World ι → List (Event ι D) → Nat
  | _, [] => 0
  | w, e :: es => wrote w j e + writes atomic h grad j (step atomic h grad w e) es

theorem good_run {Inv : ι → Nat → Cell → ℝ → Prop} (hm : ∀ j c x k k', k ≤ k' → Inv j k c x → Inv j k' c x) (atomic : Bool) (h : Hyper)
    (grad : D → (ι → ℝ) → ι → Option ℝ) : ∀ (es : List (Event ι D)) {K : ι → Nat} {w : World ι}, Good Inv K w →
    (∀ i d lr, .begin i d lr ∈ es → ∀ θ j g k, grad d θ j = some g → Safe (Inv j) k (stepProgram atomic h lr) ⟨g, 0, 0, 0⟩) →
    Good Inv (fun j => K j + writes atomic h grad j w es) (run atomic h grad w es)
  | [], _, _, hg, _ => hg
  | e :: es, K, w, hg, hb => by
    have h1 := good_step hm atomic h grad hg e fun i d lr he => hb i d lr (he ▸ List.mem_cons_self)
    have h2 := good_run hm atomic h grad es h1 fun i d lr hmem => hb i d lr (List.mem_cons_of_mem _ hmem)
    have : (fun j => K j + writes atomic h grad j w (e :: es)) =
        fun j => K j + wrote w j e + writes atomic h grad j (step atomic h grad w e) es := by
      funext j; simp only [writes, Nat.add_assoc]
    rw [this]
    exact h2

theorem good_start {Inv : ι → Nat → Cell → ℝ → Prop} (θ : ι → ℝ) (models : Nat → ι → ℝ) (h : ∀ c j, Inv j 0 c (if c = .param then θ j else 0)) :
    Good Inv (fun _ => 0) (start θ models) := ⟨h, fun _ _ => trivial, rfl⟩

/-! ## C129 -/

/-- The running means of squares stay non-negative. -/
def InvSq : Nat → Cell → ℝ → Prop
  | _, .squareAvg, x => 0 ≤ x
  | _, _, _ => True

theorem safe_append {Inv : Nat → Cell → ℝ → Prop} (is' : List Instr) : ∀ (is : List Instr) {r : Regs} {k : Nat}, Safe Inv k is r →
    (∀ k r, Safe Inv k is' r) → Safe Inv k (is ++ is') r
  | [], r, k, _, h' => h' k r
  | .read _ _ :: is, _, _, h, h' => fun k' hk x hx => safe_append is' is (h k' hk x hx) h'
  | .write _ _ :: is, _, _, h, h' => fun k' hk => ⟨(h k' hk).1, safe_append is' is (h k' hk).2 h'⟩
  | .change _ _ :: is, _, _, h, h' => fun k' hk => ⟨(h k' hk).1, safe_append is' is (h k' hk).2 h'⟩
  | .root _ :: is, _, _, h, h' => ⟨h.1, safe_append is' is h.2 h'⟩

theorem safe_inplace {Inv : Nat → Cell → ℝ → Prop} (atomic : Bool) (c : Cell) (f : Regs → ℝ → ℝ)
    (hf : ∀ k r x, Inv k c x → ∀ k', k ≤ k' → Inv (bump c k') c (f r x)) (k : Nat) (r : Regs) :
    Safe Inv k (inplace atomic c f) r := by
  unfold inplace
  cases atomic
  · intro k' hk x hx' k'' hk''
    exact ⟨hf k' _ x hx' k'' hk'', trivial⟩
  · intro k' hk
    exact ⟨fun x hx' => hf k' r x hx' k' le_rfl, trivial⟩

theorem safe_step (atomic : Bool) {h : Hyper} (hα0 : 0 ≤ h.alpha) (hα1 : h.alpha ≤ 1) (he : 0 < h.eps) (hc : h.centered = false) (lr : ℝ)
    (k : Nat) (r : Regs) : Safe InvSq k (stepProgram atomic h lr) r := by
  unfold stepProgram
  rw [hc]
  have htail : ∀ k r, Safe InvSq k (if 0 < h.momentum then
      inplace atomic .momentumBuffer (fun _ b => b * h.momentum) ++ inplace atomic .momentumBuffer (fun r b => b + r.grad / r.avg) ++
      [.read .momentumBuffer fun r b => { r with y := b }] ++ inplace atomic .param (fun r p => p + -lr * r.y)
      else inplace atomic .param (fun r p => p + -lr * (r.grad / r.avg))) r := by
    intro k r
    split
    · refine safe_append _ _ (safe_append _ _ (safe_append _ _ ?_ ?_) ?_) ?_
      · exact safe_inplace _ _ _ (fun _ _ _ _ _ _ => trivial) _ _
      · exact fun _ _ => safe_inplace _ _ _ (fun _ _ _ _ _ _ => trivial) _ _
      · exact fun _ _ _ _ _ _ => trivial
      · exact fun _ _ => safe_inplace _ _ _ (fun _ _ _ _ _ _ => trivial) _ _
    · exact safe_inplace _ _ _ (fun _ _ _ _ _ _ => trivial) _ _
  have hmid : ∀ k r, Safe InvSq k ([Instr.read .squareAvg fun r v => { r with x := v }] ++ [Instr.root fun r => r.x + h.eps] ++
      (if 0 < h.momentum then
      inplace atomic .momentumBuffer (fun _ b => b * h.momentum) ++ inplace atomic .momentumBuffer (fun r b => b + r.grad / r.avg) ++
      [.read .momentumBuffer fun r b => { r with y := b }] ++ inplace atomic .param (fun r p => p + -lr * r.y)
      else inplace atomic .param (fun r p => p + -lr * (r.grad / r.avg)))) r := by
    intro k r k' _ x hx
    exact ⟨add_pos_of_nonneg_of_pos hx he, htail _ _⟩
  simp only [List.append_assoc, Bool.false_eq_true, if_false]
  simp only [List.append_assoc] at hmid
  refine safe_append _ _ ?_ fun k r => safe_append _ _ ?_ fun k r => safe_append _ _ ?_ hmid
  · split
    · exact fun _ _ _ _ => trivial
    · trivial
  · exact safe_inplace _ _ _ (fun _ _ _ hx _ _ => mul_nonneg hx hα0) _ _
  · exact safe_inplace _ _ _ (fun _ r _ hx _ _ => add_nonneg hx (mul_nonneg (by linarith) (mul_self_nonneg r.grad))) _ _

/-- **C129 (no process ever breaks the model).** However many processes train without locks, and however their single reads and writes
interleave, the uncentred optimiser never takes the root of a number that is not positive, so that no NaN enters the shared model, with
momentum and weight decay too. -/
theorem async_never_nan (atomic : Bool) {h : Hyper} (hα0 : 0 ≤ h.alpha) (hα1 : h.alpha ≤ 1) (he : 0 < h.eps) (hc : h.centered = false)
    (grad : D → (ι → ℝ) → ι → Option ℝ) (θ : ι → ℝ) (models : Nat → ι → ℝ) (es : List (Event ι D)) :
    (run atomic h grad (start θ models) es).nan = false ∧ ∀ j, 0 ≤ (run atomic h grad (start θ models) es).shared .squareAvg j := by
  have hg := good_run (Inv := fun _ : ι => InvSq) (fun _ c _ _ _ _ hx => by cases c <;> exact hx) atomic h grad es
    (good_start θ models fun c _ => by cases c <;> simp [InvSq]) fun _ _ lr _ _ _ _ k _ => safe_step atomic hα0 hα1 he hc lr k _
  exact ⟨hg.finite, fun j => hg.cells .squareAvg j⟩

/-- The parameter stays near its first value. -/
def InvBound (B θ : ℝ) : Nat → Cell → ℝ → Prop
  | _, .squareAvg, x => 0 ≤ x
  | k, .param, x => |x - θ| ≤ k * B
  | _, _, _ => True

theorem div_sqrt_le {g v eps G : ℝ} (hv : 0 ≤ v) (he : 0 < eps) (hg : |g| ≤ G) : |g / Real.sqrt (v + eps)| ≤ G / Real.sqrt eps := by
  rw [abs_div, abs_of_nonneg (Real.sqrt_nonneg _)]
  exact div_le_div₀ ((abs_nonneg g).trans hg) hg (Real.sqrt_pos.mpr he) (Real.sqrt_le_sqrt (by linarith))

/-- The step without momentum, weight decay and centring. -/
theorem plain_program (atomic : Bool) {h : Hyper} (hc : h.centered = false) (hμ : ¬ 0 < h.momentum) (hwd : h.weightDecay = 0) (lr : ℝ) :
    stepProgram atomic h lr = inplace atomic .squareAvg (fun _ v => v * h.alpha) ++
      inplace atomic .squareAvg (fun r v => v + (1 - h.alpha) * (r.grad * r.grad)) ++
      [.read .squareAvg fun r v => { r with x := v }, .root fun r => r.x + h.eps] ++
      inplace atomic .param (fun r p => p + -lr * (r.grad / r.avg)) := by
  unfold stepProgram
  rw [if_neg (by simp [hwd]), if_neg (by simp [hc]), if_neg hμ]
  simp

theorem safe_bound (atomic : Bool) {h : Hyper} (hα0 : 0 ≤ h.alpha) (hα1 : h.alpha ≤ 1) (he : 0 < h.eps) (hc : h.centered = false)
    (hμ : ¬ 0 < h.momentum) (hwd : h.weightDecay = 0) {lr L G θ : ℝ} (hlr : |lr| ≤ L) {g : ℝ} (hg : |g| ≤ G) (k : Nat) :
    Safe (InvBound (L * (G / Real.sqrt h.eps)) θ) k (stepProgram atomic h lr) ⟨g, 0, 0, 0⟩ := by
  have hB : 0 ≤ L * (G / Real.sqrt h.eps) :=
    mul_nonneg ((abs_nonneg _).trans hlr) (div_nonneg ((abs_nonneg _).trans hg) (Real.sqrt_nonneg _))
  have hmove : ∀ v, 0 ≤ v → ∀ k k' : Nat, k ≤ k' → ∀ p, |p - θ| ≤ k * (L * (G / Real.sqrt h.eps)) →
      |p + -lr * (g / Real.sqrt (v + h.eps)) - θ| ≤ ((k' + 1 : Nat) : ℝ) * (L * (G / Real.sqrt h.eps)) := by
    intro v hv k k' hk p hp
    have h1 : |-lr * (g / Real.sqrt (v + h.eps))| ≤ L * (G / Real.sqrt h.eps) := by
      rw [abs_mul, abs_neg]
      exact mul_le_mul hlr (div_sqrt_le hv he hg) (abs_nonneg _) ((abs_nonneg _).trans hlr)
    have h2 : p + -lr * (g / Real.sqrt (v + h.eps)) - θ = (p - θ) + -lr * (g / Real.sqrt (v + h.eps)) := by ring
    have h3 : (k : ℝ) ≤ k' := by exact_mod_cast hk
    rw [h2]
    push_cast
    calc _ ≤ |p - θ| + |-lr * (g / Real.sqrt (v + h.eps))| := abs_add_le _ _
      _ ≤ k * (L * (G / Real.sqrt h.eps)) + L * (G / Real.sqrt h.eps) := add_le_add hp h1
      _ ≤ k' * (L * (G / Real.sqrt h.eps)) + L * (G / Real.sqrt h.eps) := by
        have := mul_le_mul_of_nonneg_right h3 hB
        linarith
      _ = _ := by ring
  rw [plain_program atomic hc hμ hwd]
  unfold inplace
  cases atomic
  · intro k _ v hv k _
    refine ⟨mul_nonneg hv hα0, ?_⟩
    intro k _ v hv k _
    refine ⟨add_nonneg hv (mul_nonneg (by linarith) (mul_self_nonneg _)), ?_⟩
    intro k _ v hv
    refine ⟨add_pos_of_nonneg_of_pos hv he, ?_⟩
    intro k _ p hp k' hk'
    exact ⟨hmove v hv k k' hk' p hp, trivial⟩
  · intro k _
    refine ⟨fun v hv => mul_nonneg hv hα0, ?_⟩
    intro k _
    refine ⟨fun v hv => add_nonneg hv (mul_nonneg (by linarith) (mul_self_nonneg _)), ?_⟩
    intro k _ v hv
    refine ⟨add_pos_of_nonneg_of_pos hv he, ?_⟩
    intro k _
    exact ⟨fun p hp => hmove v hv k k le_rfl p hp, trivial⟩

/-- The number of writes to the parameter still to come in a program. -/
def pending : List Instr → Nat
  | [] => 0
  | i :: is => head [i] + pending is

theorem pending_cons (is : List Instr) : pending is = head is + pending is.tail := by
  cases is with
  | nil => rfl
  | cons i is => cases i <;> rfl

theorem pending_append (is is' : List Instr) : pending (is ++ is') = pending is + pending is' := by
  induction is with
  | nil => simp [pending]
  | cons i is ih => simp only [List.cons_append, pending, ih, Nat.add_assoc]

theorem pending_program (atomic : Bool) (h : Hyper) (lr : ℝ) : pending (stepProgram atomic h lr) = 1 := by
  have hin : ∀ c f, pending (inplace atomic c f) = bump c 0 := by
    intro c f
    unfold inplace
    cases atomic <;> simp [pending, head]
  unfold stepProgram
  simp only [pending_append, hin]
  split <;> split <;> split <;> simp [pending, pending_append, hin, head, bump]

/-- All writes still to come, of the processes below `n`. -/
def allPending (n : Nat) (j : ι) (w : World ι) : Nat := ∑ i ∈ Finset.range n, pending ((w.worker i).thread j).2

/-- The process of an event. -/
def Event.who : Event ι D → Nat
  | .begin i _ _ => i
  | .exec i _ => i
  | .sync i => i
  | .copy i _ => i
  | .resume i => i

theorem allPending_set {n : Nat} {j : ι} {w w' : World ι} {i : Nat} (hi : i < n) (h : ∀ i', i' ≠ i → w'.worker i' = w.worker i') :
    allPending n j w' + pending ((w.worker i).thread j).2 = allPending n j w + pending ((w'.worker i).thread j).2 := by
  unfold allPending
  rw [← Finset.add_sum_erase _ _ (Finset.mem_range.mpr hi), ← Finset.add_sum_erase _ (fun i => pending ((w.worker i).thread j).2) (Finset.mem_range.mpr hi)]
  have : ∑ x ∈ (Finset.range n).erase i, pending ((w'.worker x).thread j).2 = ∑ x ∈ (Finset.range n).erase i, pending ((w.worker x).thread j).2 := by
    apply Finset.sum_congr rfl
    intro x hx
    rw [h x (Finset.ne_of_mem_erase hx)]
  omega

theorem instr_root (w : World ι) (i : Nat) (j : ι) (r : Regs) (f : Regs → ℝ) (rest : List Instr) : w.instr i j r (.root f :: rest) =
    if 0 < f r then w.next i j { r with avg := Real.sqrt (f r) } rest else { w.next i j r [] with nan := true } := rfl

theorem exec_other (w : World ι) (i i' : Nat) (j : ι) (hi : i' ≠ i) : (w.exec i j).worker i' = w.worker i' := by
  unfold World.exec
  generalize ((w.worker i).thread j).2 = is
  generalize ((w.worker i).thread j).1 = r
  cases is with
  | nil => rfl
  | cons ins rest =>
    cases ins with
    | root f =>
      rw [instr_root]
      split <;> exact Function.update_of_ne hi _ _
    | _ => exact Function.update_of_ne hi _ _

theorem exec_thread (w : World ι) (i : Nat) (j : ι) :
    (((w.exec i j).worker i).thread j).2 = ((w.worker i).thread j).2.tail ∨ (((w.exec i j).worker i).thread j).2 = [] := by
  unfold World.exec
  generalize hth : ((w.worker i).thread j).2 = is
  generalize ((w.worker i).thread j).1 = r
  cases is with
  | nil => exact Or.inr hth
  | cons ins rest =>
    cases ins with
    | root f =>
      rw [instr_root]
      split
      · exact Or.inl (by simp [World.next, World.setWorker])
      · exact Or.inr (by simp [World.next, World.setWorker])
    | _ => exact Or.inl (by simp [World.instr, World.next, World.setWorker, World.store])

theorem exec_thread_other (w : World ι) (i : Nat) (j j' : ι) (hj : j' ≠ j) :
    ((w.exec i j).worker i).thread j' = (w.worker i).thread j' := by
  unfold World.exec
  generalize hth : ((w.worker i).thread j).2 = is
  generalize ((w.worker i).thread j).1 = r
  cases is with
  | nil => rfl
  | cons ins rest =>
    cases ins with
    | root f =>
      rw [instr_root]
      split <;> simp [World.next, World.setWorker, hj]
    | _ => simp [World.instr, World.next, World.setWorker, World.store, hj]

/-- Every write to a parameter belongs to a gradient. -/
theorem writes_step (atomic : Bool) (h : Hyper) (grad : D → (ι → ℝ) → ι → Option ℝ) (n : Nat) (j : ι) (w : World ι) (e : Event ι D)
    (he : e.who < n) : wrote w j e + allPending n j (step atomic h grad w e) ≤ allPending n j w + Spec.begins [e] := by
  cases e with
  | exec i j' =>
    have hi : i < n := he
    have h1 := allPending_set (n := n) (j := j) (w := w) (w' := w.exec i j') hi fun i' => exec_other w i i' j'
    show (if j' = j then head ((w.worker i).thread j).2 else 0) + allPending n j (w.exec i j') ≤ _
    have h2 := pending_cons ((w.worker i).thread j).2
    split
    · rename_i hj
      subst hj
      rcases exec_thread w i j' with h3 | h3
      · rw [h3] at h1; omega
      · rw [h3] at h1; simp only [pending] at h1; omega
    · rename_i hj
      rw [exec_thread_other w i j' j (Ne.symm hj)] at h1
      omega
  | begin i d lr =>
    have hi : i < n := he
    show 0 + allPending n j (step atomic h grad w (.begin i d lr)) ≤ allPending n j w + 1
    have h1 := allPending_set (n := n) (j := j) (w := w) (w' := step atomic h grad w (.begin i d lr)) hi (by
      intro i' hi'
      unfold step
      simp only
      split
      · rw [setWorker_worker, if_neg hi']
      · rfl)
    have h2 : pending (((step atomic h grad w (.begin i d lr)).worker i).thread j).2 ≤ pending ((w.worker i).thread j).2 + 1 := by
      simp only [step]
      split
      · rw [setWorker_worker, if_pos rfl]
        cases hgr : grad d (w.worker i).model j with
        | none => simp [hgr, pending]
        | some g => simp only [hgr]; rw [pending_program]; omega
      · omega
    omega
  | sync i =>
    have hi : i < n := he
    have h1 := allPending_set (n := n) (j := j) (w := w) (w' := step atomic h grad w (.sync i)) hi (by
      intro i' hi'
      unfold step
      simp only
      split
      · rw [setWorker_worker, if_neg hi']
      · rfl)
    have h2 : ((step atomic h grad w (.sync i)).worker i).thread j = (w.worker i).thread j := by
      simp only [step]
      split
      · rw [setWorker_worker, if_pos rfl]
      · rfl
    rw [h2] at h1
    show 0 + _ ≤ _ + 0
    omega
  | copy i j' =>
    have hi : i < n := he
    have h1 := allPending_set (n := n) (j := j) (w := w) (w' := step atomic h grad w (.copy i j')) hi (by
      intro i' hi'
      unfold step
      simp only
      split
      · rw [setWorker_worker, if_neg hi']
      · rfl)
    have h2 : ((step atomic h grad w (.copy i j')).worker i).thread j = (w.worker i).thread j := by
      simp only [step]
      split
      · rw [setWorker_worker, if_pos rfl]
      · rfl
    rw [h2] at h1
    show 0 + _ ≤ _ + 0
    omega
  | resume i =>
    have hi : i < n := he
    have h1 := allPending_set (n := n) (j := j) (w := w) (w' := step atomic h grad w (.resume i)) hi (by
      intro i' hi'
      unfold step
      simp only
      split
      · rw [setWorker_worker, if_neg hi']
      · rfl)
    have h2 : ((step atomic h grad w (.resume i)).worker i).thread j = (w.worker i).thread j := by
      simp only [step]
      split
      · rw [setWorker_worker, if_pos rfl]
      · rfl
    rw [h2] at h1
    show 0 + _ ≤ _ + 0
    omega

theorem writes_run (atomic : Bool) (h : Hyper) (grad : D → (ι → ℝ) → ι → Option ℝ) (n : Nat) (j : ι) : ∀ (es : List (Event ι D)) (w : World ι),
    (∀ e ∈ es, e.who < n) → writes atomic h grad j w es ≤ allPending n j w + Spec.begins es
  | [], _, _ => Nat.zero_le _
  | e :: es, w, hn => by
    have h1 := writes_step atomic h grad n j w e (hn e List.mem_cons_self)
    have h2 := writes_run atomic h grad n j es (step atomic h grad w e) fun e he => hn e (List.mem_cons_of_mem _ he)
    have h3 : Spec.begins (e :: es) = Spec.begins [e] + Spec.begins es := by
      unfold Spec.begins
      rw [← List.countP_append]
      rfl
    simp only [writes]
    omega

theorem exists_bound : ∀ es : List (Event ι D), ∃ n, ∀ e ∈ es, e.who < n
  | [] => ⟨0, fun _ h => nomatch h⟩
  | e :: es => by
    obtain ⟨n, hn⟩ := exists_bound es
    refine ⟨max n (e.who + 1), ?_⟩
    intro e' he'
    rcases List.mem_cons.mp he' with rfl | h
    · omega
    · have := hn e' h; omega

/-- **C129 (no step is larger than it may be).** With the default settings (no centring, momentum or weight decay), gradients of at most `G`
(`max_grad_norm`) and learning rates of at most `L`, every shared parameter stays within `L * G / √eps` of its first value per gradient
computed by any process, however reads and writes interleave. -/
theorem async_bounded (atomic : Bool) {h : Hyper} (hα0 : 0 ≤ h.alpha) (hα1 : h.alpha ≤ 1) (he : 0 < h.eps) (hc : h.centered = false)
    (hμ : h.momentum = 0) (hwd : h.weightDecay = 0) (grad : D → (ι → ℝ) → ι → Option ℝ) {L G : ℝ}
    (θ : ι → ℝ) (models : Nat → ι → ℝ) (es : List (Event ι D)) (hL : ∀ i d lr, .begin i d lr ∈ es → |lr| ≤ L)
    (hG : ∀ i d lr, .begin i d lr ∈ es → ∀ θ' j g, grad d θ' j = some g → |g| ≤ G) (hL0 : 0 ≤ L) (hG0 : 0 ≤ G) (j : ι) :
    |(run atomic h grad (start θ models) es).shared .param j - θ j| ≤ Spec.begins es * (L * (G / Real.sqrt h.eps)) := by
  have hB : 0 ≤ L * (G / Real.sqrt h.eps) := mul_nonneg hL0 (div_nonneg hG0 (Real.sqrt_nonneg _))
  have hg := good_run (Inv := fun j => InvBound (L * (G / Real.sqrt h.eps)) (θ j)) (fun j c x k k' hk hx => by
      cases c with
      | param => exact le_trans (b := (k : ℝ) * (L * (G / Real.sqrt h.eps))) hx (mul_le_mul_of_nonneg_right (by exact_mod_cast hk) hB)
      | _ => exact hx) atomic h grad es
    (good_start θ models fun c _ => by cases c <;> simp [InvBound]) fun i d lr hm θ' j g k hgr =>
      safe_bound atomic hα0 hα1 he hc (by rw [hμ]; exact lt_irrefl _) hwd (hL i d lr hm) (hG i d lr hm θ' j g hgr) k
  have h1 : |(run atomic h grad (start θ models) es).shared .param j - θ j| ≤
      ((0 + writes atomic h grad j (start θ models) es : Nat) : ℝ) * (L * (G / Real.sqrt h.eps)) := hg.cells .param j
  obtain ⟨n, hn⟩ := exists_bound es
  have h2 := writes_run atomic h grad n j es (start θ models) hn
  have h3 : allPending n j (start θ models) = 0 := Finset.sum_eq_zero fun _ _ => rfl
  refine h1.trans (mul_le_mul_of_nonneg_right ?_ hB)
  exact_mod_cast (by omega)

/-- The last operation of a step without momentum. -/
noncomputable def lastOp (lr : ℝ) : Instr := .change .param fun r p => p + -lr * (r.grad / r.avg)

theorem program_last {h : Hyper} (hμ : ¬ 0 < h.momentum) (lr : ℝ) : ∃ s, pending s = 0 ∧ stepProgram true h lr = s ++ [lastOp lr] := by
  have h1 := pending_program true h lr
  unfold stepProgram at h1 ⊢
  rw [if_neg hμ] at h1 ⊢
  refine ⟨_, ?_, rfl⟩
  rw [pending_append] at h1
  have h2 : pending (inplace true .param fun r p => p + -lr * (r.grad / r.avg)) = 1 := by simp [inplace, pending, head, bump]
  rw [h2] at h1
  exact Nat.add_eq_right.mp h1

/-- All processes are in steps of this kind. -/
def Tails (lrs : Nat → ℝ) (j : ι) (w : World ι) : Prop :=
  ∀ i, ((w.worker i).thread j).2 = [] ∨ ∃ s, pending s = 0 ∧ ((w.worker i).thread j).2 = s ++ [lastOp (lrs i)]

theorem tails_of {lrs : Nat → ℝ} {j : ι} {w w' : World ι} (h : Tails lrs j w)
    (ht : ∀ i, ((w'.worker i).thread j).2 = ((w.worker i).thread j).2 ∨ ((w'.worker i).thread j).2 = ((w.worker i).thread j).2.tail ∨
      ((w'.worker i).thread j).2 = []) : Tails lrs j w' := by
  intro i
  rcases ht i with e | e | e
  · rw [e]; exact h i
  · rw [e]
    rcases h i with h0 | ⟨s, hs, hl⟩
    · rw [h0]; exact Or.inl rfl
    · cases s with
      | nil => rw [hl]; exact Or.inl rfl
      | cons a s =>
        rw [hl]
        refine Or.inr ⟨s, ?_, rfl⟩
        simp only [pending] at hs
        omega
  · exact Or.inl e

theorem tails_step (h : Hyper) (hμ : ¬ 0 < h.momentum) (grad : D → (ι → ℝ) → ι → Option ℝ) {lrs : Nat → ℝ} {j : ι} {w : World ι} (ht : Tails lrs j w)
    (e : Event ι D) : Tails (Spec.rates w lrs e) j (step true h grad w e) := by
  cases e with
  | exec i j' =>
    apply tails_of (w := w) ht
    intro i'
    by_cases hi : i' = i
    · subst hi
      by_cases hj : j = j'
      · subst hj
        exact Or.inr (exec_thread w i' j)
      · exact Or.inl (by rw [show step true h grad w (.exec i' j') = w.exec i' j' from rfl, exec_thread_other w i' j' j hj])
    · exact Or.inl (by rw [show step true h grad w (.exec i j') = w.exec i j' from rfl, exec_other w i i' j' hi])
  | begin i d lr =>
    simp only [step, Spec.rates]
    split
    · intro i'
      rw [setWorker_worker]
      by_cases hi : i' = i
      · subst hi
        rw [if_pos rfl, Function.update_self]
        cases hgr : grad d (w.worker i').model j with
        | none => exact Or.inl (by simp [hgr])
        | some g =>
          obtain ⟨s, hs, he⟩ := program_last hμ lr
          exact Or.inr ⟨s, hs, by simp only [hgr]; exact he⟩
      · rw [if_neg hi, Function.update_of_ne hi]
        exact ht i'
    · exact ht
  | sync i =>
    apply tails_of (w := w) ht
    intro i'
    left
    simp only [step]
    split
    · rw [setWorker_worker]; split
      · rename_i h; subst h; rfl
      · rfl
    · rfl
  | copy i j' =>
    apply tails_of (w := w) ht
    intro i'
    left
    simp only [step]
    split
    · rw [setWorker_worker]; split
      · rename_i h; subst h; rfl
      · rfl
    · rfl
  | resume i =>
    apply tails_of (w := w) ht
    intro i'
    left
    simp only [step]
    split
    · rw [setWorker_worker]; split
      · rename_i h; subst h; rfl
      · rfl
    · rfl

theorem exec_param_other (w : World ι) (i : Nat) (j j' : ι) (hj : j ≠ j') : (w.exec i j').shared .param j = w.shared .param j := by
  unfold World.exec
  generalize ((w.worker i).thread j').2 = is
  generalize ((w.worker i).thread j').1 = r
  cases is with
  | nil => rfl
  | cons ins rest =>
    cases ins with
    | root f => rw [instr_root]; split <;> rfl
    | read c f => rfl
    | write c f => exact (store_eq w c .param j' j _).trans (if_neg fun h => hj h.2)
    | change c f => exact (store_eq w c .param j' j _).trans (if_neg fun h => hj h.2)

theorem exec_param_same (w : World ι) (i : Nat) (j : ι) (hh : head ((w.worker i).thread j).2 = 0) :
    (w.exec i j).shared .param j = w.shared .param j := by
  unfold World.exec
  revert hh
  generalize ((w.worker i).thread j).2 = is
  generalize ((w.worker i).thread j).1 = r
  intro hh
  cases is with
  | nil => rfl
  | cons ins rest =>
    cases ins with
    | root f => rw [instr_root]; split <;> rfl
    | read c f => rfl
    | write c f =>
      refine (store_eq w c .param j j _).trans (if_neg fun h => ?_)
      rw [← h.1] at hh; simp [head, bump] at hh
    | change c f =>
      refine (store_eq w c .param j j _).trans (if_neg fun h => ?_)
      rw [← h.1] at hh; simp [head, bump] at hh

/-- What the finished steps move the parameter by. -/
noncomputable def moved (l : List (ℝ × ℝ × ℝ)) : ℝ := (l.map fun s => s.1 * (s.2.1 / s.2.2)).sum

theorem step_param (h : Hyper) (grad : D → (ι → ℝ) → ι → Option ℝ) {lrs : Nat → ℝ} {j : ι} {w : World ι} (ht : Tails lrs j w)
    (e : Event ι D) : (step true h grad w e).shared .param j = w.shared .param j - moved (Spec.finishes w lrs j e) := by
  have hsub : ∀ x : ℝ, x = x - moved [] := by intro x; simp [moved]
  cases e with
  | exec i j' =>
    show (w.exec i j').shared .param j = _
    by_cases hj : j' = j
    · subst hj
      rcases ht i with h0 | ⟨s, hs, hl⟩
      · rw [show Spec.finishes (D := D) w lrs j' (.exec i j') = [] by simp [Spec.finishes, h0], ← hsub]
        exact exec_param_same w i j' (by rw [h0]; rfl)
      · cases s with
        | nil =>
          have hf : Spec.finishes (D := D) w lrs j' (.exec i j') = [(lrs i, ((w.worker i).thread j').1.grad, ((w.worker i).thread j').1.avg)] := by
            simp [Spec.finishes, hl]
          have he : w.exec i j' = (w.store .param j' (w.shared .param j' + -lrs i * (((w.worker i).thread j').1.grad / ((w.worker i).thread j').1.avg))).next
              i j' ((w.worker i).thread j').1 [] := by
            unfold World.exec
            rw [hl]
            rfl
          rw [hf, he]
          refine (store_eq w .param .param j' j' _).trans ?_
          rw [if_pos ⟨rfl, rfl⟩]
          simp [moved]
          ring
        | cons a s =>
          have hf : Spec.finishes (D := D) w lrs j' (.exec i j') = [] := by
            simp [Spec.finishes, hl]
          rw [hf, ← hsub]
          apply exec_param_same
          rw [hl]
          simp only [pending] at hs
          cases a <;> simp only [List.cons_append, head] at hs ⊢ <;> omega
    · rw [show Spec.finishes (D := D) w lrs j (.exec i j') = [] by simp [Spec.finishes, hj], ← hsub]
      exact exec_param_other w i j j' (Ne.symm hj)
  | begin i d lr =>
    rw [show Spec.finishes w lrs j (.begin i d lr) = [] from rfl, ← hsub]
    simp only [step]; split <;> rfl
  | sync i =>
    rw [show Spec.finishes (D := D) w lrs j (.sync i) = [] from rfl, ← hsub]
    simp only [step]; split <;> rfl
  | copy i j' =>
    rw [show Spec.finishes (D := D) w lrs j (.copy i j') = [] from rfl, ← hsub]
    simp only [step]; split <;> rfl
  | resume i =>
    rw [show Spec.finishes (D := D) w lrs j (.resume i) = [] from rfl, ← hsub]
    simp only [step]; split <;> rfl

theorem run_param (h : Hyper) (hμ : ¬ 0 < h.momentum) (grad : D → (ι → ℝ) → ι → Option ℝ) (j : ι) : ∀ (es : List (Event ι D)) (lrs : Nat → ℝ) (w : World ι),
    Tails lrs j w → (run true h grad w es).shared .param j = w.shared .param j - moved (Spec.finished true h grad j w lrs es)
  | [], _, w, _ => by simp [run, Spec.finished, moved]
  | e :: es, lrs, w, ht => by
    have h1 := run_param h hμ grad j es _ _ (tails_step h hμ grad ht e)
    have h2 := step_param h grad ht e
    show (run true h grad (step true h grad w e) es).shared .param j = _
    rw [h1, h2]
    simp only [Spec.finished, moved, List.map_append, List.sum_append]
    ring

/-- **C129 (no update is lost), as far as it holds.** If single in-place operations on an element were atomic, every finished step of every
process would move the shared parameter by exactly its own amount: without momentum, the parameter is its first value minus the sum of
`lr * grad / avg` over all finished steps.  What is missing is that the operations are not atomic: see `async_update_lost`. -/
theorem async_updates_add_up_partial {h : Hyper} (hμ : h.momentum = 0) (grad : D → (ι → ℝ) → ι → Option ℝ) (θ : ι → ℝ) (models : Nat → ι → ℝ)
    (es : List (Event ι D)) (j : ι) :
    (run true h grad (start θ models) es).shared .param j =
      θ j - ((Spec.finished true h grad j (start θ models) (fun _ => 0) es).map fun s => s.1 * (s.2.1 / s.2.2)).sum :=
  run_param h (by rw [hμ]; exact lt_irrefl _) grad j es (fun _ => 0) (start θ models) fun _ => Or.inl rfl

/-! ### The models of the processes -/

/-- Process `i` is at work on what it read since `es₁`: each element of its model was in shared memory at some moment since. -/
def Spec.ReadSince (atomic : Bool) (h : Hyper) (grad : D → (ι → ℝ) → ι → Option ℝ) (w₀ : World ι) (i : Nat) (es₁ es₂ : List (Event ι D)) : Prop :=
  ((run atomic h grad w₀ es₁).worker i).phase = .syncing ∧
  (∀ a b, es₂ = a ++ b → ((run atomic h grad w₀ (es₁ ++ a)).worker i).phase ≠ .stepping) ∧
  ∀ j, ∃ a b, es₂ = a ++ b ∧ ((run atomic h grad w₀ (es₁ ++ es₂)).worker i).model j = (run atomic h grad w₀ (es₁ ++ a)).shared .param j

/-- The same while it is copying, for the elements already copied. -/
structure Copying (atomic : Bool) (h : Hyper) (grad : D → (ι → ℝ) → ι → Option ℝ) (w₀ : World ι) (i : Nat) (es₁ es₂ : List (Event ι D)) : Prop where
  syncing : ((run atomic h grad w₀ es₁).worker i).phase = .syncing
  since : ∀ a b, es₂ = a ++ b → ((run atomic h grad w₀ (es₁ ++ a)).worker i).phase ≠ .stepping
  copied : ∀ j, ((run atomic h grad w₀ (es₁ ++ es₂)).worker i).todo j = false →
    ∃ a b, es₂ = a ++ b ∧ ((run atomic h grad w₀ (es₁ ++ es₂)).worker i).model j = (run atomic h grad w₀ (es₁ ++ a)).shared .param j

theorem run_snoc (atomic : Bool) (h : Hyper) (grad : D → (ι → ℝ) → ι → Option ℝ) (w : World ι) (es : List (Event ι D)) (e : Event ι D) :
    run atomic h grad w (es ++ [e]) = step atomic h grad (run atomic h grad w es) e := by
  unfold run
  rw [List.foldl_append]
  rfl

theorem exec_worker (w : World ι) (i i' : Nat) (j : ι) : ((w.exec i j).worker i').phase = (w.worker i').phase ∧
    ((w.exec i j).worker i').model = (w.worker i').model ∧ ((w.exec i j).worker i').todo = (w.worker i').todo := by
  by_cases hi : i' = i
  · subst hi
    unfold World.exec
    generalize ((w.worker i').thread j).2 = is
    generalize ((w.worker i').thread j).1 = r
    cases is with
    | nil => exact ⟨rfl, rfl, rfl⟩
    | cons ins rest =>
      cases ins with
      | root f =>
        rw [instr_root]
        split <;> simp [World.next, World.setWorker]
      | _ => simp [World.instr, World.next, World.setWorker, World.store]
  · rw [exec_other w i i' j hi]
    exact ⟨rfl, rfl, rfl⟩

/-- How an event changes the phase, the model and the elements to copy of a process. -/
theorem step_worker (atomic : Bool) (h : Hyper) (grad : D → (ι → ℝ) → ι → Option ℝ) (w : World ι) (i : Nat) (e : Event ι D) :
    let k := w.worker i
    let k' := (step atomic h grad w e).worker i
    (k'.phase = k.phase ∧ k'.model = k.model ∧ k'.todo = k.todo) ∨
    (k.phase = .ready ∧ k'.phase = .stepping) ∨
    (k.phase = .stepping ∧ k'.phase = .syncing ∧ k'.todo = fun _ => true) ∨
    (k.phase = .syncing ∧ k'.phase = .syncing ∧ (step atomic h grad w e).shared = w.shared ∧
      ∃ j, k'.model = Function.update k.model j (w.shared .param j) ∧ k'.todo = Function.update k.todo j false) ∨
    (k.phase = .syncing ∧ (∀ j, k.todo j = false) ∧ k'.phase = .ready ∧ k'.model = k.model) := by
  cases e with
  | exec i' j => exact Or.inl (exec_worker w i' i j)
  | begin i' d lr =>
    simp only [step]
    split
    · rename_i hr
      rw [setWorker_worker]
      split
      · rename_i hi; subst hi; exact Or.inr (Or.inl ⟨hr, rfl⟩)
      · exact Or.inl ⟨rfl, rfl, rfl⟩
    · exact Or.inl ⟨rfl, rfl, rfl⟩
  | sync i' =>
    simp only [step]
    split
    · rename_i hr
      rw [setWorker_worker]
      split
      · rename_i hi; subst hi; exact Or.inr (Or.inr (Or.inl ⟨hr.1, rfl, rfl⟩))
      · exact Or.inl ⟨rfl, rfl, rfl⟩
    · exact Or.inl ⟨rfl, rfl, rfl⟩
  | copy i' j =>
    simp only [step]
    split
    · rename_i hr
      rw [setWorker_worker]
      split
      · rename_i hi; subst hi; exact Or.inr (Or.inr (Or.inr (Or.inl ⟨hr, hr, rfl, j, rfl, rfl⟩)))
      · exact Or.inl ⟨rfl, rfl, rfl⟩
    · exact Or.inl ⟨rfl, rfl, rfl⟩
  | resume i' =>
    simp only [step]
    split
    · rename_i hr
      rw [setWorker_worker]
      split
      · rename_i hi; subst hi; exact Or.inr (Or.inr (Or.inr (Or.inr ⟨hr.1, hr.2, rfl, rfl⟩)))
      · exact Or.inl ⟨rfl, rfl, rfl⟩
    · exact Or.inl ⟨rfl, rfl, rfl⟩

theorem since_snoc {atomic : Bool} {h : Hyper} {grad : D → (ι → ℝ) → ι → Option ℝ} {w₀ : World ι} {i : Nat} {es₁ es₂ : List (Event ι D)} {e : Event ι D}
    (hs : ∀ a b, es₂ = a ++ b → ((run atomic h grad w₀ (es₁ ++ a)).worker i).phase ≠ .stepping)
    (hl : ((run atomic h grad w₀ (es₁ ++ (es₂ ++ [e]))).worker i).phase ≠ .stepping) :
    ∀ a b, es₂ ++ [e] = a ++ b → ((run atomic h grad w₀ (es₁ ++ a)).worker i).phase ≠ .stepping := by
  intro a b hab
  rcases List.eq_nil_or_concat b with rfl | ⟨b', x, rfl⟩
  · rw [List.append_nil] at hab
    rw [← hab]
    exact hl
  · rw [List.concat_eq_append, ← List.append_assoc] at hab
    exact hs a b' (List.append_inj_left' hab rfl)

/-- What is known in each phase. -/
def Known (atomic : Bool) (h : Hyper) (grad : D → (ι → ℝ) → ι → Option ℝ) (w₀ : World ι) (i : Nat) (es : List (Event ι D)) : Prop :=
  let k := (run atomic h grad w₀ es).worker i
  (k.phase = .ready → ((∀ a b, es = a ++ b → ((run atomic h grad w₀ a).worker i).phase = .ready) ∧ k.model = (w₀.worker i).model) ∨
    ∃ es₁ es₂, es = es₁ ++ es₂ ∧ Spec.ReadSince atomic h grad w₀ i es₁ es₂) ∧
  (k.phase = .syncing → ∃ es₁ es₂, es = es₁ ++ es₂ ∧ Copying atomic h grad w₀ i es₁ es₂)

theorem known_snoc {atomic : Bool} {h : Hyper} {grad : D → (ι → ℝ) → ι → Option ℝ} {w₀ : World ι} {i : Nat} {es : List (Event ι D)} (e : Event ι D)
    (hk : Known atomic h grad w₀ i es) : Known atomic h grad w₀ i (es ++ [e]) := by
  have hw := step_worker atomic h grad (run atomic h grad w₀ es) i e
  rw [← run_snoc] at hw
  simp only at hw
  rcases hw with ⟨hp, hm, ht⟩ | ⟨hp, hp'⟩ | ⟨hp, hp', ht⟩ | ⟨hp, hp', hsh, j, hm, ht⟩ | ⟨hp, ht, hp', hm⟩
  · refine ⟨fun hr => ?_, fun hr => ?_⟩
    · rw [hp] at hr
      rcases hk.1 hr with ⟨hall, hmod⟩ | ⟨es₁, es₂, rfl, hsync, hs, hc⟩
      · refine Or.inl ⟨?_, hm.trans hmod⟩
        intro a b hab
        rcases List.eq_nil_or_concat b with rfl | ⟨b', x, rfl⟩
        · rw [List.append_nil] at hab
          rw [← hab, hp, hr]
        · rw [List.concat_eq_append, ← List.append_assoc] at hab
          exact hall a b' (List.append_inj_left' hab rfl)
      · refine Or.inr ⟨es₁, es₂ ++ [e], List.append_assoc _ _ _, hsync, since_snoc hs ?_, ?_⟩
        · rw [← List.append_assoc, hp, hr]; simp
        · intro j
          obtain ⟨a, b, hab, hmod⟩ := hc j
          refine ⟨a, b ++ [e], by rw [hab, List.append_assoc], ?_⟩
          rw [← List.append_assoc, hm, hmod]
    · rw [hp] at hr
      obtain ⟨es₁, es₂, rfl, hsync, hs, hc⟩ := hk.2 hr
      refine ⟨es₁, es₂ ++ [e], List.append_assoc _ _ _, hsync, since_snoc hs ?_, ?_⟩
      · rw [← List.append_assoc, hp, hr]; simp
      · intro j hj
        rw [← List.append_assoc, ht] at hj
        obtain ⟨a, b, hab, hmod⟩ := hc j hj
        refine ⟨a, b ++ [e], by rw [hab, List.append_assoc], ?_⟩
        rw [← List.append_assoc, hm, hmod]
  · exact ⟨fun hr => absurd (hr.symm.trans hp') (by simp), fun hr => absurd (hr.symm.trans hp') (by simp)⟩
  · refine ⟨fun hr => absurd (hr.symm.trans hp') (by simp), fun _ => ⟨es ++ [e], [], (List.append_nil _).symm, hp', ?_, ?_⟩⟩
    · intro a b hab
      have : a = [] := (List.append_eq_nil_iff.mp hab.symm).1
      subst this
      rw [List.append_nil, hp']; simp
    · intro j hj
      rw [List.append_nil, ht] at hj
      exact absurd hj (by simp)
  · refine ⟨fun hr => absurd (hr.symm.trans hp') (by simp), fun _ => ?_⟩
    obtain ⟨es₁, es₂, rfl, hsync, hs, hc⟩ := hk.2 hp
    refine ⟨es₁, es₂ ++ [e], List.append_assoc _ _ _, hsync, since_snoc hs ?_, ?_⟩
    · rw [← List.append_assoc, hp']; simp
    · intro j' hj'
      rw [← List.append_assoc, ht] at hj'
      by_cases hjj : j' = j
      · subst hjj
        refine ⟨es₂, [e], rfl, ?_⟩
        rw [← List.append_assoc, hm, Function.update_self]
      · rw [Function.update_of_ne hjj] at hj'
        obtain ⟨a, b, hab, hmod⟩ := hc j' hj'
        refine ⟨a, b ++ [e], by rw [hab, List.append_assoc], ?_⟩
        rw [← List.append_assoc, hm, Function.update_of_ne hjj, hmod]
  · refine ⟨fun _ => Or.inr ?_, fun hr => absurd (hr.symm.trans hp') (by simp)⟩
    obtain ⟨es₁, es₂, rfl, hsync, hs, hc⟩ := hk.2 hp
    refine ⟨es₁, es₂ ++ [e], List.append_assoc _ _ _, hsync, since_snoc hs ?_, ?_⟩
    · rw [← List.append_assoc, hp']; simp
    · intro j
      obtain ⟨a, b, hab, hmod⟩ := hc j (ht j)
      refine ⟨a, b ++ [e], by rw [hab, List.append_assoc], ?_⟩
      rw [← List.append_assoc, hm, hmod]

theorem known_all (atomic : Bool) (h : Hyper) (grad : D → (ι → ℝ) → ι → Option ℝ) (θ : ι → ℝ) (models : Nat → ι → ℝ) (i : Nat) (es : List (Event ι D)) :
    Known atomic h grad (start θ models) i es := by
  induction es using List.reverseRecOn with
  | nil =>
    refine ⟨fun _ => Or.inl ⟨?_, rfl⟩, fun hp => absurd hp (by simp [run, start])⟩
    intro a b hab
    have : a = [] := (List.append_eq_nil_iff.mp hab.symm).1
    subst this
    rfl
  | append_singleton es e ih => exact known_snoc e ih

/-- **C129 (a process works with parameters of the shared model), as far as it holds.** When a process computes a gradient after its first
one, every single element of its model is a value that the shared element had at a moment after its own last step.  What is missing: the
elements may be of different moments (`async_model_torn`), and before its first step a process made by `make_agent` has not read the shared
model at all (`async_first_gradient_elsewhere`). -/
theorem async_model_values_partial (atomic : Bool) (h : Hyper) (grad : D → (ι → ℝ) → ι → Option ℝ) (θ : ι → ℝ) (models : Nat → ι → ℝ)
    (es : List (Event ι D)) (i : Nat) (hr : ((run atomic h grad (start θ models) es).worker i).phase = .ready) :
    ((∀ a b, es = a ++ b → ((run atomic h grad (start θ models) a).worker i).phase = .ready) ∧
      ((run atomic h grad (start θ models) es).worker i).model = models i) ∨
    ∃ es₁ es₂, es = es₁ ++ es₂ ∧ Spec.ReadSince atomic h grad (start θ models) i es₁ es₂ := by
  exact (known_all atomic h grad θ models i es).1 hr

/-! ### What goes wrong -/

/-- Settings for the examples. -/
noncomputable def exHyper : Hyper := ⟨0, 16 / 25, 0, 0, false⟩

theorem ex_root : Real.sqrt (3 / 5 * (3 / 5) + 16 / 25) = 1 := by norm_num

theorem ex_pos : (0 : ℝ) < 3 / 5 * (3 / 5) + 16 / 25 := by norm_num

/-- Two processes with the gradient 3/5: process 0 has read the parameter when process 1 makes its whole step. -/
noncomputable def lostSchedule : List (Event Unit ℝ) :=
  [.begin 0 (3 / 5) 1, .begin 1 (3 / 5) 1] ++ List.replicate 7 (.exec 0 ()) ++ List.replicate 8 (.exec 1 ()) ++ [.exec 0 ()]

theorem ex_program (lr : ℝ) : stepProgram false exHyper lr = [
    .read .squareAvg fun r x => { r with x := x }, .write .squareAvg fun r => r.x * 0,
    .read .squareAvg fun r x => { r with x := x }, .write .squareAvg fun r => r.x + (1 - 0) * (r.grad * r.grad),
    .read .squareAvg fun r v => { r with x := v }, .root fun r => r.x + 16 / 25,
    .read .param fun r x => { r with x := x }, .write .param fun r => r.x + -lr * (r.grad / r.avg)] := by
  rw [plain_program false (by rfl) (by simp [exHyper]) (by rfl)]
  rfl

/-- **C129 fails: updates are lost.** Two processes finish one step each, with the same gradient, learning rate and root; the parameter has
moved by one step only. -/
theorem async_update_lost (θ : ℝ) :
    Spec.finished false exHyper (fun d _ _ => some d) () (start (fun _ => θ) fun _ _ => θ) (fun _ => 0) lostSchedule = [(1, 3 / 5, 1), (1, 3 / 5, 1)] ∧
    (run false exHyper (fun d _ _ => some d) (start (fun _ => θ) fun _ _ => θ) lostSchedule).shared .param () = θ - 3 / 5 := by
  constructor
  · simp [lostSchedule, List.replicate, Spec.finished, Spec.finishes, Spec.rates, step, start, World.exec, World.instr, World.next, World.store,
      World.setWorker, ex_program, ex_root, ex_pos]
  · simp [lostSchedule, List.replicate, run, step, start, World.exec, World.instr, World.next, World.store, World.setWorker, ex_program, ex_root, ex_pos]
    ring

/-- Centred: `v` and `m` are running means of the squares and of the gradients. -/
noncomputable def exCentered : Hyper := ⟨1 / 4, 1 / 100, 0, 0, true⟩

theorem ex_centered_program (lr : ℝ) : stepProgram true exCentered lr = [
    .change .squareAvg fun _ v => v * (1 / 4), .change .squareAvg fun r v => v + (1 - 1 / 4) * (r.grad * r.grad),
    .change .gradAvg fun _ m => m * (1 / 4), .change .gradAvg fun r m => m + (1 - 1 / 4) * r.grad,
    .read .squareAvg fun r v => { r with x := v }, .read .gradAvg fun r m => { r with x := r.x + -1 * (m * m) },
    .root fun r => r.x + 1 / 100, .change .param fun r p => p + -lr * (r.grad / r.avg)] := by
  unfold stepProgram
  rw [if_neg (by simp [exCentered]), if_pos (by rfl), if_neg (by simp [exCentered])]
  rfl

/-- Process 0 makes a step; process 1 begins one, and has multiplied the mean of squares by `alpha`, when process 2 makes its step. -/
noncomputable def nanSchedule : List (Event Unit ℝ) :=
  [.begin 0 10 1, .begin 1 10 1, .begin 2 10 1] ++ List.replicate 8 (.exec 0 ()) ++ [.exec 1 ()] ++ List.replicate 7 (.exec 2 ())

/-- **C129 fails for the centred optimiser.** With `centered=True` a process can meet the root of a negative number, which no sequence of
steps one after the other does (C82), even if the operations were atomic. -/
theorem async_centered_nan (θ : ℝ) :
    (run true exCentered (fun d _ _ => some d) (start (fun _ => θ) fun _ _ => θ) nanSchedule).nan = true := by
  have h1 : (0 : ℝ) < (1 - 4⁻¹) * (10 * 10) + -((1 - 4⁻¹) * 10 * ((1 - 4⁻¹) * 10)) + 100⁻¹ := by norm_num
  simp [nanSchedule, List.replicate, run, step, start, World.exec, World.instr, World.next, World.store, World.setWorker, ex_centered_program, h1]
  norm_num

/-- Process 1 makes a step and copies the first parameter; process 0 makes a step; process 1 copies the second parameter. -/
noncomputable def tornSchedule : List (Event Bool ℝ) :=
  [.begin 1 (3 / 5) 1] ++ List.replicate 5 (.exec 1 false) ++ List.replicate 5 (.exec 1 true) ++ [.sync 1, .copy 1 false, .begin 0 (3 / 5) 1] ++
    List.replicate 5 (.exec 0 false) ++ List.replicate 5 (.exec 0 true) ++ [.copy 1 true, .resume 1]

theorem ex_atomic_program (lr : ℝ) : stepProgram true exHyper lr = [
    .change .squareAvg fun _ v => v * 0, .change .squareAvg fun r v => v + (1 - 0) * (r.grad * r.grad),
    .read .squareAvg fun r v => { r with x := v }, .root fun r => r.x + 16 / 25, .change .param fun r p => p + -lr * (r.grad / r.avg)] := by
  rw [plain_program true (by rfl) (by simp [exHyper]) (by rfl)]
  rfl

/-- A property of the worlds of a run, from the first to the last. -/
def Always (h : Hyper) (grad : D → (ι → ℝ) → ι → Option ℝ) (P : World ι → Prop) : World ι → List (Event ι D) → Prop
  | w, [] => P w
  | w, e :: es => P w ∧ Always h grad P (step true h grad w e) es

theorem always_prefix {h : Hyper} {grad : D → (ι → ℝ) → ι → Option ℝ} {P : World ι → Prop} : ∀ {es : List (Event ι D)} {w : World ι},
    Always h grad P w es → ∀ a b, es = a ++ b → P (run true h grad w a)
  | [], _, hP, a, b, hab => by
    have : a = [] := (List.append_eq_nil_iff.mp hab.symm).1
    subst this
    exact hP
  | e :: es, w, hP, [], b, hab => hP.1
  | e :: es, w, hP, x :: a, b, hab => by
    obtain ⟨rfl, rfl⟩ := List.cons.inj hab
    exact always_prefix hP.2 a b rfl

/-- **C129 fails: a model that never was.** Process 1 goes on with the parameters -3/5 and -6/5, which the shared model did not have together
at any moment, even if the operations were atomic. -/
theorem async_model_torn :
    let w₀ : World Bool := start (fun _ => 0) fun _ _ => 0
    let w := run true exHyper (fun d _ _ => some d) w₀ tornSchedule
    (w.worker 1).phase = .ready ∧ (w.worker 1).model false = -3 / 5 ∧ (w.worker 1).model true = -6 / 5 ∧
    ∀ a b, tornSchedule = a ++ b → (run true exHyper (fun d _ _ => some d) w₀ a).shared .param ≠ (w.worker 1).model := by
  have hm : ((run true exHyper (fun d _ _ => some d) (start (fun _ => 0) fun _ _ => 0) tornSchedule).worker 1).phase = .ready ∧
      ((run true exHyper (fun d _ _ => some d) (start (fun _ => 0) fun _ _ => 0) tornSchedule).worker 1).model false = -3 / 5 ∧
      ((run true exHyper (fun d _ _ => some d) (start (fun _ => 0) fun _ _ => 0) tornSchedule).worker 1).model true = -6 / 5 := by
    simp [tornSchedule, List.replicate, run, step, start, World.exec, World.instr, World.next, World.store, World.setWorker, ex_atomic_program,
      ex_root, ex_pos]
    norm_num
  refine ⟨hm.1, hm.2.1, hm.2.2, ?_⟩
  intro a b hab heq
  have hal : Always exHyper (fun d _ _ => some d) (fun w : World Bool => ¬ (w.shared .param false = -3 / 5 ∧ w.shared .param true = -6 / 5))
      (start (fun _ => 0) fun _ _ => 0) tornSchedule := by
    simp [Always, tornSchedule, List.replicate, step, start, World.exec, World.instr, World.next, World.store, World.setWorker, ex_atomic_program,
      ex_root, ex_pos]
    norm_num
  refine always_prefix hal a b hab ⟨?_, ?_⟩
  · rw [heq]; exact hm.2.1
  · rw [heq]; exact hm.2.2

/-- **C129 fails for the first step of a process made by `make_agent`.** The shared parameter is 0, where the loss `3/10 * x ^ 2` is least;
process 1 has a model of its own, with the parameter 1, and computes its first gradient there: the shared parameter is moved away. -/
theorem async_first_gradient_elsewhere :
    (run true exHyper (fun (_ : Unit) θ j => some (3 / 5 * θ j)) (start (fun _ => 0) fun i (_ : Unit) => i)
      ([.begin 1 () 1] ++ List.replicate 5 (.exec 1 ()))).shared .param () = -3 / 5 := by
  simp [List.replicate, run, step, start, World.exec, World.instr, World.next, World.store, World.setWorker, ex_atomic_program,
    ex_root, ex_pos]
  norm_num

/-! ### A process that is alone -/

/-- A program on one element, undisturbed. -/
noncomputable def solo : Regs → (Cell → ℝ) → List Instr → Option (Cell → ℝ)
  | _, s, [] => some s
  | r, s, .read c f :: is => solo (f r (s c)) s is
  | r, s, .write c f :: is => solo r (Function.update s c (f r)) is
  | r, s, .change c f :: is => solo r (Function.update s c (f r (s c))) is
  | r, s, .root f :: is => if 0 < f r then solo { r with avg := Real.sqrt (f r) } s is else none

theorem next_thread (w : World ι) (i : Nat) (j : ι) (r : Regs) (is : List Instr) : ((w.next i j r is).worker i).thread j = (r, is) := by
  simp [World.next, World.setWorker]

theorem store_col (w : World ι) (c : Cell) (j : ι) (x : ℝ) : (fun c' => (w.store c j x).shared c' j) = Function.update (fun c' => w.shared c' j) c x := by
  funext c'
  rw [store_eq]
  by_cases h : c' = c
  · subst h; simp
  · simp [h]

/-- Once a NaN has been met, it stays. -/
theorem exec_nan (w : World ι) (i : Nat) (j : ι) (h : w.nan = true) : (w.exec i j).nan = true := by
  unfold World.exec
  generalize ((w.worker i).thread j).2 = is
  generalize ((w.worker i).thread j).1 = r
  cases is with
  | nil => exact h
  | cons ins rest =>
    cases ins with
    | root f => rw [instr_root]; split <;> first | exact h | rfl
    | _ => exact h

theorem execs_nan (atomic : Bool) (h : Hyper) (grad : D → (ι → ℝ) → ι → Option ℝ) (i : Nat) (j : ι) : ∀ (n : Nat) (w : World ι), w.nan = true →
    (run atomic h grad w (List.replicate n (.exec i j))).nan = true
  | 0, _, hn => hn
  | n + 1, w, hn => execs_nan atomic h grad i j n (w.exec i j) (exec_nan w i j hn)

theorem run_solo (atomic : Bool) (h : Hyper) (grad : D → (ι → ℝ) → ι → Option ℝ) (i : Nat) (j : ι) : ∀ (is : List Instr) (r : Regs) (w : World ι),
    (w.worker i).thread j = (r, is) →
    match solo r (fun c => w.shared c j) is with
    | some s => (fun c => (run atomic h grad w (List.replicate is.length (.exec i j))).shared c j) = s ∧
        (run atomic h grad w (List.replicate is.length (.exec i j))).nan = w.nan
    | none => (run atomic h grad w (List.replicate is.length (.exec i j))).nan = true
  | [], r, w, _ => ⟨rfl, rfl⟩
  | ins :: is, r, w, ht => by
    have he : run atomic h grad w (List.replicate (ins :: is).length (.exec i j)) =
        run atomic h grad (w.instr i j r (ins :: is)) (List.replicate is.length (.exec i j)) := by
      show run atomic h grad (w.exec i j) _ = _
      unfold World.exec
      rw [ht]
    rw [he]
    cases ins with
    | read c f => exact run_solo atomic h grad i j is (f r (w.shared c j)) (w.next i j (f r (w.shared c j)) is) (next_thread _ _ _ _ _)
    | write c f =>
      have := run_solo atomic h grad i j is r ((w.store c j (f r)).next i j r is) (next_thread _ _ _ _ _)
      rw [show (fun c' => ((w.store c j (f r)).next i j r is).shared c' j) = Function.update (fun c' => w.shared c' j) c (f r) from
        store_col w c j (f r)] at this
      exact this
    | change c f =>
      have := run_solo atomic h grad i j is r ((w.store c j (f r (w.shared c j))).next i j r is) (next_thread _ _ _ _ _)
      rw [show (fun c' => ((w.store c j (f r (w.shared c j))).next i j r is).shared c' j) =
        Function.update (fun c' => w.shared c' j) c (f r (w.shared c j)) from store_col w c j _] at this
      exact this
    | root f =>
      rw [instr_root]
      simp only [solo]
      by_cases hf : 0 < f r
      · rw [if_pos hf, if_pos hf]
        exact run_solo atomic h grad i j is _ (w.next i j { r with avg := Real.sqrt (f r) } is) (next_thread _ _ _ _ _)
      · rw [if_neg hf, if_neg hf]
        exact execs_nan atomic h grad i j _ _ rfl

/-- The parameter and its state in the optimiser, as C82 has them, for one element of shared memory. -/
noncomputable def Spec.param (h : Hyper) (n : Nat) (s : Cell → ℝ) : RMSprop.Param Unit :=
  ⟨fun _ => s .param, some ⟨n, fun _ => s .squareAvg, if h.momentum > 0 then some fun _ => s .momentumBuffer else none,
    if h.centered then some fun _ => s .gradAvg else none⟩⟩

theorem root_unit (v : Unit → ℝ) : RMSprop.root v = if 0 < v () then .ok fun _ => Real.sqrt (v ()) else .error .valueError := by
  unfold RMSprop.root
  by_cases h : 0 < v ()
  · rw [if_pos h, if_pos fun _ => h]
  · rw [if_neg h, if_neg fun hc => h (hc ())]

theorem solo_step (atomic : Bool) (h : Hyper) (lr g : ℝ) (n : Nat) (s : Cell → ℝ) :
    RMSprop.step h lr (some fun _ => g) (Spec.param h n s) =
      match solo ⟨g, 0, 0, 0⟩ s (stepProgram atomic h lr) with
      | some s' => .ok (Spec.param h (n + 1) s')
      | none => .error .valueError := by
  unfold stepProgram inplace RMSprop.step RMSprop.move Spec.param
  cases atomic <;> by_cases hw : h.weightDecay = 0 <;> cases hc : h.centered <;> by_cases hm : 0 < h.momentum <;>
    simp [hw, hm, solo, root_unit] <;> split_ifs <;> simp_all

/-- **C129 (a process that is not disturbed).** A process that computes a gradient `g` for an element and makes its step without others
interfering leaves in shared memory exactly what the optimiser of C82 does in a single process, and meets a NaN exactly where that fails. -/
theorem async_alone (atomic : Bool) (h : Hyper) (grad : D → (ι → ℝ) → ι → Option ℝ) (w : World ι) (i : Nat) (d : D) (lr g : ℝ) (j : ι) (n : Nat)
    (hr : (w.worker i).phase = .ready) (hn : w.nan = false) (hg : grad d (w.worker i).model j = some g) :
    ∃ k, let w' := run atomic h grad w (.begin i d lr :: List.replicate k (.exec i j))
      match RMSprop.step h lr (some fun _ => g) (Spec.param h n fun c => w.shared c j) with
      | .ok p => p = Spec.param h (n + 1) (fun c => w'.shared c j) ∧ w'.nan = false
      | .error _ => w'.nan = true := by
  refine ⟨(stepProgram atomic h lr).length, ?_⟩
  have hb : ((step atomic h grad w (.begin i d lr)).worker i).thread j = (⟨g, 0, 0, 0⟩, stepProgram atomic h lr) := by
    simp only [step]
    rw [if_pos hr, setWorker_worker, if_pos rfl]
    simp only [hg]
  have hsh : (step atomic h grad w (.begin i d lr)).shared = w.shared := by
    simp only [step]
    rw [if_pos hr]
    rfl
  have hnan : (step atomic h grad w (.begin i d lr)).nan = false := by
    simp only [step]
    rw [if_pos hr]
    exact hn
  have h1 := run_solo atomic h grad i j (stepProgram atomic h lr) ⟨g, 0, 0, 0⟩ (step atomic h grad w (.begin i d lr)) hb
  rw [hsh, hnan] at h1
  rw [solo_step atomic h lr g n]
  cases hs : solo ⟨g, 0, 0, 0⟩ (fun c => w.shared c j) (stepProgram atomic h lr) with
  | none =>
    rw [hs] at h1
    exact h1
  | some s =>
    rw [hs] at h1
    exact ⟨congrArg (Spec.param h (n + 1)) h1.1.symm, h1.2⟩

/-! ## Non-vacuity -/

/-- The bound is for runs that happen: here two processes make a step each. -/
example : Spec.begins lostSchedule = 2 := by simp [Spec.begins, lostSchedule, List.replicate]

example : |(run false exHyper (fun d _ _ => some d) (start (fun _ => 0) fun _ _ => 0) lostSchedule).shared .param () - 0| ≤
    Spec.begins lostSchedule * (1 * (3 / 5 / Real.sqrt (16 / 25))) := by
  have hmem : ∀ i d lr, Event.begin i d lr ∈ lostSchedule → d = 3 / 5 ∧ lr = 1 := by
    intro i d lr h
    simp [lostSchedule] at h
    rcases h with ⟨_, h1, h2⟩ | ⟨_, h1, h2⟩ <;> exact ⟨h1, h2⟩
  refine async_bounded (ι := Unit) (D := ℝ) false (h := exHyper) le_rfl (by simp [exHyper]) (by norm_num [exHyper]) rfl rfl rfl _ _ _ _ ?_ ?_ ?_ ?_ ()
  · intro i d lr h
    rw [(hmem i d lr h).2]; norm_num
  · intro i d lr h θ' j g hg
    rw [← Option.some.inj hg, (hmem i d lr h).1]; norm_num [abs_of_pos]
  · norm_num
  · norm_num

/-- Steps are finished in such runs. -/
example : Spec.finished true exHyper (fun d _ _ => some d) true (start (fun _ => 0) fun _ _ => 0) (fun _ => 0) tornSchedule =
    [(1, 3 / 5, 1), (1, 3 / 5, 1)] := by
  simp [tornSchedule, List.replicate, Spec.finished, Spec.finishes, Spec.rates, step, start, World.exec, World.instr, World.next, World.store,
    World.setWorker, ex_atomic_program, ex_root, ex_pos]

/-- In the run of `async_model_torn` process 1 is ready again, so that `async_model_values_partial` applies with its second case. -/
example : ((run true exHyper (fun d _ _ => some d) (start (fun _ => 0) fun _ _ => 0) tornSchedule).worker 1).phase = .ready :=
  async_model_torn.1

end Pfrl.Train.Hogwild
