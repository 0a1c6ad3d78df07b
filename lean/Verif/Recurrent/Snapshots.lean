import Verif.Basic
import Mathlib.Data.List.Basic
import Mathlib.Tactic.Linarith

/-!
# Stored recurrent states are snapshots (C151)

Other models of recurrent agents treat recurrent states as values.  In the code they are arrays in memory: indexing a tensor with an
integer, `detach`, `numpy()` of a tensor on the CPU and `torch.from_numpy` make views of an array, not copies, so that a stored
transition shares memory with the agent's current recurrent state.  Here arrays live in a heap, and the program on the heap is shown
to do what the program on values does.
-/

namespace Pfrl.Snapshots

variable {σ : Type}

/-! ## Model -/

/-- A recurrent state: `None`, an array, or a tuple, here `unit` or a first component and a tuple of the others. -/
inductive RS (L : Type) where
  | none
  | leaf (l : L)
  | unit
  | cons (a b : RS L)

/-- Applying a function to every array, as the functions of `pfrl/utils/recurrent.py` do. -/
def RS.map {L K : Type} (f : L → K) : RS L → RS K
  | .none => .none
  | .leaf l => .leaf (f l)
  | .unit => .unit
  | .cons a b => .cons (a.map f) (b.map f)

/-- Memory: arrays at addresses below `next`.  An array has an entry for each environment. -/
structure Heap (σ : Type) where
  next : ℕ
  cell : ℕ → List σ

/-- A new array. -/
def Heap.alloc (h : Heap σ) (v : List σ) : Heap σ := ⟨h.next + 1, fun a => if a = h.next then v else h.cell a⟩

/-- Changing an array in place. -/
def Heap.write (h : Heap σ) (a : ℕ) (v : List σ) : Heap σ := { h with cell := fun b => if b = a then v else h.cell b }

/-- New arrays with these contents. -/
def allocAll (h : Heap σ) : RS (List σ) → Heap σ × RS ℕ
  | .none => (h, .none)
  | .leaf v => (h.alloc v, .leaf h.next)
  | .unit => (h, .unit)
  | .cons a b => ((allocAll (allocAll h a).1 b).1, .cons (allocAll h a).2 (allocAll (allocAll h a).1 b).2)

/-- A view of one entry of an array. -/
structure View where
  addr : ℕ
  idx : ℕ

/-- What a view shows. -/
def Heap.look (h : Heap σ) (v : View) : Option σ := (h.cell v.addr)[v.idx]?

/-- `get_recurrent_state_at(recurrent_state, i, detach=True)`, `pfrl/utils/recurrent.py:55-80`: views. -/
def getAt (s : RS ℕ) (i : ℕ) : RS View := s.map fun a => ⟨a, i⟩

/-- `recurrent_state_as_numpy`, `pfrl/utils/recurrent.py:302-318`.  On the CPU `detach().cpu().numpy()` is the same memory; from
another device it is a new array. -/
def asNumpy (cpu : Bool) (h : Heap σ) : RS View → Heap σ × RS View
  | .none => (h, .none)
  | .leaf v => if cpu then (h, .leaf v) else (h.alloc (h.look v).toList, .leaf ⟨h.next, 0⟩)
  | .unit => (h, .unit)
  | .cons a b => ((asNumpy cpu (asNumpy cpu h a).1 b).1, .cons (asNumpy cpu h a).2 (asNumpy cpu (asNumpy cpu h a).1 b).2)

/-- `recurrent_state * mask` with zeros for the ended episodes, `pfrl/utils/recurrent.py:45-48`. -/
def zeroAt (zero : σ) (ended : List Bool) (v : List σ) : List σ := v.mapIdx fun i x => if ended.getD i false then zero else x

/-- `_batch_reset_recurrent_states_when_episodes_end`, `pfrl/agents/dqn.py:107-128`, with `mask_recurrent_state_at`,
`pfrl/utils/recurrent.py:32-52`: new arrays, or the same ones if no episode ended. -/
def resetEnded (zero : σ) (h : Heap σ) (ended : List Bool) (s : RS ℕ) : Heap σ × RS ℕ :=
  if ended.any id then allocAll h (s.map fun a => zeroAt zero ended (h.cell a)) else (h, s)

/-- The part of a recurrent `DQN` that concerns recurrent states: `train_prev_recurrent_states`, `train_recurrent_states`,
`test_recurrent_states`, and `recurrent_state` and `next_recurrent_state` of the transitions in the replay buffer, oldest first, with
their environments.  Nothing is removed from the buffer. -/
structure Agent (σ : Type) where
  heap : Heap σ
  prev : RS ℕ
  train : RS ℕ
  test : RS ℕ
  buffer : List (ℕ × RS View × RS View)

/-- An update: any function of the stored states.  `batch_recurrent_experiences`, `pfrl/replay_buffer.py:219-288`, stacks stored states
into new arrays, and the network returns new arrays (one that hands on an array it was given would only share more).  The result is the contents of
the new arrays. -/
abbrev Upd (σ : Type) := List (ℕ × RS (Option σ) × RS (Option σ)) → RS (List σ)

/-- The effect of updates on memory. -/
def updates (buffer : List (ℕ × RS View × RS View)) : List (Upd σ) → Heap σ → Heap σ
  | [], h => h
  | u :: us, h => updates buffer us
      (allocAll h (u (buffer.map fun e => (e.1, e.2.1.map h.look, e.2.2.map h.look)))).1

/-- Storing the transition of environment `i`, `pfrl/agents/dqn.py:524-544`. -/
def store (cpu : Bool) (i : ℕ) (a : Agent σ) : Agent σ :=
  let r := asNumpy cpu a.heap (getAt a.prev i)
  let n := asNumpy cpu r.1 (getAt a.train i)
  { a with heap := n.1, buffer := a.buffer ++ [(i, r.2, n.2)] }

/-- The loop of `_batch_observe_train`, `pfrl/agents/dqn.py:516-549`: for each environment from `i` on, the transition and then the
updates that are due. -/
def observeLoop (cpu : Bool) : ℕ → List (List (Upd σ)) → Agent σ → Agent σ
  | _, [], a => a
  | i, us :: rest, a =>
    let b := store cpu i a
    observeLoop cpu (i + 1) rest { b with heap := updates b.buffer us b.heap }

/-- What happens to an agent.  The network (with its current parameters and given the observations) is any function of the contents of
the recurrent state. -/
inductive Op (σ : Type) where
  /-- `batch_act` in training mode. -/
  | act (net : RS (List σ) → RS (List σ))
  /-- `batch_observe` in training mode: which episodes ended, and the updates after each transition. -/
  | observe (ended : List Bool) (upds : List (List (Upd σ)))
  /-- `batch_act` in evaluation mode. -/
  | evalAct (net : RS (List σ) → RS (List σ))
  /-- `batch_observe` in evaluation mode. -/
  | evalObserve (ended : List Bool)

/-- `_evaluate_model_and_update_recurrent_states`, `pfrl/agents/dqn.py:472-488`, `_batch_observe_train`, lines 509-561, and
`_batch_observe_eval`, lines 563-577. -/
def Agent.step (cpu : Bool) (zero : σ) (a : Agent σ) : Op σ → Agent σ
  | .act net =>
    let r := allocAll a.heap (net (a.train.map a.heap.cell))
    { a with heap := r.1, prev := a.train, train := r.2 }
  | .observe ended upds =>
    let b := observeLoop cpu 0 upds a
    let r := resetEnded zero b.heap ended b.train
    { b with heap := r.1, prev := .none, train := r.2 }
  | .evalAct net =>
    let r := allocAll a.heap (net (a.test.map a.heap.cell))
    { a with heap := r.1, test := r.2 }
  | .evalObserve ended =>
    let r := resetEnded zero a.heap ended a.test
    { a with heap := r.1, test := r.2 }

/-- A new agent. -/
def Agent.new : Agent σ := ⟨⟨0, fun _ => []⟩, .none, .none, .none, []⟩

/-- A history. -/
def Agent.run (cpu : Bool) (zero : σ) (ops : List (Op σ)) (a : Agent σ) : Agent σ := ops.foldl (Agent.step cpu zero) a

/-! ## Specification -/

/-- The agent on values: no memory, every recurrent state is its contents. -/
structure Spec.Agent (σ : Type) where
  prev : RS (List σ)
  train : RS (List σ)
  test : RS (List σ)
  buffer : List (ℕ × RS (Option σ) × RS (Option σ))

/-- Recurrent states of ended episodes become zero. -/
def Spec.reset (zero : σ) (ended : List Bool) (s : RS (List σ)) : RS (List σ) := s.map (zeroAt zero ended)

/-- The same operations on values: acting advances the state, and each transition is stored with the entries for its environment of
the states before and after acting. -/
def Spec.step (zero : σ) (a : Spec.Agent σ) : Op σ → Spec.Agent σ
  | .act net => { a with prev := a.train, train := net a.train }
  | .observe ended upds =>
    { a with
      prev := .none
      train := Spec.reset zero ended a.train
      buffer := a.buffer ++ (List.range upds.length).map fun i => (i, a.prev.map (·[i]?), a.train.map (·[i]?)) }
  | .evalAct net => { a with test := net a.test }
  | .evalObserve ended => { a with test := Spec.reset zero ended a.test }

/-- The contents of an agent's recurrent states and of those in its buffer, as memory is now. -/
def Spec.contents (a : Snapshots.Agent σ) : Spec.Agent σ :=
  ⟨a.prev.map a.heap.cell, a.train.map a.heap.cell, a.test.map a.heap.cell,
    a.buffer.map fun e => (e.1, e.2.1.map a.heap.look, e.2.2.map a.heap.look)⟩

/-! ## Lemmas -/

/-- Old arrays are unchanged. -/
structure Extends (h h' : Heap σ) : Prop where
  next : h.next ≤ h'.next
  cell : ∀ a < h.next, h'.cell a = h.cell a

theorem Extends.refl (h : Heap σ) : Extends h h := ⟨le_refl _, fun _ _ => rfl⟩

theorem Extends.trans {h h' h'' : Heap σ} (a : Extends h h') (b : Extends h' h'') : Extends h h'' :=
  ⟨a.next.trans b.next, fun x hx => (b.cell x (hx.trans_le a.next)).trans (a.cell x hx)⟩

def RS.All {L : Type} (p : L → Prop) : RS L → Prop
  | .none => True
  | .leaf l => p l
  | .unit => True
  | .cons a b => a.All p ∧ b.All p

theorem RS.All.imp {L : Type} {p q : L → Prop} (h : ∀ l, p l → q l) : ∀ {s : RS L}, s.All p → s.All q
  | .none, _ => trivial
  | .leaf l, hs => h l hs
  | .unit, _ => trivial
  | .cons _ _, hs => ⟨hs.1.imp h, hs.2.imp h⟩

theorem RS.map_congr {L K : Type} {p : L → Prop} {f g : L → K} (h : ∀ l, p l → f l = g l) : ∀ {s : RS L}, s.All p → s.map f = s.map g
  | .none, _ => rfl
  | .leaf l, hs => by simp only [RS.map, h l hs]
  | .unit, _ => rfl
  | .cons _ _, hs => by simp only [RS.map, RS.map_congr h hs.1, RS.map_congr h hs.2]

theorem RS.map_map {L K J : Type} (f : L → K) (g : K → J) : ∀ s : RS L, (s.map f).map g = s.map fun l => g (f l)
  | .none => rfl
  | .leaf _ => rfl
  | .unit => rfl
  | .cons a b => by simp only [RS.map, RS.map_map f g a, RS.map_map f g b]

theorem RS.all_map {L K : Type} {p : L → Prop} {q : K → Prop} {f : L → K} (h : ∀ l, p l → q (f l)) : ∀ {s : RS L}, s.All p → (s.map f).All q
  | .none, _ => trivial
  | .leaf l, hs => h l hs
  | .unit, _ => trivial
  | .cons _ _, hs => ⟨RS.all_map h hs.1, RS.all_map h hs.2⟩

theorem alloc_extends (h : Heap σ) (v : List σ) : Extends h (h.alloc v) :=
  ⟨Nat.le_succ _, fun a ha => by simp [Heap.alloc, ha.ne]⟩

theorem allocAll_spec : ∀ (s : RS (List σ)) (h : Heap σ), Extends h (allocAll h s).1 ∧
    (allocAll h s).2.All (· < (allocAll h s).1.next) ∧ (allocAll h s).2.map (allocAll h s).1.cell = s
  | .none, h => ⟨.refl h, trivial, rfl⟩
  | .leaf v, h => ⟨alloc_extends h v, Nat.lt_succ_self _, by simp [allocAll, RS.map, Heap.alloc]⟩
  | .unit, h => ⟨.refl h, trivial, rfl⟩
  | .cons a b, h => by
    obtain ⟨a1, a2, a3⟩ := allocAll_spec a h
    obtain ⟨b1, b2, b3⟩ := allocAll_spec b (allocAll h a).1
    refine ⟨a1.trans b1, ⟨a2.imp fun _ hl => hl.trans_le b1.next, b2⟩, ?_⟩
    simp only [allocAll, RS.map]
    rw [b3, RS.map_congr (fun l hl => b1.cell l hl) a2, a3]

theorem read_ext {h h' : Heap σ} (e : Extends h h') {s : RS ℕ} (hs : s.All (· < h.next)) : s.map h'.cell = s.map h.cell :=
  RS.map_congr (fun l hl => e.cell l hl) hs

theorem look_ext {h h' : Heap σ} (e : Extends h h') {s : RS View} (hs : s.All fun v => v.addr < h.next) : s.map h'.look = s.map h.look :=
  RS.map_congr (p := fun v => v.addr < h.next) (fun l hl => by simp only [Heap.look, e.cell _ hl]) hs

theorem all_ext {h h' : Heap σ} (e : Extends h h') {s : RS ℕ} (hs : s.All (· < h.next)) : s.All (· < h'.next) :=
  hs.imp fun _ hl => lt_of_lt_of_le hl e.next

theorem allv_ext {h h' : Heap σ} (e : Extends h h') {s : RS View} (hs : s.All fun v => v.addr < h.next) : s.All fun v => v.addr < h'.next :=
  hs.imp fun _ hl => lt_of_lt_of_le hl e.next

theorem getAt_all (i : ℕ) {n : ℕ} {s : RS ℕ} (hs : s.All (· < n)) : (getAt s i).All fun v => v.addr < n :=
  RS.all_map (p := (· < n)) (q := fun v : View => v.addr < n) (f := fun a => ⟨a, i⟩) (fun _ h => h) hs

theorem asNumpy_spec (cpu : Bool) : ∀ (s : RS View) (h : Heap σ), s.All (fun v => v.addr < h.next) →
    Extends h (asNumpy cpu h s).1 ∧ (asNumpy cpu h s).2.All (fun v => v.addr < (asNumpy cpu h s).1.next) ∧
      (asNumpy cpu h s).2.map (asNumpy cpu h s).1.look = s.map h.look
  | .none, h, _ => ⟨.refl h, trivial, rfl⟩
  | .leaf v, h, hv => by
    cases cpu with
    | true => exact ⟨.refl h, hv, rfl⟩
    | false =>
      refine ⟨alloc_extends h _, Nat.lt_succ_self _, ?_⟩
      simp only [asNumpy, Bool.false_eq_true, if_false, RS.map, Heap.look, Heap.alloc, if_true]
      cases (h.cell v.addr)[v.idx]? <;> rfl
  | .unit, h, _ => ⟨.refl h, trivial, rfl⟩
  | .cons a b, h, hs => by
    obtain ⟨a1, a2, a3⟩ := asNumpy_spec cpu a h hs.1
    obtain ⟨b1, b2, b3⟩ := asNumpy_spec cpu b (asNumpy cpu h a).1 (hs.2.imp fun _ hl => lt_of_lt_of_le hl a1.next)
    refine ⟨a1.trans b1, ⟨a2.imp fun _ hl => lt_of_lt_of_le hl b1.next, b2⟩, ?_⟩
    simp only [asNumpy, RS.map]
    rw [b3, look_ext b1 a2, a3, look_ext a1 hs.2]

/-- All addresses are in use. -/
structure WF (a : Agent σ) : Prop where
  prev : a.prev.All (· < a.heap.next)
  train : a.train.All (· < a.heap.next)
  test : a.test.All (· < a.heap.next)
  buffer : ∀ e ∈ a.buffer, e.2.1.All (fun v => v.addr < a.heap.next) ∧ e.2.2.All (fun v => v.addr < a.heap.next)

/-- A larger memory with the same contents for the agent. -/
theorem contents_ext {a : Agent σ} (wf : WF a) {h : Heap σ} (e : Extends a.heap h) :
    WF { a with heap := h } ∧ Spec.contents { a with heap := h } = Spec.contents a := by
  refine ⟨⟨all_ext e wf.prev, all_ext e wf.train, all_ext e wf.test, fun x hx => ⟨allv_ext e (wf.buffer x hx).1, allv_ext e (wf.buffer x hx).2⟩⟩, ?_⟩
  unfold Spec.contents
  simp only
  rw [read_ext e wf.prev, read_ext e wf.train, read_ext e wf.test]
  congr 1
  apply List.map_congr_left
  intro x hx
  rw [look_ext e (wf.buffer x hx).1, look_ext e (wf.buffer x hx).2]

theorem updates_extends (buffer : List (ℕ × RS View × RS View)) : ∀ (us : List (Upd σ)) (h : Heap σ), Extends h (updates buffer us h)
  | [], h => .refl h
  | _ :: us, h => (allocAll_spec _ h).1.trans (updates_extends buffer us _)

theorem store_spec (cpu : Bool) (i : ℕ) {a : Agent σ} (wf : WF a) : WF (store cpu i a) ∧
    Extends a.heap (store cpu i a).heap ∧
    Spec.contents (store cpu i a) = { Spec.contents a with buffer := (Spec.contents a).buffer ++
      [(i, (Spec.contents a).prev.map (·[i]?), (Spec.contents a).train.map (·[i]?))] } := by
  have p : (getAt a.prev i).All fun v => v.addr < a.heap.next := getAt_all i wf.prev
  obtain ⟨r1, r2, r3⟩ := asNumpy_spec cpu _ a.heap p
  have q : (getAt a.train i).All fun v => v.addr < (asNumpy cpu a.heap (getAt a.prev i)).1.next :=
    getAt_all i (all_ext r1 wf.train)
  obtain ⟨n1, n2, n3⟩ := asNumpy_spec cpu _ _ q
  have e := r1.trans n1
  obtain ⟨w, c⟩ := contents_ext wf e
  refine ⟨⟨w.prev, w.train, w.test, ?_⟩, e, ?_⟩
  · intro x hx
    rcases List.mem_append.1 hx with hx | hx
    · exact w.buffer x hx
    · rw [List.mem_singleton.1 hx]
      exact ⟨allv_ext n1 r2, n2⟩
  · have hl : ∀ s : RS ℕ, (getAt s i).map a.heap.look = (s.map a.heap.cell).map (·[i]?) := fun s => by
      simp only [getAt, RS.map_map]
      rfl
    have e1 : (asNumpy cpu a.heap (getAt a.prev i)).2.map (asNumpy cpu (asNumpy cpu a.heap (getAt a.prev i)).1 (getAt a.train i)).1.look
        = (a.prev.map a.heap.cell).map (·[i]?) := by
      rw [look_ext n1 r2, r3, hl]
    have e2 : (asNumpy cpu (asNumpy cpu a.heap (getAt a.prev i)).1 (getAt a.train i)).2.map
        (asNumpy cpu (asNumpy cpu a.heap (getAt a.prev i)).1 (getAt a.train i)).1.look = (a.train.map a.heap.cell).map (·[i]?) := by
      rw [n3, look_ext r1 (getAt_all i wf.train), hl]
    rw [← c]
    have c1 := congrArg Spec.Agent.prev c
    have c2 := congrArg Spec.Agent.train c
    simp only [Spec.contents] at c1 c2
    simp only [Spec.contents, store, List.map_append, List.map_cons, List.map_nil, e1, e2, c1, c2]

theorem observeLoop_spec (cpu : Bool) : ∀ (upds : List (List (Upd σ))) (i : ℕ) (a : Agent σ), WF a → WF (observeLoop cpu i upds a) ∧
    Extends a.heap (observeLoop cpu i upds a).heap ∧
    Spec.contents (observeLoop cpu i upds a) = { Spec.contents a with buffer := (Spec.contents a).buffer ++
      (List.map (fun j => (j, (Spec.contents a).prev.map (·[j]?), (Spec.contents a).train.map (·[j]?))) (List.range' i upds.length)) }
  | [], i, a, wf => ⟨wf, .refl _, by simp [observeLoop]⟩
  | us :: rest, i, a, wf => by
    obtain ⟨s1, s2, s3⟩ := store_spec cpu i wf
    have u := updates_extends (store cpu i a).buffer us (store cpu i a).heap
    obtain ⟨c1, c2⟩ := contents_ext s1 u
    obtain ⟨i1, i2, i3⟩ := observeLoop_spec cpu rest (i + 1) _ c1
    refine ⟨i1, s2.trans (u.trans i2), ?_⟩
    simp only [observeLoop]
    rw [i3, c2, s3]
    simp [List.range'_succ]

theorem zeroAt_none (zero : σ) (ended : List Bool) (h : ended.any id = false) (v : List σ) : zeroAt zero ended v = v := by
  have : ∀ i, ended.getD i false = false := by
    intro i
    rw [List.getD_eq_getElem?_getD]
    cases he : ended[i]? with
    | none => rfl
    | some b =>
      cases b with
      | false => rfl
      | true =>
        have : ended.any id = true := List.any_eq_true.2 ⟨true, List.mem_of_getElem? he, rfl⟩
        rw [h] at this
        cases this
  simp only [zeroAt, this, Bool.false_eq_true, if_false]
  apply List.ext_getElem <;> simp

theorem resetEnded_spec (zero : σ) (h : Heap σ) (ended : List Bool) (s : RS ℕ) (hs : s.All (· < h.next)) :
    Extends h (resetEnded zero h ended s).1 ∧ (resetEnded zero h ended s).2.All (· < (resetEnded zero h ended s).1.next) ∧
      (resetEnded zero h ended s).2.map (resetEnded zero h ended s).1.cell = Spec.reset zero ended (s.map h.cell) := by
  unfold resetEnded
  split
  · obtain ⟨a1, a2, a3⟩ := allocAll_spec (s.map fun a => zeroAt zero ended (h.cell a)) h
    exact ⟨a1, a2, by rw [a3, Spec.reset, RS.map_map]⟩
  · next hn =>
    refine ⟨.refl h, hs, ?_⟩
    have hn : ended.any id = false := by simpa using hn
    rw [Spec.reset, RS.map_map]
    exact RS.map_congr (fun l _ => (zeroAt_none zero ended hn _).symm) hs

theorem step_spec (cpu : Bool) (zero : σ) {a : Agent σ} (wf : WF a) (op : Op σ) : WF (a.step cpu zero op) ∧
    Extends a.heap (a.step cpu zero op).heap ∧ Spec.contents (a.step cpu zero op) = Spec.step zero (Spec.contents a) op := by
  cases op with
  | act net =>
    obtain ⟨a1, a2, a3⟩ := allocAll_spec (net (a.train.map a.heap.cell)) a.heap
    obtain ⟨w, c⟩ := contents_ext wf a1
    refine ⟨⟨w.train, a2, w.test, w.buffer⟩, a1, ?_⟩
    have c2 := congrArg Spec.Agent.train c
    have c3 := congrArg Spec.Agent.test c
    have c4 := congrArg Spec.Agent.buffer c
    simp only [Spec.contents] at c2 c3 c4
    simp only [Agent.step, Spec.contents, Spec.step, a3, c2, c3, c4]
  | observe ended upds =>
    obtain ⟨l1, l2, l3⟩ := observeLoop_spec cpu upds 0 a wf
    obtain ⟨r1, r2, r3⟩ := resetEnded_spec zero (observeLoop cpu 0 upds a).heap ended (observeLoop cpu 0 upds a).train l1.train
    obtain ⟨w, c⟩ := contents_ext l1 r1
    refine ⟨⟨trivial, r2, w.test, w.buffer⟩, l2.trans r1, ?_⟩
    have d := c.trans l3
    have c3 := congrArg Spec.Agent.test d
    have c4 := congrArg Spec.Agent.buffer d
    have c5 := congrArg Spec.Agent.train l3
    simp only [Spec.contents] at c3 c4 c5
    simp only [Agent.step, Spec.contents, Spec.step, r3, c3, c4, c5, RS.map, List.range_eq_range']
  | evalAct net =>
    obtain ⟨a1, a2, a3⟩ := allocAll_spec (net (a.test.map a.heap.cell)) a.heap
    obtain ⟨w, c⟩ := contents_ext wf a1
    refine ⟨⟨w.prev, w.train, a2, w.buffer⟩, a1, ?_⟩
    have c1 := congrArg Spec.Agent.prev c
    have c2 := congrArg Spec.Agent.train c
    have c4 := congrArg Spec.Agent.buffer c
    simp only [Spec.contents] at c1 c2 c4
    simp only [Agent.step, Spec.contents, Spec.step, a3, c1, c2, c4]
  | evalObserve ended =>
    obtain ⟨r1, r2, r3⟩ := resetEnded_spec zero a.heap ended a.test wf.test
    obtain ⟨w, c⟩ := contents_ext wf r1
    refine ⟨⟨w.prev, w.train, r2, w.buffer⟩, r1, ?_⟩
    have c1 := congrArg Spec.Agent.prev c
    have c2 := congrArg Spec.Agent.train c
    have c4 := congrArg Spec.Agent.buffer c
    simp only [Spec.contents] at c1 c2 c4
    simp only [Agent.step, Spec.contents, Spec.step, r3, c1, c2, c4]

theorem run_spec (cpu : Bool) (zero : σ) : ∀ (ops : List (Op σ)) (a : Agent σ), WF a → WF (a.run cpu zero ops) ∧
    Extends a.heap (a.run cpu zero ops).heap ∧ Spec.contents (a.run cpu zero ops) = ops.foldl (Spec.step zero) (Spec.contents a)
  | [], a, wf => ⟨wf, .refl _, rfl⟩
  | op :: ops, a, wf => by
    obtain ⟨s1, s2, s3⟩ := step_spec cpu zero wf op
    obtain ⟨i1, i2, i3⟩ := run_spec cpu zero ops _ s1
    refine ⟨i1, s2.trans i2, ?_⟩
    simp only [Agent.run, List.foldl_cons] at i3 ⊢
    rw [i3, s3]

theorem new_wf : WF (Agent.new : Agent σ) := ⟨trivial, trivial, trivial, by simp [Agent.new]⟩

theorem buffer_step (cpu : Bool) (zero : σ) (a : Agent σ) (op : Op σ) : ∃ es, (a.step cpu zero op).buffer = a.buffer ++ es := by
  have loop : ∀ (upds : List (List (Upd σ))) (i : ℕ) (a : Agent σ), ∃ es, (observeLoop cpu i upds a).buffer = a.buffer ++ es := by
    intro upds
    induction upds with
    | nil => exact fun i a => ⟨[], by simp [observeLoop]⟩
    | cons us rest ih =>
      intro i a
      obtain ⟨es, he⟩ := ih (i + 1) { store cpu i a with heap := updates (store cpu i a).buffer us (store cpu i a).heap }
      exact ⟨_, he.trans (List.append_assoc _ _ _)⟩
  cases op with
  | act net => exact ⟨[], by simp [Agent.step]⟩
  | observe ended upds => exact loop upds 0 a
  | evalAct net => exact ⟨[], by simp [Agent.step]⟩
  | evalObserve ended => exact ⟨[], by simp [Agent.step]⟩

/-! ## C151 -/

/-- **C151 (views as good as copies).** Whatever the history of acting, observing, updating and evaluating, on the CPU and on another
device, the contents of the agent's recurrent states and of all those in its replay buffer, as memory is at the end, are those of the
agent on values. -/
theorem views_are_values (cpu : Bool) (zero : σ) (ops : List (Op σ)) :
    Spec.contents (Agent.new.run cpu zero ops) = ops.foldl (Spec.step zero) ⟨.none, .none, .none, []⟩ :=
  (run_spec cpu zero ops _ new_wf).2.2

/-- **C151 (snapshots).** A recurrent state in the replay buffer has the same contents after any further history as when it was
stored. -/
theorem stored_states_stay (cpu : Bool) (zero : σ) (ops ops' : List (Op σ)) :
    ∃ es, (Agent.new.run cpu zero (ops ++ ops')).buffer = (Agent.new.run cpu zero ops).buffer ++ es ∧
      ∀ e ∈ (Agent.new.run cpu zero ops).buffer,
        e.2.1.map (Agent.new.run cpu zero (ops ++ ops')).heap.look = e.2.1.map (Agent.new.run cpu zero ops).heap.look ∧
        e.2.2.map (Agent.new.run cpu zero (ops ++ ops')).heap.look = e.2.2.map (Agent.new.run cpu zero ops).heap.look := by
  have wf := (run_spec cpu zero ops (Agent.new : Agent σ) new_wf).1
  have happ : Agent.new.run cpu zero (ops ++ ops') = (Agent.new.run cpu zero ops).run cpu zero ops' := by
    simp [Agent.run, List.foldl_append]
  rw [happ]
  generalize (Agent.new.run cpu zero ops : Agent σ) = a at wf
  have ext := (run_spec cpu zero ops' a wf).2.1
  have pre : ∀ (l : List (Op σ)) (a : Agent σ), ∃ es, (a.run cpu zero l).buffer = a.buffer ++ es := by
    intro l
    induction l with
    | nil => exact fun a => ⟨[], by simp [Agent.run]⟩
    | cons op l ih =>
      intro a
      obtain ⟨es, he⟩ := ih (a.step cpu zero op)
      obtain ⟨es', he'⟩ := buffer_step cpu zero a op
      exact ⟨es' ++ es, by rw [← List.append_assoc, ← he', ← he]; rfl⟩
  obtain ⟨es, he⟩ := pre ops' a
  exact ⟨es, he, fun e h => ⟨look_ext ext (wf.buffer e h).1, look_ext ext (wf.buffer e h).2⟩⟩

/-! ## Limits -/

/-- A network that changes its recurrent state in place, as PyTorch allows under `no_grad`: the arrays of the state are overwritten. -/
def overwrite (h : Heap σ) (f : List σ → List σ) : RS ℕ → Heap σ
  | .none => h
  | .leaf a => h.write a (f (h.cell a))
  | .unit => h
  | .cons a b => overwrite (overwrite h f a) f b

/-- **C151 (limit).** On the CPU the stored states share memory with the agent's current state: a network that changes its recurrent
state in place changes the `next_recurrent_state` of a transition that is already stored.  On another device it does not. -/
theorem in_place_corrupts :
    ∃ (ops : List (Op ℕ)) (a b : Agent ℕ), a = Agent.new.run true 0 ops ∧ b = Agent.new.run false 0 ops ∧
      ((Spec.contents a).buffer.map fun e => e.2.2) = [.leaf (some 5)] ∧
      ((Spec.contents { a with heap := overwrite a.heap (List.map (· + 1)) a.train }).buffer.map fun e => e.2.2) = [.leaf (some 6)] ∧
      ((Spec.contents b).buffer.map fun e => e.2.2) = [.leaf (some 5)] ∧
      ((Spec.contents { b with heap := overwrite b.heap (List.map (· + 1)) b.train }).buffer.map fun e => e.2.2) = [.leaf (some 5)] :=
  ⟨[.act fun _ => .leaf [5], .observe [false] [[]]], _, _, rfl, rfl, rfl, rfl, rfl, rfl⟩

/-! ## Non-vacuity -/

/-- A network with a state of two arrays, for two environments. -/
def demoNet : RS (List ℕ) → RS (List ℕ)
  | .cons (.leaf v) (.cons (.leaf w) .unit) => .cons (.leaf (v.map (· + 1))) (.cons (.leaf (w.map (· + 2))) .unit)
  | _ => .cons (.leaf [10, 20]) (.cons (.leaf [30, 40]) .unit)

/-- Two steps; the second environment's episode ends after the first, and there is an update. -/
def demoOps : List (Op ℕ) :=
  [.act demoNet, .observe [false, true] [[], [fun _ => .leaf [7]]], .act demoNet, .observe [false, false] [[], []]]

example : ((Spec.contents (Agent.new.run true 0 demoOps)).buffer.map fun e => e.2.1) = [.none, .none,
    .cons (.leaf (some 10)) (.cons (.leaf (some 30)) .unit), .cons (.leaf (some 0)) (.cons (.leaf (some 0)) .unit)] := rfl

end Pfrl.Snapshots
