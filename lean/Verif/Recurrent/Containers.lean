import Verif.Recurrent.Packed

/-!
# Recurrent containers and forward computation (C76)

A recurrent module gets packed sequences, one per environment, and a batched state.  `Spec.IsMachine` says what it should
compute: for every environment, step by step, its outputs from its state and its items, whatever the other environments
are.  The containers keep this property, and so the two ways of using a recurrent model (one step at a time while acting,
whole sequences while learning) agree.
-/

namespace Pfrl.Recurrent

variable {σ V : Type _}

/-! ## Model -/

/-- `forward(packed_input, recurrent_state)` of a recurrent module, `pfrl/nn/recurrent.py`. -/
abbrev Rnn (σ V : Type _) := Tree (Block V) → Batched σ → Except PyErr (Tree (Block V) × Batched σ)

/-- A layer of `RecurrentSequential`: one that is not recurrent, or one that is. -/
inductive Layer (σ V : Type _) where
  | plain (f : Tree (Block V) → Except PyErr (Tree (Block V)))
  | recurrent (f : Rnn σ V)

/-- `is_recurrent`, `pfrl/utils/recurrent.py:8-28`. -/
def Layer.isRecurrent : Layer σ V → Bool
  | .plain _ => false
  | .recurrent _ => true

/-- `recurrent_children`, `pfrl/nn/recurrent_sequential.py:55-62`. -/
def recurrentChildren (layers : List (Layer σ V)) : List (Layer σ V) := layers.filter Layer.isRecurrent

/-- The local variables of `RecurrentSequential.forward`. -/
structure Loop (σ V : Type _) where
  h : Tree (Block V)
  isWrapped : Bool
  queue : List (Batched σ)
  new : List (Batched σ)

/-- The body of the loop over the layers, `recurrent_sequential.py:37-50`. -/
def loopStep (batchSizes : List Nat) (l : Loop σ V) : Layer σ V → Except PyErr (Loop σ V)
  | .recurrent f =>
    match l.queue.getLast? with
    | none => .error .indexError
    | some rs =>
      match f (if l.isWrapped then l.h else wrap batchSizes l.h) rs with
      | .error e => .error e
      | .ok (h, rs) => .ok ⟨h, true, l.queue.dropLast, l.new ++ [rs]⟩
  | .plain f =>
    match f (if l.isWrapped then unwrap l.h else l.h) with
    | .error e => .error e
    | .ok h => .ok { l with h := h, isWrapped := false }

/-- The loop. -/
def loop (batchSizes : List Nat) : List (Layer σ V) → Loop σ V → Except PyErr (Loop σ V)
  | [], l => .ok l
  | layer :: layers, l =>
    match loopStep batchSizes l layer with
    | .error e => .error e
    | .ok l => loop batchSizes layers l

/-- `recurrent_sequential.py:29-33`.  (A tensor as the state is not modelled; it is no state this module returns.) -/
def stateQueue (layers : List (Layer σ V)) : Batched σ → Except PyErr (List (Batched σ))
  | .none => .ok (List.replicate (recurrentChildren layers).length .none)
  | .tuple ss => if ss.length = (recurrentChildren layers).length then .ok ss.reverse else .error .assertionError
  | .tensor _ => .error .typeError

/-- `RecurrentSequential.forward`, `recurrent_sequential.py:28-53`. -/
def sequential (layers : List (Layer σ V)) : Rnn σ V := fun sequences state =>
  match stateQueue layers state with
  | .error e => .error e
  | .ok queue =>
    match info sequences with
    | none => .error .typeError
    | some batchSizes =>
      match loop batchSizes layers ⟨sequences, true, queue, []⟩ with
      | .error e => .error e
      | .ok l =>
        if l.queue ≠ [] then .error .assertionError
        else if l.new.length ≠ (recurrentChildren layers).length then .error .assertionError
        else .ok (if l.isWrapped then l.h else wrap batchSizes l.h, .tuple l.new)

/-- `[link(sequences, rs) for link, rs in zip(self, recurrent_state)]`, `pfrl/nn/recurrent_branched.py:24`. -/
def branches (sequences : Tree (Block V)) : List (Rnn σ V) → List (Batched σ) →
    Except PyErr (List (Tree (Block V)) × List (Batched σ))
  | f :: fs, s :: ss =>
    match f sequences s with
    | .error e => .error e
    | .ok (y, s) =>
      match branches sequences fs ss with
      | .error e => .error e
      | .ok (ys, ss) => .ok (y :: ys, s :: ss)
  | _, _ => .ok ([], [])

/-- `RecurrentBranched.forward`, `recurrent_branched.py:19-26`.  Without any branch, unpacking `zip()` raises.  (A tensor as the
state is not modelled.) -/
def branched (fs : List (Rnn σ V)) : Rnn σ V := fun sequences state =>
  match state with
  | .tensor _ => .error .typeError
  | .none =>
    match branches sequences fs (List.replicate fs.length .none) with
    | .error e => .error e
    | .ok ([], _) => .error .valueError
    | .ok (ys, ss) => .ok (.tuple ys, .tuple ss)
  | .tuple ss =>
    match branches sequences fs ss with
    | .error e => .error e
    | .ok ([], _) => .error .valueError
    | .ok (ys, ss) => .ok (.tuple ys, .tuple ss)

/-- `one_step_forward`, `pfrl/utils/recurrent.py:143-157`. -/
def oneStepForward (rnn : Rnn σ V) (batch : Tree (Block V)) (state : Batched σ) :
    Except PyErr (Tree (Block V) × Batched σ) :=
  match packOne batch with
  | .error e => .error e
  | .ok p =>
    match rnn p state with
    | .error e => .error e
    | .ok (y, s) => .ok (unwrap y, s)

/-- `pack_and_forward`, `recurrent.py:160-174`. -/
def packAndForward (rnn : Rnn σ V) (sequences : List (Tree (Block V))) (state : Batched σ) :
    Except PyErr (Tree (Block V) × Batched σ) :=
  match pack sequences with
  | .error e => .error e
  | .ok p =>
    match rnn p state with
    | .error e => .error e
    | .ok (y, s) => .ok (unwrap y, s)

/-! ## Specification -/

/-- Running a machine on one sequence: the last state and all outputs. -/
def Spec.runSeq {S I J : Type _} (step : S → I → S × J) : S → List I → S × List J
  | s, [] => (s, [])
  | s, x :: xs => ((Spec.runSeq step (step s x).1 xs).1, (step s x).2 :: (Spec.runSeq step (step s x).1 xs).2)

/-- A batched state holds these states of the environments. -/
structure Spec.Rep (b : Batched σ) (ss : List (State σ)) : Prop where
  size : Spec.BatchSize ss.length b
  get : ∀ (i : Nat) (s : State σ), ss[i]? = some s → getAt i b = .ok s

/-- A recurrent module computes, for each environment on its own, the machine `step`.  `S` says which states it takes, `I`
which items, `J` which items it puts out. -/
structure Spec.IsMachine (rnn : Rnn σ V) (S : State σ → Prop) (I J : Item V → Prop)
    (step : State σ → Item V → State σ × Item V) : Prop where
  closed : ∀ s x, S s → I x → S (step s x).1 ∧ J (step s x).2
  forward : ∀ (seqs : List (List (Item V))) (d : Tree (Block V)) (b : Batched σ) (ss : List (State σ)),
    Spec.Packable seqs → (∀ s ∈ seqs, ∀ x ∈ s, I x) → Spec.Holds (.packed (batchSizes seqs)) d (flattenTimeFirst seqs) →
    ss.length = seqs.length → Spec.Rep b ss → (∀ s ∈ ss, S s) →
    ∃ d' b', rnn d b = .ok (d', b') ∧
      Spec.Holds (.packed (batchSizes seqs)) d'
        (flattenTimeFirst (List.zipWith (fun s xs => (Spec.runSeq step s xs).2) ss seqs)) ∧
      Spec.Rep b' (List.zipWith (fun s xs => (Spec.runSeq step s xs).1) ss seqs)

/-- A layer without state treats the rows alike. -/
structure Spec.IsRowwise (f : Tree (Block V) → Except PyErr (Tree (Block V))) (I J : Item V → Prop) (g : Item V → Item V) :
    Prop where
  closed : ∀ x, I x → J (g x)
  forward : ∀ (rs : List (Item V)) (d : Tree (Block V)), rs ≠ [] → (∀ x ∈ rs, I x) → Spec.Holds .tensor d rs →
    ∃ d', f d = .ok d' ∧ Spec.Holds .tensor d' (rs.map g)

/-- What a layer computes for one environment. -/
inductive Spec.LayerStep (σ V : Type _) where
  | plain (g : Item V → Item V)
  | recurrent (step : State σ → Item V → State σ × Item V)

/-- Layers that fit together: each takes the items the one before puts out. -/
inductive Spec.Chain : List (Layer σ V) → List (Spec.LayerStep σ V) → (Item V → Prop) → (Item V → Prop) →
    List (State σ → Prop) → Prop
  | nil {I} : Spec.Chain [] [] I I []
  | plain {f g I J K layers steps Ss} : Spec.IsRowwise f I J g → Spec.Chain layers steps J K Ss →
      Spec.Chain (.plain f :: layers) (.plain g :: steps) I K Ss
  | recurrent {f step S I J K layers steps Ss} : Spec.IsMachine f S I J step → Spec.Chain layers steps J K Ss →
      Spec.Chain (.recurrent f :: layers) (.recurrent step :: steps) I K (S :: Ss)

/-- One environment, one step, through all layers: the states of the recurrent layers, in order. -/
def Spec.layersStep : List (Spec.LayerStep σ V) → List (State σ) → Item V → List (State σ) × Item V
  | .plain g :: steps, ss, x => Spec.layersStep steps ss (g x)
  | .recurrent step :: steps, s :: ss, x =>
    ((step s x).1 :: (Spec.layersStep steps ss (step s x).2).1, (Spec.layersStep steps ss (step s x).2).2)
  | _, _, x => ([], x)

/-- The states of the parts, if the whole has `n` of them: `None` is `None` for each. -/
def Spec.parts (n : Nat) : State σ → List (State σ)
  | .none => List.replicate n .none
  | .tuple ss => ss
  | .tensor _ => []

/-- The states the containers take: `None` (if all parts take it) or a tuple of states of the parts. -/
def Spec.TupleOf (Ss : List (State σ → Prop)) (s : State σ) : Prop :=
  (s = .none ∨ ∃ ss, s = .tuple ss) ∧ List.Forall₂ (fun S s => S s) Ss (Spec.parts Ss.length s)

/-- One step of `RecurrentSequential` for one environment. -/
def Spec.sequentialStep (n : Nat) (steps : List (Spec.LayerStep σ V)) (s : State σ) (x : Item V) : State σ × Item V :=
  (.tuple (Spec.layersStep steps (Spec.parts n s) x).1, (Spec.layersStep steps (Spec.parts n s) x).2)

/-- One step of `RecurrentBranched` for one environment: every branch gets the item. -/
def Spec.branchedStep (steps : List (State σ → Item V → State σ × Item V)) (s : State σ) (x : Item V) : State σ × Item V :=
  (.tuple (List.zipWith (fun step s => (step s x).1) steps (Spec.parts steps.length s)),
    .tuple (List.zipWith (fun step s => (step s x).2) steps (Spec.parts steps.length s)))

/-- Branches that get the same items. -/
inductive Spec.Branches : List (Rnn σ V) → List (State σ → Item V → State σ × Item V) → (Item V → Prop) →
    List (Item V → Prop) → List (State σ → Prop) → Prop
  | nil {I} : Spec.Branches [] [] I [] []
  | cons {f step S I J fs steps Js Ss} : Spec.IsMachine f S I J step → Spec.Branches fs steps I Js Ss →
      Spec.Branches (f :: fs) (step :: steps) I (J :: Js) (S :: Ss)

/-- Tuples of items of the branches. -/
def Spec.TupleItems (Js : List (Item V → Prop)) (x : Item V) : Prop :=
  ∃ xs, x = .tuple xs ∧ List.Forall₂ (fun J x => J x) Js xs

/-- Calling a module one step after the other, carrying the state. -/
def Spec.stepwise (rnn : Rnn σ V) : Batched σ → List (Tree (Block V)) → Except PyErr (List (Tree (Block V)) × Batched σ)
  | b, [] => .ok ([], b)
  | b, d :: ds =>
    match oneStepForward rnn d b with
    | .error e => .error e
    | .ok (y, b) =>
      match Spec.stepwise rnn b ds with
      | .error e => .error e
      | .ok (ys, b) => .ok (y :: ys, b)

/-! ## Lemmas -/

theorem runSeq_length {S I J : Type _} (step : S → I → S × J) : ∀ (s : S) (xs : List I),
    (Spec.runSeq step s xs).2.length = xs.length
  | _, [] => rfl
  | s, x :: xs => by simp [Spec.runSeq, runSeq_length step _ xs]

theorem runSeq_forall {S I J : Type _} {step : S → I → S × J} {P : S → Prop} {Q : I → Prop} {R : J → Prop}
    (h : ∀ s x, P s → Q x → P (step s x).1 ∧ R (step s x).2) : ∀ (s : S) (xs : List I), P s → (∀ x ∈ xs, Q x) →
    P (Spec.runSeq step s xs).1 ∧ ∀ y ∈ (Spec.runSeq step s xs).2, R y
  | _, [], hs, _ => ⟨hs, by simp [Spec.runSeq]⟩
  | s, x :: xs, hs, hx => by
    obtain ⟨h1, h2⟩ := h s x hs (hx x (by simp))
    obtain ⟨h3, h4⟩ := runSeq_forall h _ xs h1 fun x hx' => hx x (by simp [hx'])
    refine ⟨h3, ?_⟩
    intro y hy
    rcases List.mem_cons.mp hy with rfl | hy
    · exact h2
    · exact h4 y hy

theorem runSeq_plain (g : Item V → Item V) (steps : List (Spec.LayerStep σ V)) : ∀ (ss : List (State σ)) (xs : List (Item V)),
    Spec.runSeq (Spec.layersStep (.plain g :: steps)) ss xs = Spec.runSeq (Spec.layersStep steps) ss (xs.map g)
  | _, [] => rfl
  | ss, x :: xs => by
    rw [List.map_cons, Spec.runSeq, Spec.runSeq, runSeq_plain g steps _ xs]
    rfl

theorem runSeq_recurrent (step : State σ → Item V → State σ × Item V) (steps : List (Spec.LayerStep σ V)) :
    ∀ (s : State σ) (ss : List (State σ)) (xs : List (Item V)),
    Spec.runSeq (Spec.layersStep (.recurrent step :: steps)) (s :: ss) xs
      = ((Spec.runSeq step s xs).1 :: (Spec.runSeq (Spec.layersStep steps) ss (Spec.runSeq step s xs).2).1,
        (Spec.runSeq (Spec.layersStep steps) ss (Spec.runSeq step s xs).2).2)
  | _, _, [] => rfl
  | s, ss, x :: xs => by
    have ih := runSeq_recurrent step steps (step s x).1 (Spec.layersStep steps ss (step s x).2).1 xs
    simp only [Spec.runSeq]
    rw [show Spec.layersStep (.recurrent step :: steps) (s :: ss) x = ((step s x).1 ::
      (Spec.layersStep steps ss (step s x).2).1, (Spec.layersStep steps ss (step s x).2).2) from rfl, ih]

theorem runSeq_sequential (n : Nat) (steps : List (Spec.LayerStep σ V)) : ∀ (s : State σ) (xs : List (Item V)), xs ≠ [] →
    Spec.runSeq (Spec.sequentialStep n steps) s xs
      = (.tuple (Spec.runSeq (Spec.layersStep steps) (Spec.parts n s) xs).1,
        (Spec.runSeq (Spec.layersStep steps) (Spec.parts n s) xs).2)
  | _, [], h => absurd rfl h
  | s, [x], _ => rfl
  | s, x :: y :: xs, _ => by
    have ih := runSeq_sequential n steps (Spec.sequentialStep n steps s x).1 (y :: xs) (by simp)
    rw [Spec.runSeq, ih]
    rfl

/-- Column-wise to row-wise: the states of environment `i`. -/
def rowOf (cols : List (List (State σ))) (i : Nat) : List (State σ) := cols.map fun c => c[i]?.getD .none

theorem sameLengths_run {S I J : Type _} (step : S → I → S × J) : ∀ (ss : List S) (seqs : List (List I)),
    ss.length = seqs.length → SameLengths (List.zipWith (fun s xs => (Spec.runSeq step s xs).2) ss seqs) seqs
  | [], [], _ => rfl
  | s :: ss, xs :: seqs, h => by
    have ih := sameLengths_run step ss seqs (by simpa using h)
    unfold SameLengths at ih ⊢
    simp only [List.zipWith_cons_cons, List.map_cons, runSeq_length, ih]
  | [], _ :: _, h => by simp at h
  | _ :: _, [], h => by simp at h

theorem zipWith_mem {α β γ : Type _} {f : α → β → γ} {l : List α} {m : List β} {c : γ} (h : c ∈ List.zipWith f l m) :
    ∃ a ∈ l, ∃ b ∈ m, c = f a b := by
  obtain ⟨k, hk⟩ := List.getElem?_of_mem h
  rw [List.getElem?_zipWith] at hk
  cases ha : l[k]? with
  | none => rw [ha] at hk; simp at hk
  | some a =>
    cases hb : m[k]? with
    | none => rw [ha, hb] at hk; simp at hk
    | some b =>
      rw [ha, hb] at hk
      simp only [Option.some.injEq] at hk
      exact ⟨a, List.mem_of_getElem? ha, b, List.mem_of_getElem? hb, hk.symm⟩

/-- The loop over the layers.  `cols` are the states of the environments, layer by layer. -/
theorem loop_spec {layers : List (Layer σ V)} {steps : List (Spec.LayerStep σ V)} {I K : Item V → Prop}
    {Ss : List (State σ → Prop)} (hc : Spec.Chain layers steps I K Ss) : ∀ (seqs : List (List (Item V))) (l : Loop σ V)
    (bs : List (Batched σ)) (cols : List (List (State σ))), Spec.Packable seqs → (∀ s ∈ seqs, ∀ x ∈ s, I x) →
    Spec.Holds (if l.isWrapped then .packed (batchSizes seqs) else .tensor) l.h (flattenTimeFirst seqs) →
    l.queue = bs.reverse → List.Forall₂ Spec.Rep bs cols →
    List.Forall₂ (fun S c => c.length = seqs.length ∧ ∀ s ∈ c, S s) Ss cols →
    ∃ (l' : Loop σ V) (seqs' : List (List (Item V))) (bs' : List (Batched σ)) (cols' : List (List (State σ))),
      loop (batchSizes seqs) layers l = .ok l' ∧ SameLengths seqs' seqs ∧ (∀ s ∈ seqs', ∀ x ∈ s, K x) ∧
      Spec.Holds (if l'.isWrapped then .packed (batchSizes seqs) else .tensor) l'.h (flattenTimeFirst seqs') ∧
      l'.queue = [] ∧ l'.new = l.new ++ bs' ∧ List.Forall₂ Spec.Rep bs' cols' ∧
      List.Forall₂ (fun S c => c.length = seqs.length ∧ ∀ s ∈ c, S s) Ss cols' ∧
      ∀ (i : Nat) (xs : List (Item V)), seqs[i]? = some xs →
        ∃ ys, seqs'[i]? = some ys ∧ Spec.runSeq (Spec.layersStep steps) (rowOf cols i) xs = (rowOf cols' i, ys) := by
  induction hc with
  | nil =>
    intro seqs l bs cols hp hi hh hq hr hS
    cases hS
    cases hr
    refine ⟨l, seqs, [], [], rfl, rfl, hi, hh, hq, by simp, .nil, .nil, ?_⟩
    intro i xs hx
    refine ⟨xs, hx, ?_⟩
    clear hx
    show Spec.runSeq (Spec.layersStep []) [] xs = ([], xs)
    induction xs with
    | nil => rfl
    | cons x xs ih =>
      rw [Spec.runSeq, show Spec.layersStep ([] : List (Spec.LayerStep σ V)) [] x = ([], x) from rfl, ih]
  | @plain f g I J K layers steps Ss hf hc ih =>
    intro seqs l bs cols hp hi hh hq hr hS
    have hi' : ∀ x ∈ flattenTimeFirst seqs, I x := by
      intro x hx
      obtain ⟨s, hs, hx⟩ := mem_flatten_time.mp hx
      exact hi s hs x hx
    have hunw : Spec.Holds .tensor (if l.isWrapped then unwrap l.h else l.h) (flattenTimeFirst seqs) := by
      cases hw : l.isWrapped with
      | true => rw [hw] at hh; exact unwrap_holds hh
      | false => rw [hw] at hh; exact hh
    obtain ⟨h', h1, h2⟩ := hf.forward _ _ (flatten_ne_nil hp) hi' hunw
    have hsl := sameLengths_map g seqs
    obtain ⟨l', seqs', bs', cols', k1, k2, k3, k4, k5, k6, k7, k8, k9⟩ := ih (seqs.map (List.map g))
      { l with h := h', isWrapped := false } bs cols (packable_congr hsl.symm hp) (by
        intro s hs x hx
        obtain ⟨s', hs', rfl⟩ := List.mem_map.mp hs
        obtain ⟨x', hx', rfl⟩ := List.mem_map.mp hx
        exact hf.closed x' (hi s' hs' x' hx')) (by
        rw [flatten_map]
        exact h2) hq hr (by simpa using hS)
    rw [batchSizes_congr hsl] at k1 k4
    refine ⟨l', seqs', bs', cols', ?_, k2.trans hsl, k3, k4, k5, k6, k7, by simpa using k8, ?_⟩
    · simp only [loop, loopStep, h1]
      exact k1
    · intro i xs hx
      obtain ⟨ys, m1, m2⟩ := k9 i (xs.map g) (by rw [List.getElem?_map, hx]; rfl)
      exact ⟨ys, m1, by rw [runSeq_plain]; exact m2⟩
  | @recurrent f step S I J K layers steps Ss hf hc ih =>
    intro seqs l bs cols hp hi hh hq hr hS
    cases hS with
    | @cons _ c _ cols hS1 hS2 =>
    cases hr with
    | @cons b _ bs _ hr1 hr2 =>
    have hw : Spec.Holds (.packed (batchSizes seqs)) (if l.isWrapped then l.h else wrap (batchSizes seqs) l.h)
        (flattenTimeFirst seqs) := by
      cases hw : l.isWrapped with
      | true => rw [hw] at hh; exact hh
      | false => rw [hw] at hh; exact wrap_holds hh
    obtain ⟨h', b', h1, h2, h3⟩ := hf.forward seqs _ b c hp hi hw hS1.1 hr1 hS1.2
    have hsl := sameLengths_run step c seqs hS1.1
    have hlen : (List.zipWith (fun s xs => (Spec.runSeq step s xs).2) c seqs).length = seqs.length := by
      rw [List.length_zipWith, hS1.1, Nat.min_self]
    obtain ⟨l', seqs', bs', cols', k1, k2, k3, k4, k5, k6, k7, k8, k9⟩ := ih
      (List.zipWith (fun s xs => (Spec.runSeq step s xs).2) c seqs) ⟨h', true, bs.reverse, l.new ++ [b']⟩ bs cols
      (packable_congr hsl.symm hp) (by
        intro s hs x hx
        obtain ⟨s0, hs0, xs, hxs, rfl⟩ := zipWith_mem hs
        exact (runSeq_forall hf.closed s0 xs (hS1.2 s0 hs0) (hi xs hxs)).2 x hx) (by
        rw [batchSizes_congr hsl]
        exact h2) rfl hr2 (by rw [hlen]; exact hS2)
    rw [batchSizes_congr hsl] at k1 k4
    refine ⟨l', seqs', b' :: bs', _ :: cols', ?_, k2.trans hsl, k3, k4, k5, by rw [k6]; simp, .cons h3 k7,
      .cons ⟨by rw [List.length_zipWith, hS1.1, Nat.min_self], ?_⟩ (by rw [hlen] at k8; exact k8), ?_⟩
    · simp only [loop, loopStep, hq, List.reverse_cons, List.getLast?_concat, h1, List.dropLast_concat]
      exact k1
    · intro s hs
      obtain ⟨s0, hs0, xs, hxs, rfl⟩ := zipWith_mem hs
      exact (runSeq_forall hf.closed s0 xs (hS1.2 s0 hs0) (hi xs hxs)).1
    · intro i xs hx
      have hilt : i < c.length := by rw [hS1.1]; exact (List.getElem?_eq_some_iff.mp hx).1
      have hci := List.getElem?_eq_getElem hilt
      obtain ⟨ys, m1, m2⟩ := k9 i (Spec.runSeq step c[i] xs).2 (by rw [List.getElem?_zipWith, hci, hx])
      refine ⟨ys, m1, ?_⟩
      have e1 : rowOf (c :: cols) i = c[i] :: rowOf cols i := by simp [rowOf, hci]
      rw [e1, runSeq_recurrent, m2]
      simp [rowOf, List.getElem?_zipWith, hci, hx]

theorem chain_children {layers : List (Layer σ V)} {steps : List (Spec.LayerStep σ V)} {I K : Item V → Prop}
    {Ss : List (State σ → Prop)} (hc : Spec.Chain layers steps I K Ss) : (recurrentChildren layers).length = Ss.length := by
  induction hc with
  | nil => rfl
  | plain _ _ ih => simpa [recurrentChildren, Layer.isRecurrent] using ih
  | recurrent _ _ ih =>
    rw [recurrentChildren, List.filter_cons_of_pos rfl, List.length_cons, List.length_cons]
    exact congrArg (· + 1) ih

/-- The batched state of a tuple, part by part. -/
theorem rep_none (n : Nat) : Spec.Rep (.none : Batched σ) (List.replicate n .none) := by
  refine ⟨by simp [Spec.BatchSize], ?_⟩
  intro i s hs
  have := List.mem_of_getElem? hs
  rw [List.mem_replicate] at this
  rw [this.2]
  rfl

theorem getAtList_inv (i : Nat) : ∀ (bs : List (Batched σ)) (gs : List (State σ)), getAtList i bs = .ok gs →
    List.Forall₂ (fun b g => getAt i b = .ok g) bs gs
  | [], gs, h => by
    simp only [getAtList, Except.ok.injEq] at h
    rw [← h]
    exact .nil
  | b :: bs, gs, h => by
    rw [getAtList] at h
    cases h1 : getAt i b with
    | error e => rw [h1] at h; simp at h
    | ok g =>
      rw [h1] at h
      dsimp only at h
      cases h2 : getAtList i bs with
      | error e => rw [h2] at h; simp at h
      | ok gs' =>
        rw [h2] at h
        simp only [Except.ok.injEq] at h
        rw [← h]
        exact .cons h1 (getAtList_inv i bs gs' h2)

/-- A batched tuple, as columns. -/
theorem rep_tuple {bs : List (Batched σ)} {ss : List (State σ)} (h : Spec.Rep (.tuple bs) ss) :
    ∃ cols, List.Forall₂ Spec.Rep bs cols ∧ (∀ c ∈ cols, c.length = ss.length) ∧
      ∀ (i : Nat) (s : State σ), ss[i]? = some s → s = .tuple (rowOf cols i) := by
  have hrow : ∀ (i : Nat) (s : State σ), ss[i]? = some s → ∃ gs, s = .tuple gs ∧
      List.Forall₂ (fun b g => getAt i b = .ok g) bs gs := by
    intro i s hs
    have := h.get i s hs
    rw [getAt] at this
    cases hg : getAtList i bs with
    | error e => rw [hg] at this; simp at this
    | ok gs =>
      rw [hg] at this
      simp only [Except.ok.injEq] at this
      exact ⟨gs, this.symm, getAtList_inv i bs gs hg⟩
  have hsize : ∀ b ∈ bs, Spec.BatchSize ss.length b := by
    have := h.size
    rw [Spec.BatchSize, batchSizes_iff] at this
    exact this
  refine ⟨bs.map fun b => ss.mapIdx fun i _ => match getAt i b with | .ok g => g | .error _ => .none, ?_, ?_, ?_⟩
  · rw [List.forall₂_map_right_iff, List.forall₂_same]
    intro b hb
    refine ⟨by simpa using hsize b hb, ?_⟩
    intro i s hs
    rw [List.getElem?_mapIdx] at hs
    cases hsi : ss[i]? with
    | none => rw [hsi] at hs; simp at hs
    | some s0 =>
      rw [hsi, Option.map_some, Option.some.injEq] at hs
      obtain ⟨gs, _, hgs⟩ := hrow i s0 hsi
      obtain ⟨k, hk⟩ := List.getElem?_of_mem hb
      obtain ⟨hk1, hk2⟩ := List.getElem?_eq_some_iff.mp hk
      obtain ⟨_, hg⟩ := forall₂_getElem hgs k hk1
      rw [hk2] at hg
      rw [hg] at hs ⊢
      rw [← hs]
  · intro c hc
    obtain ⟨b, _, rfl⟩ := List.mem_map.mp hc
    simp
  · intro i s hs
    obtain ⟨gs, rfl, hgs⟩ := hrow i s hs
    congr 1
    unfold rowOf
    rw [List.map_map]
    have : ∀ b ∈ bs, ((fun c : List (State σ) => c[i]?.getD State.none) ∘ fun b : Batched σ => ss.mapIdx fun i _ =>
        match getAt i b with | .ok g => g | .error _ => .none) b = match getAt i b with | .ok g => g | .error _ => .none := by
      intro b _
      simp [Function.comp_apply, List.getElem?_mapIdx, hs]
    rw [List.map_congr_left this]
    clear this hs hrow hsize h
    induction hgs with
    | nil => rfl
    | cons h1 _ ih => rw [List.map_cons, h1, ← ih]

theorem rep_tuple_of {bs : List (Batched σ)} {cols : List (List (State σ))} {n : Nat} (h : List.Forall₂ Spec.Rep bs cols)
    (hl : ∀ c ∈ cols, c.length = n) {ss : List (State σ)} (hn : ss.length = n)
    (hs : ∀ (i : Nat) (s : State σ), ss[i]? = some s → s = .tuple (rowOf cols i)) : Spec.Rep (.tuple bs) ss := by
  refine ⟨?_, ?_⟩
  · rw [Spec.BatchSize, batchSizes_iff, hn]
    clear hs
    induction h with
    | nil => simp
    | @cons b c bs cols h1 _ ih =>
      intro b' hb'
      rcases List.mem_cons.mp hb' with rfl | hb'
      · have := h1.size
        rw [hl c (by simp)] at this
        exact this
      · exact ih (fun c hc => hl c (by simp [hc])) b' hb'
  · intro i s hi
    rw [hs i s hi, getAt]
    have hilt : i < n := hn ▸ (List.getElem?_eq_some_iff.mp hi).1
    have : getAtList i bs = .ok (rowOf cols i) := by
      apply getAtList_ok
      clear hs
      induction h with
      | nil => exact .nil
      | @cons b c bs cols h1 _ ih =>
        have hc : i < c.length := by rw [hl c (by simp)]; exact hilt
        have := h1.get i c[i] (List.getElem?_eq_getElem hc)
        rw [rowOf, List.map_cons, List.getElem?_eq_getElem hc]
        exact .cons this (ih fun c hc => hl c (by simp [hc]))
    rw [this]

/-- The states of a container: what its parts get. -/
theorem parts_spec {Ss : List (State σ → Prop)} {b : Batched σ} {ss : List (State σ)} (hne : ss ≠ []) (hr : Spec.Rep b ss)
    (hS : ∀ s ∈ ss, Spec.TupleOf Ss s) :
    ∃ bs cols, (b = .none ∧ bs = List.replicate Ss.length .none ∨ b = .tuple bs ∧ bs.length = Ss.length) ∧
      List.Forall₂ Spec.Rep bs cols ∧ List.Forall₂ (fun S c => c.length = ss.length ∧ ∀ s ∈ c, S s) Ss cols ∧
      ∀ (i : Nat) (s : State σ), ss[i]? = some s → Spec.parts Ss.length s = rowOf cols i := by
  obtain ⟨s0, hs0⟩ := List.exists_mem_of_ne_nil _ hne
  obtain ⟨i0, hi0⟩ := List.getElem?_of_mem hs0
  cases b with
  | tensor vs =>
    exfalso
    have := hr.get i0 s0 hi0
    rw [getAt] at this
    cases hv : vs[i0]? with
    | none => rw [hv] at this; simp at this
    | some v =>
      rw [hv] at this
      simp only [Except.ok.injEq] at this
      rcases (hS s0 hs0).1 with h | ⟨_, h⟩ <;> rw [h] at this <;> simp at this
  | none =>
    have hall : ∀ s ∈ ss, s = .none := by
      intro s hs
      obtain ⟨i, hi⟩ := List.getElem?_of_mem hs
      have := hr.get i s hi
      rw [getAt, Except.ok.injEq] at this
      exact this.symm
    have hSs : List.Forall₂ (fun (S : State σ → Prop) s => S s) Ss (List.replicate Ss.length .none) := by
      have := (hS s0 hs0).2
      rw [hall s0 hs0] at this
      exact this
    refine ⟨List.replicate Ss.length .none, List.replicate Ss.length (List.replicate ss.length .none), Or.inl ⟨rfl, rfl⟩,
      ?_, ?_, ?_⟩
    · rw [List.forall₂_iff_get]
      refine ⟨by simp, ?_⟩
      intro k _ _
      simp only [List.get_eq_getElem, List.getElem_replicate]
      exact rep_none _
    · rw [List.forall₂_iff_get]
      refine ⟨by simp, ?_⟩
      intro k h1 h2
      simp only [List.get_eq_getElem, List.getElem_replicate]
      refine ⟨by simp, ?_⟩
      intro s hs
      rw [(List.mem_replicate.mp hs).2]
      have := (List.forall₂_iff_get.mp hSs).2 k h1 (by simpa using h1)
      simpa using this
    · intro i s hs
      rw [hall s (List.mem_of_getElem? hs)]
      have hi : i < ss.length := (List.getElem?_eq_some_iff.mp hs).1
      simp [Spec.parts, rowOf, hi]
  | tuple bs =>
    obtain ⟨cols, h1, h2, h3⟩ := rep_tuple hr
    have hparts : ∀ (i : Nat) (s : State σ), ss[i]? = some s → Spec.parts Ss.length s = rowOf cols i := by
      intro i s hs
      rw [h3 i s hs]
      rfl
    have hcl : cols.length = Ss.length := by
      have h4 := (hS s0 hs0).2.length_eq
      rw [hparts i0 s0 hi0] at h4
      simpa [rowOf] using h4.symm
    refine ⟨bs, cols, Or.inr ⟨rfl, by rw [h1.length_eq, hcl]⟩, h1, ?_, hparts⟩
    rw [List.forall₂_iff_get]
    refine ⟨hcl.symm, ?_⟩
    intro k hk1 hk2
    simp only [List.get_eq_getElem]
    refine ⟨h2 _ (List.getElem_mem _), ?_⟩
    intro s hs
    obtain ⟨i, hi⟩ := List.getElem?_of_mem hs
    have hil : i < ss.length := by rw [← h2 _ (List.getElem_mem hk2)]; exact (List.getElem?_eq_some_iff.mp hi).1
    have h4 := (hS ss[i] (List.getElem_mem hil)).2
    rw [hparts i _ (List.getElem?_eq_getElem hil)] at h4
    have := (List.forall₂_iff_get.mp h4).2 k hk1 (by simpa [rowOf] using hk2)
    simp only [List.get_eq_getElem, rowOf, List.getElem_map, hi, Option.getD_some] at this
    exact this

theorem layersStep_closed {layers : List (Layer σ V)} {steps : List (Spec.LayerStep σ V)} {I K : Item V → Prop}
    {Ss : List (State σ → Prop)} (hc : Spec.Chain layers steps I K Ss) : ∀ (ss : List (State σ)) (x : Item V),
    List.Forall₂ (fun S s => S s) Ss ss → I x →
    List.Forall₂ (fun S s => S s) Ss (Spec.layersStep steps ss x).1 ∧ K (Spec.layersStep steps ss x).2 := by
  induction hc with
  | nil =>
    intro ss x h hx
    cases h
    exact ⟨.nil, hx⟩
  | plain hf _ ih =>
    intro ss x h hx
    exact ih ss _ h (hf.closed x hx)
  | recurrent hf _ ih =>
    intro ss x h hx
    cases h with
    | cons h1 h2 =>
      obtain ⟨k1, k2⟩ := hf.closed _ x h1 hx
      obtain ⟨k3, k4⟩ := ih _ _ h2 k2
      exact ⟨.cons k1 k3, k4⟩

theorem tupleOf_tuple {Ss : List (State σ → Prop)} {ss : List (State σ)} (h : List.Forall₂ (fun S s => S s) Ss ss) :
    Spec.TupleOf Ss (.tuple ss) := ⟨Or.inr ⟨ss, rfl⟩, h⟩

/-! ## C76 -/

/-- **C76 (`RecurrentSequential`).** If the layers fit together, the recurrent ones being machines and the others working row by
row, then the whole is a machine: for each environment, step by step, the item goes through all layers, and every
recurrent layer keeps its own state. -/
theorem sequential_is_machine {layers : List (Layer σ V)} {steps : List (Spec.LayerStep σ V)} {I K : Item V → Prop}
    {Ss : List (State σ → Prop)} (hc : Spec.Chain layers steps I K Ss) (hI : ∀ x, I x → Spec.Tensors x) :
    Spec.IsMachine (sequential layers) (Spec.TupleOf Ss) I K (Spec.sequentialStep Ss.length steps) := by
  refine ⟨?_, ?_⟩
  · intro s x hs hx
    obtain ⟨h1, h2⟩ := layersStep_closed hc _ x hs.2 hx
    exact ⟨tupleOf_tuple h1, h2⟩
  · intro seqs d b ss hp hi hh hl hr hS
    have hne : ss ≠ [] := by
      intro he
      rw [he] at hl
      exact hp.some (List.length_eq_zero_iff.mp hl.symm)
    obtain ⟨bs, cols, h1, h2, h3, h4⟩ := parts_spec hne hr hS
    have hq : ∃ queue, stateQueue layers b = .ok queue ∧ queue = bs.reverse := by
      rcases h1 with ⟨rfl, rfl⟩ | ⟨rfl, hlen⟩
      · exact ⟨_, rfl, by rw [chain_children hc, List.reverse_replicate]⟩
      · exact ⟨_, by rw [stateQueue, if_pos (by rw [hlen, chain_children hc])], rfl⟩
    obtain ⟨queue, hq1, hq2⟩ := hq
    have hinfo : info d = some (batchSizes seqs) := by
      obtain ⟨x, hx⟩ := List.exists_mem_of_ne_nil _ (flatten_ne_nil hp)
      obtain ⟨s, hs, hxs⟩ := mem_flatten_time.mp hx
      obtain ⟨k1, k2⟩ := kinds_of_row hh hx (hI x (hi s hs x hxs))
      exact (info_some d k2).1 k1
    rw [hl] at h3
    obtain ⟨l', seqs', bs', cols', k1, k2, k3, k4, k5, k6, k7, k8, k9⟩ := loop_spec hc seqs ⟨d, true, queue, []⟩ bs cols hp hi
      hh hq2 h2 h3
    rw [List.nil_append] at k6
    have hrun : ∀ (i : Nat) (s : State σ) (xs : List (Item V)), ss[i]? = some s → seqs[i]? = some xs →
        ∃ ys, seqs'[i]? = some ys ∧ Spec.runSeq (Spec.sequentialStep Ss.length steps) s xs = (.tuple (rowOf cols' i), ys) := by
      intro i s xs hs hxs
      obtain ⟨ys, m1, m2⟩ := k9 i xs hxs
      refine ⟨ys, m1, ?_⟩
      rw [runSeq_sequential _ _ _ _ (hp.nonempty xs (List.mem_of_getElem? hxs)), h4 i s hs, m2]
    have hsl' : seqs'.length = seqs.length := by
      have := congrArg List.length k2
      simpa using this
    have hout : List.zipWith (fun s xs => (Spec.runSeq (Spec.sequentialStep Ss.length steps) s xs).2) ss seqs = seqs' := by
      apply List.ext_getElem?
      intro i
      rw [List.getElem?_zipWith]
      by_cases hil : i < seqs.length
      · have e1 := List.getElem?_eq_getElem hil
        have e2 := List.getElem?_eq_getElem (show i < ss.length by omega)
        obtain ⟨ys, m1, m2⟩ := hrun i _ _ e2 e1
        rw [e1, e2, m1]
        simp only [m2]
      · rw [List.getElem?_eq_none (l := seqs') (by omega), List.getElem?_eq_none (l := seqs) (by omega)]
        cases ss[i]? <;> rfl
    refine ⟨if l'.isWrapped then l'.h else wrap (batchSizes seqs) l'.h, .tuple bs', ?_, ?_, ?_⟩
    · simp only [sequential, hq1, hinfo, k1, k5, ne_eq, not_true_eq_false, if_false, k6]
      rw [if_neg]
      rw [k7.length_eq, ← k8.length_eq, chain_children hc]
      simp
    · rw [hout]
      cases hw : l'.isWrapped with
      | true => rw [hw] at k4; exact k4
      | false => rw [hw] at k4; exact wrap_holds k4
    · refine rep_tuple_of (n := seqs.length) k7 ?_ (by rw [List.length_zipWith, hl, Nat.min_self]) ?_
      · intro c hc'
        obtain ⟨k, hk⟩ := List.getElem?_of_mem hc'
        obtain ⟨hk1, hk2⟩ := List.getElem?_eq_some_iff.mp hk
        have := (List.forall₂_iff_get.mp k8).2 k (by rw [k8.length_eq]; exact hk1) hk1
        simp only [List.get_eq_getElem, hk2] at this
        exact this.1
      · intro i s hs
        rw [List.getElem?_zipWith] at hs
        cases e1 : ss[i]? with
        | none => rw [e1] at hs; simp at hs
        | some s0 =>
          cases e2 : seqs[i]? with
          | none => rw [e1, e2] at hs; simp at hs
          | some xs =>
            rw [e1, e2] at hs
            simp only [Option.some.injEq] at hs
            obtain ⟨ys, _, m2⟩ := hrun i s0 xs e1 e2
            rw [← hs, m2]

/-! ### Branches -/

/-- One step of all branches. -/
def branchesStep (steps : List (State σ → Item V → State σ × Item V)) (ps : List (State σ)) (x : Item V) :
    List (State σ) × Item V :=
  (List.zipWith (fun step s => (step s x).1) steps ps, .tuple (List.zipWith (fun step s => (step s x).2) steps ps))

theorem runSeq_branched (steps : List (State σ → Item V → State σ × Item V)) : ∀ (s : State σ) (xs : List (Item V)), xs ≠ [] →
    Spec.runSeq (Spec.branchedStep steps) s xs
      = (.tuple (Spec.runSeq (branchesStep steps) (Spec.parts steps.length s) xs).1,
        (Spec.runSeq (branchesStep steps) (Spec.parts steps.length s) xs).2)
  | _, [], h => absurd rfl h
  | s, [x], _ => rfl
  | s, x :: y :: xs, _ => by
    have ih := runSeq_branched steps (Spec.branchedStep steps s x).1 (y :: xs) (by simp)
    rw [Spec.runSeq, ih]
    rfl

theorem zipWith_get {α β γ : Type _} {f : α → β → γ} {l : List α} {m : List β} {j : Nat} {a : α} {b : β}
    (ha : l[j]? = some a) (hb : m[j]? = some b) : (List.zipWith f l m)[j]? = some (f a b) := by
  rw [List.getElem?_zipWith, ha, hb]

theorem runSeq_branches (steps : List (State σ → Item V → State σ × Item V)) : ∀ (xs : List (Item V)) (ps : List (State σ)),
    steps.length = ps.length → (Spec.runSeq (branchesStep steps) ps xs).1.length = ps.length ∧
    (∀ y ∈ (Spec.runSeq (branchesStep steps) ps xs).2, ∃ ys, y = Tree.tuple ys ∧ ys.length = steps.length) ∧
    ∀ (j : Nat) (step : State σ → Item V → State σ × Item V) (p : State σ), steps[j]? = some step → ps[j]? = some p →
      (Spec.runSeq (branchesStep steps) ps xs).1[j]? = some (Spec.runSeq step p xs).1 ∧
      (Spec.runSeq (branchesStep steps) ps xs).2.map (Tree.child j) = (Spec.runSeq step p xs).2
  | [], ps, _ => ⟨rfl, by simp [Spec.runSeq], fun j step p _ h2 => ⟨h2, rfl⟩⟩
  | x :: xs, ps, hl => by
    have hlen : (branchesStep steps ps x).1.length = ps.length := by simp [branchesStep, hl]
    obtain ⟨h1, h2, h3⟩ := runSeq_branches steps xs (branchesStep steps ps x).1 (by rw [hlen, hl])
    refine ⟨by rw [Spec.runSeq, h1, hlen], ?_, ?_⟩
    · intro y hy
      rw [Spec.runSeq] at hy
      rcases List.mem_cons.mp hy with rfl | hy
      · exact ⟨_, rfl, by simp [hl]⟩
      · exact h2 y hy
    · intro j step p hj hp
      have hz : (branchesStep steps ps x).1[j]? = some (step p x).1 := zipWith_get hj hp
      obtain ⟨k1, k2⟩ := h3 j step _ hj hz
      refine ⟨by rw [Spec.runSeq, k1]; rfl, ?_⟩
      rw [Spec.runSeq, List.map_cons, k2, Spec.runSeq]
      congr 1
      simp [branchesStep, Tree.child, zipWith_get hj hp]

theorem branches_spec {fs : List (Rnn σ V)} {steps : List (State σ → Item V → State σ × Item V)} {I : Item V → Prop}
    {Js : List (Item V → Prop)} {Ss : List (State σ → Prop)} (hb : Spec.Branches fs steps I Js Ss)
    {seqs : List (List (Item V))} {d : Tree (Block V)} (hp : Spec.Packable seqs) (hi : ∀ s ∈ seqs, ∀ x ∈ s, I x)
    (hh : Spec.Holds (.packed (batchSizes seqs)) d (flattenTimeFirst seqs)) : ∀ (bs : List (Batched σ))
    (cols : List (List (State σ))), List.Forall₂ Spec.Rep bs cols →
    List.Forall₂ (fun S c => c.length = seqs.length ∧ ∀ s ∈ c, S s) Ss cols →
    ∃ ys bs' cols', branches d fs bs = .ok (ys, bs') ∧ ys.length = steps.length ∧ cols'.length = steps.length ∧
      List.Forall₂ Spec.Rep bs' cols' ∧
      ∀ (j : Nat) (step : State σ → Item V → State σ × Item V) (c : List (State σ)), steps[j]? = some step →
        cols[j]? = some c → ∃ y, ys[j]? = some y ∧
        Spec.Holds (.packed (batchSizes seqs)) y
          (flattenTimeFirst (List.zipWith (fun s xs => (Spec.runSeq step s xs).2) c seqs)) ∧
        cols'[j]? = some (List.zipWith (fun s xs => (Spec.runSeq step s xs).1) c seqs) := by
  induction hb with
  | nil =>
    intro bs cols hr hS
    cases hS
    cases hr
    exact ⟨[], [], [], rfl, rfl, rfl, .nil, by simp⟩
  | cons hf hb ih =>
    intro bs cols hr hS
    cases hS with
    | @cons _ c _ cols hS1 hS2 =>
    cases hr with
    | @cons b _ bs _ hr1 hr2 =>
    obtain ⟨y, b', h1, h2, h3⟩ := hf.forward seqs d b c hp hi hh hS1.1 hr1 hS1.2
    obtain ⟨ys, bs', cols', k1, k2, k3, k4, k5⟩ := ih hi bs cols hr2 hS2
    refine ⟨y :: ys, b' :: bs', _ :: cols', by simp only [branches, h1, k1], by simp [k2], by simp [k3], .cons h3 k4, ?_⟩
    intro j step' c' hj hc
    cases j with
    | zero =>
      simp only [List.getElem?_cons_zero, Option.some.injEq] at hj hc
      subst hj; subst hc
      exact ⟨y, rfl, h2, rfl⟩
    | succ j =>
      rw [List.getElem?_cons_succ] at hj hc
      simp only [List.getElem?_cons_succ]
      exact k5 j step' c' hj hc

theorem branches_lengths {fs : List (Rnn σ V)} {steps : List (State σ → Item V → State σ × Item V)} {I : Item V → Prop}
    {Js : List (Item V → Prop)} {Ss : List (State σ → Prop)} (hb : Spec.Branches fs steps I Js Ss) :
    fs.length = Ss.length ∧ steps.length = Ss.length := by
  induction hb with
  | nil => exact ⟨rfl, rfl⟩
  | cons _ _ ih => exact ⟨by simp [ih.1], by simp [ih.2]⟩

theorem branchesStep_closed {fs : List (Rnn σ V)} {steps : List (State σ → Item V → State σ × Item V)} {I : Item V → Prop}
    {Js : List (Item V → Prop)} {Ss : List (State σ → Prop)} (hb : Spec.Branches fs steps I Js Ss) :
    ∀ (ss : List (State σ)) (x : Item V), List.Forall₂ (fun S s => S s) Ss ss → I x →
    List.Forall₂ (fun S s => S s) Ss (List.zipWith (fun step s => (step s x).1) steps ss) ∧
    List.Forall₂ (fun J y => J y) Js (List.zipWith (fun step s => (step s x).2) steps ss) := by
  induction hb with
  | nil =>
    intro ss x h _
    cases h
    exact ⟨.nil, .nil⟩
  | cons hf _ ih =>
    intro ss x h hx
    cases h with
    | cons h1 h2 =>
      obtain ⟨k1, k2⟩ := hf.closed _ x h1 hx
      obtain ⟨k3, k4⟩ := ih _ x h2 hx
      exact ⟨.cons k1 k3, .cons k2 k4⟩

/-- **C76 (`RecurrentBranched`).** If the branches are machines for the same items, and there is at least one, the whole is a
machine: every branch gets the item and keeps its own state, and the output is the tuple of their outputs. -/
theorem branched_is_machine {fs : List (Rnn σ V)} {steps : List (State σ → Item V → State σ × Item V)} {I : Item V → Prop}
    {Js : List (Item V → Prop)} {Ss : List (State σ → Prop)} (hb : Spec.Branches fs steps I Js Ss) (hne : fs ≠ []) :
    Spec.IsMachine (branched fs) (Spec.TupleOf Ss) I (Spec.TupleItems Js) (Spec.branchedStep steps) := by
  obtain ⟨hl1, hl2⟩ := branches_lengths hb
  refine ⟨?_, ?_⟩
  · intro s x hs hx
    have := branchesStep_closed hb _ x hs.2 hx
    rw [← hl2] at this
    exact ⟨tupleOf_tuple this.1, _, rfl, this.2⟩
  · intro seqs d b ss hp hi hh hl hr hS
    have hssne : ss ≠ [] := by
      intro he
      rw [he] at hl
      exact hp.some (List.length_eq_zero_iff.mp hl.symm)
    obtain ⟨bs, cols, h1, h2, h3, h4⟩ := parts_spec hssne hr hS
    rw [hl] at h3
    obtain ⟨ys, bs', cols', k1, k2, k3, k4, k5⟩ := branches_spec hb hp hi hh bs cols h2 h3
    have hcols : cols.length = steps.length := by rw [← h3.length_eq, hl2]
    have hysne : ys ≠ [] := by
      intro he
      rw [he] at k2
      apply hne
      apply List.length_eq_zero_iff.mp
      rw [hl1, ← hl2, ← k2]
      rfl
    have hfwd : branched fs d b = .ok (.tuple ys, .tuple bs') := by
      cases ys with
      | nil => exact absurd rfl hysne
      | cons y ys =>
        rcases h1 with ⟨rfl, rfl⟩ | ⟨rfl, hlen⟩
        · rw [← hl1] at k1
          simp only [branched, k1]
        · simp only [branched, k1]
    have hrun : ∀ (i : Nat) (s : State σ) (xs : List (Item V)), ss[i]? = some s → seqs[i]? = some xs →
        Spec.runSeq (Spec.branchedStep steps) s xs = (.tuple (Spec.runSeq (branchesStep steps) (rowOf cols i) xs).1,
          (Spec.runSeq (branchesStep steps) (rowOf cols i) xs).2) := by
      intro i s xs hs hxs
      rw [runSeq_branched _ _ _ (hp.nonempty xs (List.mem_of_getElem? hxs)), hl2, h4 i s hs]
    have hrowlen : ∀ i, steps.length = (rowOf cols i).length := by
      intro i
      simp [rowOf, hcols]
    have hcl : ∀ (j : Nat) (c : List (State σ)), cols[j]? = some c → c.length = seqs.length := by
      intro j c hc
      obtain ⟨hk1, hk2⟩ := List.getElem?_eq_some_iff.mp hc
      have := (List.forall₂_iff_get.mp h3).2 j (by rw [h3.length_eq]; exact hk1) hk1
      simp only [List.get_eq_getElem, hk2] at this
      exact this.1
    have hrow : ∀ (i j : Nat) (c : List (State σ)) (s : State σ), cols[j]? = some c → c[i]? = some s →
        (rowOf cols i)[j]? = some s := by
      intro i j c s hc hs
      simp [rowOf, hc, hs]
    refine ⟨_, _, hfwd, ?_, ?_⟩
    · apply holds_tuple_of
      · intro r hr'
        obtain ⟨o, ho, hro⟩ := mem_flatten_time.mp hr'
        obtain ⟨i, hi'⟩ := List.getElem?_of_mem ho
        rw [List.getElem?_zipWith] at hi'
        cases e1 : ss[i]? with
        | none => rw [e1] at hi'; simp at hi'
        | some s0 =>
          cases e2 : seqs[i]? with
          | none => rw [e1, e2] at hi'; simp at hi'
          | some xs =>
            rw [e1, e2] at hi'
            simp only [Option.some.injEq] at hi'
            rw [hrun i s0 xs e1 e2] at hi'
            rw [← hi'] at hro
            obtain ⟨zs, m1, m2⟩ := (runSeq_branches steps xs _ (hrowlen i)).2.1 r hro
            exact ⟨zs, m1, by rw [m2, k2]⟩
      · intro j y hy
        have hj : j < steps.length := by rw [← k2]; exact (List.getElem?_eq_some_iff.mp hy).1
        have e3 := List.getElem?_eq_getElem hj
        have e4 := List.getElem?_eq_getElem (show j < cols.length by omega)
        obtain ⟨y', m1, m2, _⟩ := k5 j _ _ e3 e4
        rw [hy, Option.some.injEq] at m1
        subst m1
        rw [← flatten_map]
        convert m2 using 2
        apply List.ext_getElem?
        intro i
        rw [List.getElem?_map, List.getElem?_zipWith, List.getElem?_zipWith]
        by_cases hil : i < seqs.length
        · have e1 := List.getElem?_eq_getElem hil
          have e2 := List.getElem?_eq_getElem (show i < ss.length by omega)
          have e5 := List.getElem?_eq_getElem (show i < (cols[j]).length by rw [hcl j _ e4]; exact hil)
          rw [e1, e2, e5]
          simp only [Option.map_some, Option.some.injEq]
          rw [hrun i _ _ e2 e1]
          exact ((runSeq_branches steps _ _ (hrowlen i)).2.2 j _ _ e3 (hrow i j _ _ e4 e5)).2
        · rw [List.getElem?_eq_none (l := seqs) (by omega)]
          cases ss[i]? <;> cases (cols[j])[i]? <;> rfl
    · refine rep_tuple_of (n := seqs.length) k4 ?_ (by rw [List.length_zipWith, hl, Nat.min_self]) ?_
      · intro c hc
        obtain ⟨j, hj⟩ := List.getElem?_of_mem hc
        have hj' : j < steps.length := by rw [← k3]; exact (List.getElem?_eq_some_iff.mp hj).1
        have e4 := List.getElem?_eq_getElem (show j < cols.length by omega)
        obtain ⟨_, _, _, m3⟩ := k5 j _ _ (List.getElem?_eq_getElem hj') e4
        rw [hj, Option.some.injEq] at m3
        rw [m3, List.length_zipWith, hcl j _ e4, Nat.min_self]
      · intro i s hs
        rw [List.getElem?_zipWith] at hs
        cases e1 : ss[i]? with
        | none => rw [e1] at hs; simp at hs
        | some s0 =>
          cases e2 : seqs[i]? with
          | none => rw [e1, e2] at hs; simp at hs
          | some xs =>
            rw [e1, e2] at hs
            simp only [Option.some.injEq] at hs
            rw [← hs, hrun i s0 xs e1 e2]
            dsimp only
            congr 1
            obtain ⟨m1, _, m3⟩ := runSeq_branches steps xs _ (hrowlen i)
            apply List.ext_getElem?
            intro j
            by_cases hj : j < steps.length
            · have e3 := List.getElem?_eq_getElem hj
              have e4 := List.getElem?_eq_getElem (show j < cols.length by omega)
              have hil : i < (cols[j]).length := by rw [hcl j _ e4]; exact (List.getElem?_eq_some_iff.mp e2).1
              have e5 := List.getElem?_eq_getElem hil
              obtain ⟨_, _, _, m4⟩ := k5 j _ _ e3 e4
              rw [(m3 j _ _ e3 (hrow i j _ _ e4 e5)).1]
              simp [rowOf, m4, List.getElem?_zipWith, e5, e2]
            · rw [List.getElem?_eq_none (by rw [m1, ← hrowlen i]; omega), List.getElem?_eq_none (by simp [rowOf, k3]; omega)]

/-! ### Forward computation -/

theorem forward_one {rnn : Rnn σ V} {S : State σ → Prop} {I J : Item V → Prop} {step : State σ → Item V → State σ × Item V}
    (hm : Spec.IsMachine rnn S I J step) {d : Tree (Block V)} {b : Batched σ} {xs : List (Item V)} {ss : List (State σ)}
    (hd : Spec.Holds .tensor d xs) (hne : xs ≠ []) (ht : ∀ x ∈ xs, Spec.Tensors x) (hi : ∀ x ∈ xs, I x)
    (hl : ss.length = xs.length) (hr : Spec.Rep b ss) (hS : ∀ s ∈ ss, S s) :
    ∃ y b', oneStepForward rnn d b = .ok (y, b') ∧ Spec.Holds .tensor y (List.zipWith (fun s x => (step s x).2) ss xs) ∧
      Spec.Rep b' (List.zipWith (fun s x => (step s x).1) ss xs) := by
  obtain ⟨x, hx⟩ := List.exists_mem_of_ne_nil _ hne
  obtain ⟨p, h1, h2⟩ := packOne_spec d xs hd hne (kinds_of_row hd hx (ht x hx)).2
  obtain ⟨y, b', h3, h4, h5⟩ := hm.forward (xs.map fun x => [x]) p b ss (packable_singletons hne) (by
    intro s hs x hx
    obtain ⟨x', hx', rfl⟩ := List.mem_map.mp hs
    rw [List.mem_singleton.mp hx]
    exact hi x' hx') (by rw [flatten_singletons hne]; exact h2) (by simpa using hl) hr hS
  rw [List.zipWith_map_right] at h4 h5
  refine ⟨unwrap y, b', by simp only [oneStepForward, h1, h3], ?_, h5⟩
  have e : List.zipWith (fun s x => (Spec.runSeq step s [x]).2) ss xs
      = (List.zipWith (fun s x => (step s x).2) ss xs).map fun y => [y] := by
    rw [List.map_zipWith]
    rfl
  rw [e, flatten_singletons] at h4
  · exact unwrap_holds h4
  · intro he
    have := congrArg List.length he
    rw [List.length_zipWith, hl, Nat.min_self] at this
    exact hne (List.length_eq_zero_iff.mp this)

/-- **C76 (one step).** For a machine, one step on a batch of any environments gives for each environment the output and the
state of its own step. -/
theorem one_step_forward_spec {rnn : Rnn σ V} {S : State σ → Prop} {I J : Item V → Prop}
    {step : State σ → Item V → State σ × Item V} (hm : Spec.IsMachine rnn S I J step) {d : Tree (Block V)} {b : Batched σ}
    {xs : List (Item V)} {ss : List (State σ)} (hd : Spec.Holds .tensor d xs) (hne : xs ≠ [])
    (ht : ∀ x ∈ xs, Spec.Tensors x) (hi : ∀ x ∈ xs, I x) (hl : ss.length = xs.length) (hr : Spec.Rep b ss)
    (hS : ∀ s ∈ ss, S s) : ∃ y b', oneStepForward rnn d b = .ok (y, b') ∧
      ∀ (i : Nat) (s : State σ) (x : Item V), ss[i]? = some s → xs[i]? = some x →
        Spec.row i y = (step s x).2.map (fun v => (v.1, some v.2)) ∧ getAt i b' = .ok (step s x).1 := by
  obtain ⟨y, b', h1, h2, h3⟩ := forward_one hm hd hne ht hi hl hr hS
  exact ⟨y, b', h1, fun i s x hs hx => ⟨h2.row i _ (zipWith_get hs hx), h3.get i _ (zipWith_get hs hx)⟩⟩

/-- **C76 (sequences).** For a machine, `pack_and_forward` on sequences gives for item `t` of sequence `i`, at the place where
`flatten_sequences_time_first` puts that item (C33), the output of the machine after the items before it in the same
sequence, from the state given for that sequence. -/
theorem pack_and_forward_spec {rnn : Rnn σ V} {S : State σ → Prop} {I J : Item V → Prop}
    {step : State σ → Item V → State σ × Item V} (hm : Spec.IsMachine rnn S I J step) {form : Tree Unit}
    {sequences : List (Tree (Block V))} {seqs : List (List (Item V))} {b : Batched σ} {ss : List (State σ)}
    (hb : Batch form sequences seqs) (hf : form.leaves ≠ []) (hi : ∀ s ∈ seqs, ∀ x ∈ s, I x) (hl : ss.length = seqs.length)
    (hr : Spec.Rep b ss) (hS : ∀ s ∈ ss, S s) : ∃ y b', packAndForward rnn sequences b = .ok (y, b') ∧
      ∀ (i : Nat) (s : State σ) (xs : List (Item V)), ss[i]? = some s → seqs[i]? = some xs →
        getAt i b' = .ok (Spec.runSeq step s xs).1 ∧
        ∀ (t : Nat) (o : Item V), (Spec.runSeq step s xs).2[t]? = some o →
          Spec.row (Spec.packedIndex seqs t i) y = o.map fun v => (v.1, some v.2) := by
  obtain ⟨p, h1, h2⟩ := pack_spec hb hf
  obtain ⟨y, b', h3, h4, h5⟩ := hm.forward seqs p b ss hb.packable hi h2 hl hr hS
  refine ⟨unwrap y, b', by simp only [packAndForward, h1, h3], ?_⟩
  intro i s xs hs hx
  have hz := zipWith_get (f := fun s xs => (Spec.runSeq step s xs).2) hs hx
  refine ⟨h5.get i _ (zipWith_get hs hx), ?_⟩
  intro t o ho
  have hsl := sameLengths_run step ss seqs hl
  obtain ⟨hi1, hi2⟩ := List.getElem?_eq_some_iff.mp hz
  obtain ⟨ht1, ht2⟩ := List.getElem?_eq_some_iff.mp ho
  have hflat := (flatten_time_first_packed _ (packable_congr hsl.symm hb.packable).sorted).1 i hi1 t (by rw [hi2]; exact ht1)
  have hidx : Spec.packedIndex (List.zipWith (fun s xs => (Spec.runSeq step s xs).2) ss seqs) t i = Spec.packedIndex seqs t i := by
    unfold Spec.packedIndex
    rw [List.map_congr_left fun t _ => batchSize_congr hsl t]
  rw [hidx] at hflat
  refine (unwrap_holds h4).row _ o ?_
  rw [hflat]
  simp only [hi2, ht2]

theorem stepwise_spec {rnn : Rnn σ V} {S : State σ → Prop} {I J : Item V → Prop} {step : State σ → Item V → State σ × Item V}
    (hm : Spec.IsMachine rnn S I J step) : ∀ {ds : List (Tree (Block V))} {xs : List (Item V)} (b : Batched σ) (s : State σ),
    List.Forall₂ (fun d x => Spec.Holds .tensor d [x]) ds xs → (∀ x ∈ xs, Spec.Tensors x ∧ I x) → Spec.Rep b [s] → S s →
    ∃ ys b', Spec.stepwise rnn b ds = .ok (ys, b') ∧ getAt 0 b' = .ok (Spec.runSeq step s xs).1 ∧
      ∀ (t : Nat) (y : Tree (Block V)), ys[t]? = some y → ∃ o, (Spec.runSeq step s xs).2[t]? = some o ∧
        Spec.row 0 y = o.map fun v => (v.1, some v.2)
  | _, _, b, s, .nil, _, hr, _ => ⟨[], b, rfl, hr.get 0 s rfl, by simp⟩
  | _, _, b, s, .cons (a := d) (b := x) h hs, hx, hr, hS => by
    obtain ⟨y, b1, h1, h2, h3⟩ := forward_one hm h (by simp) (by simpa using (hx x (by simp)).1) (by simpa using (hx x (by simp)).2)
      rfl hr (by simpa using hS)
    simp only [List.zipWith_cons_cons, List.zipWith_nil_left] at h2 h3
    obtain ⟨ys, b2, k1, k2, k3⟩ := stepwise_spec hm b1 (step s x).1 hs (fun x hx' => hx x (by simp [hx'])) h3
      (hm.closed s x hS (hx x (by simp)).2).1
    refine ⟨y :: ys, b2, by simp only [Spec.stepwise, h1, k1], k2, ?_⟩
    intro t y' hy'
    cases t with
    | zero =>
      simp only [List.getElem?_cons_zero, Option.some.injEq] at hy'
      subst hy'
      exact ⟨_, rfl, h2.row 0 _ rfl⟩
    | succ t => exact k3 t y' hy'

theorem stepwise_length {rnn : Rnn σ V} : ∀ {ds : List (Tree (Block V))} {b b' : Batched σ} {ys : List (Tree (Block V))},
    Spec.stepwise rnn b ds = .ok (ys, b') → ys.length = ds.length
  | [], b, b', ys, h => by
    simp only [Spec.stepwise, Except.ok.injEq, Prod.mk.injEq] at h
    rw [← h.1]
  | d :: ds, b, b', ys, h => by
    rw [Spec.stepwise] at h
    cases h1 : oneStepForward rnn d b with
    | error e => rw [h1] at h; simp at h
    | ok r =>
      obtain ⟨y, b1⟩ := r
      rw [h1] at h
      dsimp only at h
      cases h2 : Spec.stepwise rnn b1 ds with
      | error e => rw [h2] at h; simp at h
      | ok r =>
        obtain ⟨ys', b2⟩ := r
        rw [h2] at h
        simp only [Except.ok.injEq, Prod.mk.injEq] at h
        rw [← h.1]
        simp [stepwise_length h2]

/-- **C76 (learning agrees with acting).** Take any sequence of the batch.  Calling the model on its items one after the other,
alone, carrying the state, gives the same outputs and the same last state as `pack_and_forward` on the whole batch of
sequences. -/
theorem sequences_agree_with_steps {rnn : Rnn σ V} {S : State σ → Prop} {I J : Item V → Prop}
    {step : State σ → Item V → State σ × Item V} (hm : Spec.IsMachine rnn S I J step) {form : Tree Unit}
    {sequences : List (Tree (Block V))} {seqs : List (List (Item V))} {b : Batched σ} {ss : List (State σ)}
    (hb : Batch form sequences seqs) (hf : form.leaves ≠ []) (hi : ∀ s ∈ seqs, ∀ x ∈ s, I x) (hl : ss.length = seqs.length)
    (hr : Spec.Rep b ss) (hS : ∀ s ∈ ss, S s) : ∃ y b', packAndForward rnn sequences b = .ok (y, b') ∧
      ∀ (i : Nat) (s : State σ) (xs : List (Item V)) (ds : List (Tree (Block V))) (bi : Batched σ), ss[i]? = some s →
        seqs[i]? = some xs → List.Forall₂ (fun d x => Spec.Holds .tensor d [x]) ds xs → Spec.Rep bi [s] →
        ∃ ys bi', Spec.stepwise rnn bi ds = .ok (ys, bi') ∧ ys.length = xs.length ∧ getAt i b' = getAt 0 bi' ∧
          ∀ (t : Nat) (yt : Tree (Block V)), ys[t]? = some yt → Spec.row (Spec.packedIndex seqs t i) y = Spec.row 0 yt := by
  obtain ⟨y, b', h1, h2⟩ := pack_and_forward_spec hm hb hf hi hl hr hS
  refine ⟨y, b', h1, ?_⟩
  intro i s xs ds bi hs hx hd hbi
  obtain ⟨k1, k2⟩ := h2 i s xs hs hx
  have hxs := List.mem_of_getElem? hx
  obtain ⟨ys, bi', m1, m2, m3⟩ := stepwise_spec hm bi s hd (fun x hx' => ⟨⟨by
      intro he
      apply hf
      rw [← hb.form xs hxs x hx', Tree.leaves_map, he]
      rfl, hb.tensors xs hxs x hx'⟩, hi xs hxs x hx'⟩) hbi (hS s (List.mem_of_getElem? hs))
  refine ⟨ys, bi', m1, by rw [stepwise_length m1, hd.length_eq], by rw [k1, m2], ?_⟩
  intro t yt hyt
  obtain ⟨o, n1, n2⟩ := m3 t yt hyt
  rw [k2 t o n1, n2]

end Pfrl.Recurrent
