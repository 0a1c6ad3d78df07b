import Mathlib.Data.List.Basic

/-!
# Evaluation mode (C52)

`Agent.eval_mode` switches the flag of an agent, `evaluating` switches the flags of a network, for the duration of a
`with` block.  Programs are built from what can be done around such blocks: looking at the flags, raising, catching,
sequencing, and nested blocks.
-/

namespace Pfrl.Modes

/-! ## Model -/

/-- A program using `with agent.eval_mode():`. -/
inductive Prog where
  /-- Reads `agent.training` (as `act` and `observe` do). -/
  | look
  /-- Raises an exception. -/
  | fail
  | seq (p q : Prog)
  /-- `try: p except: q` -/
  | guard (p q : Prog)
  /-- `with agent.eval_mode(): p` -/
  | evalMode (p : Prog)

/-- Running a program on the flag `training`: the flag values read, the flag afterwards, and whether an exception is
propagating.  The `evalMode` case is `Agent.eval_mode`, `pfrl/agent.py:63-70`: remember the flag, set it to False, run
the block, and in any case set the flag to what it was. -/
def Prog.run : Prog → Bool → List Bool × Bool × Bool
  | .look, t => ([t], t, false)
  | .fail, t => ([], t, true)
  | .seq p q, t =>
    let r := p.run t
    if r.2.2 then r
    else
      let r2 := q.run r.2.1
      (r.1 ++ r2.1, r2.2)
  | .guard p q, t =>
    let r := p.run t
    if r.2.2 then
      let r2 := q.run r.2.1
      (r.1 ++ r2.1, r2.2)
    else r
  | .evalMode p, t =>
    let orig := t
    let r := p.run false
    (r.1, orig, r.2.2)

/-- A network: a tree of modules, each identified by its path from the root; `flags path` is `module.training`.  Paths that
name no module are allowed and play no role. -/
abbrev Flags := List String → Bool

/-- `net.eval()` or `net.train()` of the module at `q`: sets the flags of the module and of everything below it. -/
def setMode (f : Flags) (q : List String) (b : Bool) : Flags := fun p => if q.isPrefixOf p then b else f p

/-- A program using `with evaluating(module):`. -/
inductive NetProg where
  | look
  | fail
  | seq (p q : NetProg)
  | guard (p q : NetProg)
  /-- `with evaluating(module at path): p` -/
  | evaluating (path : List String) (p : NetProg)

/-- Running such a program.  The `evaluating` case is `pfrl/utils/contexts.py:4-13`: remember `net.training`, call
`net.eval()`, run the block, and in any case call `net.train()` if it was in training mode. -/
def NetProg.run : NetProg → Flags → List Flags × Flags × Bool
  | .look, f => ([f], f, false)
  | .fail, f => ([], f, true)
  | .seq p q, f =>
    let r := p.run f
    if r.2.2 then r
    else
      let r2 := q.run r.2.1
      (r.1 ++ r2.1, r2.2)
  | .guard p q, f =>
    let r := p.run f
    if r.2.2 then
      let r2 := q.run r.2.1
      (r.1 ++ r2.1, r2.2)
    else r
  | .evaluating path p, f =>
    let istrain := f path
    let r := p.run (setMode f path false)
    (r.1, if istrain then setMode r.2.1 path true else r.2.1, r.2.2)

/-! ## Specification -/

/-- For each `look` that is executed, is it inside an `eval_mode` block?  (Independent of the flag.) -/
def Spec.looks : Prog → Bool → List Bool × Bool
  | .look, inside => ([inside], false)
  | .fail, _ => ([], true)
  | .seq p q, inside =>
    match Spec.looks p inside with
    | (l, true) => (l, true)
    | (l, false) => (l ++ (Spec.looks q inside).1, (Spec.looks q inside).2)
  | .guard p q, inside =>
    match Spec.looks p inside with
    | (l, true) => (l ++ (Spec.looks q inside).1, (Spec.looks q inside).2)
    | (l, false) => (l, false)
  | .evalMode p, _ => Spec.looks p true

/-- All modules of the network at this path are in the same mode. -/
def Spec.Uniform (f : Flags) (path : List String) : Prop := ∀ p, path <+: p → f p = f path

/-- The modules a program puts into evaluation mode. -/
def Spec.paths : NetProg → List (List String)
  | .look => []
  | .fail => []
  | .seq p q => Spec.paths p ++ Spec.paths q
  | .guard p q => Spec.paths p ++ Spec.paths q
  | .evaluating path p => path :: Spec.paths p

/-- No block for a module contains a block for a module of which it is a proper part. -/
def Spec.Nested : NetProg → Prop
  | .look => True
  | .fail => True
  | .seq p q => Spec.Nested p ∧ Spec.Nested q
  | .guard p q => Spec.Nested p ∧ Spec.Nested q
  | .evaluating path p => Spec.Nested p ∧ ∀ path' ∈ Spec.paths p, path' <+: path → path' = path

/-! ## C52 -/

theorem run_spec : ∀ (p : Prog) (inside t0 : Bool),
    p.run (if inside then false else t0) =
      ((Spec.looks p inside).1.map (fun i => if i then false else t0), (if inside then false else t0),
        (Spec.looks p inside).2)
  | .look, inside, t0 => rfl
  | .fail, inside, t0 => rfl
  | .seq p q, inside, t0 => by
    unfold Prog.run Spec.looks
    rw [run_spec p inside t0]
    cases h : Spec.looks p inside with
    | mk l b =>
      cases b with
      | true => simp
      | false =>
        simp only [Bool.false_eq_true, if_false]
        rw [run_spec q inside t0]
        simp
  | .guard p q, inside, t0 => by
    unfold Prog.run Spec.looks
    rw [run_spec p inside t0]
    cases h : Spec.looks p inside with
    | mk l b =>
      cases b with
      | true =>
        simp only [if_true]
        rw [run_spec q inside t0]
        simp
      | false => simp
  | .evalMode p, inside, t0 => by
    unfold Prog.run Spec.looks
    have := run_spec p true t0
    simp only [if_true] at this
    rw [this]

/-- **C52 (agents).** For every program, whatever it raises and catches and however its `eval_mode` blocks are
nested, the flag `training` is afterwards what it was before; inside such blocks the flag read is False, and outside it
is the original one. -/
theorem eval_mode_restored (p : Prog) (training : Bool) :
    (p.run training).2.1 = training ∧
    (p.run training).1 = (Spec.looks p false).1.map (fun inside => if inside then false else training) ∧
    (p.run training).2.2 = (Spec.looks p false).2 := by
  have := run_spec p false training
  simp only [Bool.false_eq_true, if_false] at this
  rw [this]
  exact ⟨rfl, rfl, rfl⟩

example : (Prog.seq .look (.seq (.guard (.evalMode (.seq .look (.seq (.evalMode .look) .fail))) .look) .look)).run true =
    ([true, false, false, true, true], true, false) := by decide

theorem setMode_below {f : Flags} {q p : List String} {b : Bool} (h : q <+: p) : setMode f q b p = b := by
  unfold setMode
  rw [if_pos (List.isPrefixOf_iff_prefix.mpr h)]

theorem setMode_outside {f : Flags} {q p : List String} {b : Bool} (h : ¬ q <+: p) : setMode f q b p = f p := by
  unfold setMode
  rw [if_neg (fun h' => h (List.isPrefixOf_iff_prefix.mp h'))]

/-- After the block of one `evaluating`, whatever its body does to the flags: if all modules of the network were in the
same mode, they are in that mode again. -/
theorem evaluating_restores_module (path : List String) (p : NetProg) (f : Flags) (hu : Spec.Uniform f path)
    (htrain : f path = true) (q : List String) (hq : path <+: q) :
    ((NetProg.evaluating path p).run f).2.1 q = f q := by
  unfold NetProg.run
  simp only [htrain, if_true]
  rw [setMode_below hq, hu q hq, htrain]

theorem net_run : ∀ (p : NetProg) (f : Flags), Spec.Nested p → (∀ path ∈ Spec.paths p, Spec.Uniform f path) →
    (p.run f).2.1 = f
  | .look, _, _, _ => rfl
  | .fail, _, _, _ => rfl
  | .seq p q, f, hn, hu => by
    unfold NetProg.run
    have h1 := net_run p f hn.1 (fun path h => hu path (List.mem_append_left _ h))
    simp only
    split
    · exact h1
    · simp only [h1]
      exact net_run q f hn.2 (fun path h => hu path (List.mem_append_right _ h))
  | .guard p q, f, hn, hu => by
    unfold NetProg.run
    have h1 := net_run p f hn.1 (fun path h => hu path (List.mem_append_left _ h))
    simp only
    split
    · simp only [h1]
      exact net_run q f hn.2 (fun path h => hu path (List.mem_append_right _ h))
    · exact h1
  | .evaluating path p, f, hn, hu => by
    unfold NetProg.run
    have huniform := hu path (List.mem_cons_self ..)
    have hinner : (p.run (setMode f path false)).2.1 = setMode f path false := by
      apply net_run p _ hn.1
      intro path' h' q hq
      by_cases h1 : path <+: path'
      · rw [setMode_below h1, setMode_below (h1.trans hq)]
      · by_cases h2 : path <+: q
        · -- path and path' are both prefixes of q, so path' is a proper prefix of path
          rcases List.prefix_or_prefix_of_prefix h2 hq with h3 | h3
          · exact absurd h3 h1
          · have := hn.2 path' h' h3
            subst this
            exact absurd (List.prefix_refl _) h1
        · rw [setMode_outside h1, setMode_outside h2]
          exact hu path' (List.mem_cons_of_mem _ h') q hq
    simp only [hinner]
    funext q
    by_cases hq : path <+: q
    · cases ht : f path with
      | true => simp only [if_true]; rw [setMode_below hq, huniform q hq, ht]
      | false => simp only [Bool.false_eq_true, if_false]; rw [setMode_below hq, huniform q hq, ht]
    · cases ht : f path with
      | true => simp only [if_true]; rw [setMode_outside hq, setMode_outside hq]
      | false => simp only [Bool.false_eq_true, if_false]; rw [setMode_outside hq]

/-- **C52 (networks, partial).** For every program, whatever it raises and catches and however often `evaluating` is
nested, the modes of all modules are afterwards what they were before, provided that each network used in
`evaluating` has all its modules in the same mode at the start, and that no block contains a block for a
bigger network of which its own is a proper part.

What is missing: a network some of whose modules were in evaluation mode already does not get its modes back; see
`evaluating_forgets_submodule`. -/
theorem evaluating_restores_partial (p : NetProg) (f : Flags) (hn : Spec.Nested p)
    (hu : ∀ path ∈ Spec.paths p, Spec.Uniform f path) : (p.run f).2.1 = f := net_run p f hn hu

/-- Inside the block all modules of the network are in evaluation mode. -/
theorem evaluating_inside (path : List String) (f : Flags) (q : List String) (hq : path <+: q) :
    ((NetProg.evaluating path .look).run f).1.map (fun g => g q) = [false] := by
  simp only [NetProg.run, List.map_cons, List.map_nil]
  rw [setMode_below hq]

/-- A network in training mode with a module (for instance a frozen batch normalisation) in evaluation mode. -/
def frozen : Flags := fun p => if p = ["bn"] then false else true

/-- **C52 fails for networks.** After `evaluating`, a module that was in evaluation mode inside a network in training
mode is in training mode; and the same happens to a module that is being evaluated while the whole network is
evaluated for a moment. -/
theorem evaluating_forgets_submodule :
    frozen ["bn"] = false ∧ ((NetProg.evaluating [] .look).run frozen).2.1 ["bn"] = true ∧
    ((NetProg.evaluating ["head"] (.seq .look (.seq (.evaluating [] .look) .look))).run (fun _ => true)).1.map
      (fun g => g ["head"]) = [false, false, true] := by decide

example : Spec.Nested (.evaluating [] (.seq (.evaluating ["a"] .fail) .look)) ∧
    ∀ path ∈ Spec.paths (.evaluating [] (.seq (.evaluating ["a"] .fail) .look)), Spec.Uniform (fun _ => true) path := by
  refine ⟨⟨⟨⟨trivial, ?_⟩, trivial⟩, ?_⟩, fun _ _ _ _ => rfl⟩
  · intro _ h; cases h
  · intro p' _ h; exact List.prefix_nil.mp h

end Pfrl.Modes
