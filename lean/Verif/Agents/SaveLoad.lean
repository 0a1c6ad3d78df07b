import Mathlib.Logic.Relation
import Mathlib.Data.Finset.Card
import Mathlib.Data.List.Nodup
import Mathlib.Logic.Function.Basic
import Verif.Basic

/-!
# Saving and loading agents (C59)

`AttributeSavingMixin` of `pfrl/agent.py`.  Objects with this mixin ("savers") are the entries of a list, the heap; modules and
optimisers, whose state is saved, are numbered, and a store gives the state of each.  Identity of objects is equality of
numbers.  Directories on disk always exist (`os.makedirs`); paths are lists of names.
-/

namespace Pfrl.SaveLoad

/-! ## Model -/

/-- The value of an attribute: not there at all, `None`, another saver, a module or optimiser, or a module wrapped in
`DataParallel`. -/
inductive Val where
  | missing
  | none
  | saver (id : Nat)
  | module (leaf : Nat)
  | parallel (leaf : Nat)
  deriving DecidableEq

/-- A saver: `saved_attributes` (`agent.py:76-79`) and the values of attributes. -/
structure Obj where
  attrs : List String
  get : String → Val

/-- The files `dirname/name.pt`. -/
abbrev Files (σ : Type _) := List String → String → Option σ

variable {σ : Type _}

/-- `torch.save(…, os.path.join(dirname, "{}.pt".format(attr)))`. -/
def write (fs : Files σ) (dir : List String) (a : String) (s : σ) : Files σ :=
  fun d b => if d = dir ∧ b = a then some s else fs d b

/-- The loop over `saved_attributes` in `__save`, `agent.py:88-106`; `rec` is `__save` of the nested saver. -/
def saveAttrs (rec : List String → Nat → List Nat → Files σ → Except PyErr (Files σ)) (o : Obj) (st : Nat → σ)
    (dir : List String) (anc : List Nat) : List String → Files σ → Except PyErr (Files σ)
  | [], fs => .ok fs
  | a :: as, fs =>
    match o.get a with
    | .missing => .error .assertionError
    | .none => saveAttrs rec o st dir anc as fs
    | .saver c =>
      if c ∈ anc then .error .assertionError
      else
        match rec (dir ++ [a]) c anc fs with
        | .error e => .error e
        | .ok fs => saveAttrs rec o st dir anc as fs
    | .module l => saveAttrs rec o st dir anc as (write fs dir a (st l))
    | .parallel l => saveAttrs rec o st dir anc as (write fs dir a (st l))

/-- `__save`, `agent.py:85-107`.  The first argument bounds the depth of the recursion; `timeout` is its exhaustion. -/
def saveObj (heap : List Obj) (st : Nat → σ) : Nat → List String → Nat → List Nat → Files σ → Except PyErr (Files σ)
  | 0, _, _, _, _ => .error .timeout
  | n + 1, dir, id, anc, fs =>
    match heap[id]? with
    | none => .error .attributeError
    | some o => saveAttrs (saveObj heap st n) o st dir (anc ++ [id]) o.attrs fs

/-- `save`, `agent.py:81-83`. -/
def save (heap : List Obj) (st : Nat → σ) (depth : Nat) (root : Nat) (dir : List String) (fs : Files σ) :
    Except PyErr (Files σ) := saveObj heap st depth dir root [] fs

/-- The loop over `saved_attributes` in `__load`, `agent.py:116-136`.  Each nested saver is loaded by its public `load`, with a
fresh list of ancestors, so the ancestors checked are the object itself only. -/
def loadAttrs (rec : List String → Nat → (Nat → σ) → Except PyErr (Nat → σ)) (o : Obj) (fs : Files σ) (dir : List String)
    (self : Nat) : List String → (Nat → σ) → Except PyErr (Nat → σ)
  | [], st => .ok st
  | a :: as, st =>
    match o.get a with
    | .missing => .error .assertionError
    | .none => loadAttrs rec o fs dir self as st
    | .saver c =>
      if c ∈ [self] then .error .assertionError
      else
        match rec (dir ++ [a]) c st with
        | .error e => .error e
        | .ok st => loadAttrs rec o fs dir self as st
    | .module l =>
      match fs dir a with
      | none => .error .runtimeError
      | some s => loadAttrs rec o fs dir self as (Function.update st l s)
    | .parallel l =>
      match fs dir a with
      | none => .error .runtimeError
      | some s => loadAttrs rec o fs dir self as (Function.update st l s)

/-- `load` and `__load`, `agent.py:109-137`.  `load_state_dict` accepts every state saved from a module of the same kind;
`FileNotFoundError` is `runtimeError`. -/
def load (heap : List Obj) (fs : Files σ) : Nat → List String → Nat → (Nat → σ) → Except PyErr (Nat → σ)
  | 0, _, _, _ => .error .timeout
  | n + 1, dir, id, st =>
    match heap[id]? with
    | none => .error .attributeError
    | some o => loadAttrs (load heap fs n) o fs dir id o.attrs st

/-! ## Specification -/

/-- The attribute structure below `id` is a finite tree in which no attribute to be saved is missing: it can be built
bottom up.  (Cyclic structures cannot.) -/
inductive Spec.Tree (heap : List Obj) : Nat → Prop
  | mk {id : Nat} {o : Obj} : heap[id]? = some o → (∀ a ∈ o.attrs, o.get a ≠ .missing) →
      (∀ a ∈ o.attrs, ∀ c, o.get a = .saver c → Spec.Tree heap c) → Spec.Tree heap id

/-- The module a value stands for. -/
def Val.leaf? : Val → Option Nat
  | .module l => some l
  | .parallel l => some l
  | _ => Option.none

/-- The saver a value stands for. -/
def Val.saver? : Val → Option Nat
  | .saver c => some c
  | _ => Option.none

/-- The module found by following the saved attributes named in the path and then the saved attribute `a`. -/
def Spec.leafAt (heap : List Obj) : Nat → List String → String → Option Nat
  | id, [], a => (heap[id]?).bind fun o => if a ∈ o.attrs then (o.get a).leaf? else none
  | id, b :: p, a => (heap[id]?).bind fun o => if b ∈ o.attrs then (o.get b).saver?.bind fun c => Spec.leafAt heap c p a else none

/-- Some saved attribute of `a` is the saver `b`. -/
def Spec.Child (heap : List Obj) (a b : Nat) : Prop := ∃ o x, heap[a]? = some o ∧ x ∈ o.attrs ∧ o.get x = .saver b

/-- All references point into the heap. -/
def Spec.WF (heap : List Obj) : Prop := ∀ a b, Spec.Child heap a b → b < heap.length

/-! ## Lemmas -/

open Spec

/-- `leafAt` below one object, restricted to some of its attributes. -/
def leafIn (heap : List Obj) (o : Obj) (as : List String) : List String → String → Option Nat
  | [], a => if a ∈ as then (o.get a).leaf? else none
  | b :: p, a => if b ∈ as then (o.get b).saver?.bind fun c => leafAt heap c p a else none

theorem leafAt_eq {heap : List Obj} {id : Nat} {o : Obj} (h : heap[id]? = some o) (p : List String) (a : String) :
    leafAt heap id p a = leafIn heap o o.attrs p a := by
  cases p with
  | nil => simp only [leafAt, h, Option.bind_some, leafIn]
  | cons b p => simp only [leafAt, h, Option.bind_some, leafIn]

theorem leafIn_cons {heap : List Obj} {o : Obj} {a0 : String} {as p : List String} {a : String} {l : Nat} :
    leafIn heap o (a0 :: as) p a = some l ↔ leafIn heap o [a0] p a = some l ∨ leafIn heap o as p a = some l := by
  cases p with
  | nil =>
    simp only [leafIn, List.mem_cons, List.not_mem_nil, or_false]
    by_cases h1 : a = a0 <;> by_cases h2 : a ∈ as <;> simp [h1, h2]
  | cons b p =>
    simp only [leafIn, List.mem_cons, List.not_mem_nil, or_false]
    by_cases h1 : b = a0 <;> by_cases h2 : b ∈ as <;> simp [h1, h2]


/-- What saving does to the files: what belongs to the structure is there, everything else is as before. -/
def Written (leaf : List String → String → Option Nat) (st : Nat → σ) (dir : List String) (fs fs' : Files σ) : Prop :=
  (∀ p a l, leaf p a = some l → fs' (dir ++ p) a = some (st l)) ∧
  (∀ d a, (∀ p l, leaf p a = some l → d ≠ dir ++ p) → fs' d a = fs d a)

theorem Written.comp {heap : List Obj} {o : Obj} {a0 : String} {as : List String} {st : Nat → σ} {dir : List String}
    {fs fs1 fs2 : Files σ} (h1 : Written (leafIn heap o [a0]) st dir fs fs1) (h2 : Written (leafIn heap o as) st dir fs1 fs2) :
    Written (leafIn heap o (a0 :: as)) st dir fs fs2 := by
  constructor
  · intro p a l hl
    by_cases h : leafIn heap o as p a = some l
    · exact h2.1 p a l h
    · have hnone : ∀ l', leafIn heap o as p a ≠ some l' := by
        intro l' hl'
        have := leafIn_cons.mpr (Or.inr hl' : leafIn heap o [a0] p a = some l' ∨ leafIn heap o as p a = some l')
        rw [hl] at this
        cases this
        exact h hl'
      have h3 : leafIn heap o [a0] p a = some l := (leafIn_cons.mp hl).resolve_right h
      rw [h2.2 (dir ++ p) a (fun p' l' hl' he => by
        rw [List.append_cancel_left he] at hnone
        exact hnone l' hl')]
      exact h1.1 p a l h3
  · intro d a hd
    rw [h2.2 d a (fun p l hl => hd p l (leafIn_cons.mpr (Or.inr hl))),
      h1.2 d a (fun p l hl => hd p l (leafIn_cons.mpr (Or.inl hl)))]

theorem written_skip {heap : List Obj} {o : Obj} {a0 : String} {st : Nat → σ} {dir : List String} {fs : Files σ}
    (h1 : (o.get a0).leaf? = none) (h2 : (o.get a0).saver? = none) : Written (leafIn heap o [a0]) st dir fs fs := by
  have hno : ∀ p a l, leafIn heap o [a0] p a ≠ some l := by
    intro p a l h
    cases p with
    | nil =>
      simp only [leafIn, List.mem_singleton] at h
      split at h
      · rename_i he; rw [he, h1] at h; cases h
      · cases h
    | cons b p =>
      simp only [leafIn, List.mem_singleton] at h
      split at h
      · rename_i he; rw [he, h2] at h; cases h
      · cases h
  exact ⟨fun p a l h => absurd h (hno p a l), fun _ _ _ => rfl⟩

theorem written_leaf {heap : List Obj} {o : Obj} {a0 : String} {st : Nat → σ} {dir : List String} {fs : Files σ} {l : Nat}
    (h1 : (o.get a0).leaf? = some l) (h2 : (o.get a0).saver? = none) :
    Written (leafIn heap o [a0]) st dir fs (write fs dir a0 (st l)) := by
  constructor
  · intro p a l' h
    cases p with
    | nil =>
      simp only [leafIn, List.mem_singleton] at h
      split at h
      · rename_i he
        rw [he, h1] at h; cases h
        simp [write, he]
      · cases h
    | cons b p =>
      simp only [leafIn, List.mem_singleton] at h
      split at h
      · rename_i he; rw [he, h2] at h; cases h
      · cases h
  · intro d a hd
    have : ¬ (d = dir ∧ a = a0) := by
      rintro ⟨rfl, rfl⟩
      exact hd [] l (by simp [leafIn, h1]) (by simp)
    unfold write
    rw [if_neg this]

theorem written_saver {heap : List Obj} {o : Obj} {a0 : String} {st : Nat → σ} {dir : List String} {fs fs' : Files σ} {c : Nat}
    (h1 : o.get a0 = .saver c) (h : Written (leafAt heap c) st (dir ++ [a0]) fs fs') :
    Written (leafIn heap o [a0]) st dir fs fs' := by
  constructor
  · intro p a l hl
    cases p with
    | nil =>
      simp only [leafIn, List.mem_singleton] at hl
      split at hl
      · rename_i he; rw [he, h1] at hl; cases hl
      · cases hl
    | cons b p =>
      simp only [leafIn, List.mem_singleton] at hl
      split at hl
      · rename_i he
        rw [he, h1] at hl
        have := h.1 p a l hl
        rw [he]
        simpa using this
      · cases hl
  · intro d a hd
    apply h.2
    intro p l hl he
    refine hd (a0 :: p) l ?_ (by rw [he]; simp)
    simp only [leafIn, List.mem_singleton, if_true, h1, Val.saver?, Option.bind_some]
    exact hl

/-- `saveAttrs` either refuses or writes what belongs to the attributes. -/
theorem saveAttrs_spec {heap : List Obj} {st : Nat → σ} {o : Obj} {anc : List Nat}
    {rec : List String → Nat → List Nat → Files σ → Except PyErr (Files σ)} :
    ∀ (as : List String) (dir : List String) (fs : Files σ),
    (∀ a ∈ as, ∀ c, o.get a = .saver c → c ∉ anc → ∀ d fs,
      (∃ fs', rec d c anc fs = .ok fs' ∧ Tree heap c ∧ Written (leafAt heap c) st d fs fs') ∨
        rec d c anc fs = .error .assertionError) →
    (∃ fs', saveAttrs rec o st dir anc as fs = .ok fs' ∧ (∀ a ∈ as, o.get a ≠ .missing) ∧
      (∀ a ∈ as, ∀ c, o.get a = .saver c → Tree heap c) ∧ Written (leafIn heap o as) st dir fs fs') ∨
    saveAttrs rec o st dir anc as fs = .error .assertionError := by
  intro as
  induction as with
  | nil =>
    intro dir fs _
    left
    refine ⟨fs, rfl, by simp, by simp, ?_, fun _ _ _ => rfl⟩
    intro p a l h
    cases p <;> simp [leafIn] at h
  | cons a0 as ih =>
    intro dir fs hrec
    have ih' := fun fs => ih dir fs (fun a ha => hrec a (List.mem_cons_of_mem _ ha))
    have comb : ∀ fs1, Written (leafIn heap o [a0]) st dir fs fs1 → o.get a0 ≠ .missing →
        (∀ c, o.get a0 = .saver c → Tree heap c) →
        (∃ fs', saveAttrs rec o st dir anc as fs1 = .ok fs' ∧ (∀ a ∈ a0 :: as, o.get a ≠ .missing) ∧
          (∀ a ∈ a0 :: as, ∀ c, o.get a = .saver c → Tree heap c) ∧ Written (leafIn heap o (a0 :: as)) st dir fs fs') ∨
        saveAttrs rec o st dir anc as fs1 = .error .assertionError := by
      intro fs1 hw hm ht
      rcases ih' fs1 with ⟨fs', e1, e2, e3, e4⟩ | e
      · left
        refine ⟨fs', e1, ?_, ?_, hw.comp e4⟩
        · intro a ha
          rcases List.mem_cons.mp ha with rfl | ha
          · exact hm
          · exact e2 a ha
        · intro a ha c hc
          rcases List.mem_cons.mp ha with rfl | ha
          · exact ht c hc
          · exact e3 a ha c hc
      · exact Or.inr e
    unfold saveAttrs
    cases hv : o.get a0 with
    | missing => exact Or.inr rfl
    | none => exact comb fs (written_skip (by rw [hv]; rfl) (by rw [hv]; rfl)) (by rw [hv]; simp) (by rw [hv]; simp)
    | module l => exact comb _ (written_leaf (by rw [hv]; rfl) (by rw [hv]; rfl)) (by rw [hv]; simp) (by rw [hv]; simp)
    | parallel l => exact comb _ (written_leaf (by rw [hv]; rfl) (by rw [hv]; rfl)) (by rw [hv]; simp) (by rw [hv]; simp)
    | saver c =>
      dsimp only
      by_cases hc : c ∈ anc
      · rw [if_pos hc]; exact Or.inr rfl
      · rw [if_neg hc]
        rcases hrec a0 (List.mem_cons_self ..) c hv hc (dir ++ [a0]) fs with ⟨fs1, e1, e2, e3⟩ | e
        · rw [e1]
          exact comb fs1 (written_saver hv e3) (by rw [hv]; simp) (by
            intro c' hc'; rw [hv] at hc'; cases hc'; exact e2)
        · rw [e]; exact Or.inr rfl

theorem nodup_length_le {n : Nat} {l : List Nat} (hn : l.Nodup) (hl : ∀ x ∈ l, x < n) : l.length ≤ n := by
  have h1 : l.toFinset ⊆ Finset.range n := by
    intro x hx
    exact Finset.mem_range.mpr (hl x (List.mem_toFinset.mp hx))
  have h2 := Finset.card_le_card h1
  rwa [List.toFinset_card_of_nodup hn, Finset.card_range] at h2

/-- With enough depth `__save` either refuses or succeeds; it succeeds only on finite trees. -/
theorem saveObj_spec {heap : List Obj} (hwf : WF heap) {st : Nat → σ} : ∀ (n : Nat) (id : Nat) (anc : List Nat)
    (dir : List String) (fs : Files σ), anc.Nodup → (∀ x ∈ anc, x < heap.length) → id ∉ anc → id < heap.length →
    heap.length + 1 ≤ n + anc.length →
    (∃ fs', saveObj heap st n dir id anc fs = .ok fs' ∧ Tree heap id ∧ Written (leafAt heap id) st dir fs fs') ∨
      saveObj heap st n dir id anc fs = .error .assertionError := by
  intro n
  induction n with
  | zero =>
    intro id anc dir fs h1 h2 _ _ h5
    have := nodup_length_le h1 h2
    omega
  | succ n ih =>
    intro id anc dir fs h1 h2 h3 h4 h5
    unfold saveObj
    have ho := List.getElem?_eq_getElem h4
    rw [ho]
    dsimp only
    have hnd : (anc ++ [id]).Nodup := by
      rw [List.nodup_append]
      refine ⟨h1, by simp, ?_⟩
      intro a ha b hb
      rw [List.mem_singleton] at hb
      rintro rfl
      exact h3 (hb ▸ ha)
    have hlt : ∀ x ∈ anc ++ [id], x < heap.length := by
      intro x hx
      rcases List.mem_append.mp hx with hx | hx
      · exact h2 x hx
      · rw [List.mem_singleton.mp hx]; exact h4
    rcases saveAttrs_spec (heap := heap) (st := st) (o := heap[id]) (anc := anc ++ [id]) (rec := saveObj heap st n)
      heap[id].attrs dir fs (fun a ha c hc hnc d fs => ih c (anc ++ [id]) d fs hnd hlt hnc
        (hwf id c ⟨_, a, ho, ha, hc⟩) (by simp; omega)) with ⟨fs', e1, e2, e3, e4⟩ | e
    · left
      refine ⟨fs', e1, .mk ho e2 e3, ?_⟩
      have : leafAt heap id = leafIn heap heap[id] heap[id].attrs := by
        funext p a
        exact leafAt_eq ho p a
      rw [this]
      exact e4
    · exact Or.inr e

/-- No finite tree contains itself. -/
theorem Spec.Tree.irrefl {heap : List Obj} {id : Nat} (h : Tree heap id) : ¬ Relation.TransGen (Child heap) id id := by
  induction h with
  | @mk id o ho hm hc ih =>
    intro hcyc
    obtain ⟨b, hb, hrest⟩ := Relation.TransGen.head'_iff.mp hcyc
    obtain ⟨o', x, ho', hx, hg⟩ := hb
    rw [ho] at ho'; cases ho'
    exact ih x hx b hg (Relation.TransGen.tail' hrest ⟨o, x, ho, hx, hg⟩)

theorem Spec.Tree.child {heap : List Obj} {id c : Nat} (h : Tree heap id) (hc : Child heap id c) : Tree heap c := by
  obtain ⟨o, x, ho, hx, hg⟩ := hc
  cases h with
  | mk ho' hm hch =>
    rw [ho] at ho'; cases ho'
    exact hch x hx c hg

/-- On finite trees `__save` does not refuse. -/
theorem saveObj_not_refused {heap : List Obj} {st : Nat → σ} {id : Nat} (h : Tree heap id) :
    ∀ (n : Nat) (anc : List Nat) (dir : List String) (fs : Files σ), (∀ x ∈ anc, Relation.TransGen (Child heap) x id) →
      saveObj heap st n dir id anc fs ≠ .error .assertionError := by
  induction h with
  | @mk id o ho hm hc ih =>
    intro n anc dir fs hanc
    cases n with
    | zero => simp [saveObj]
    | succ n =>
      unfold saveObj
      rw [ho]
      dsimp only
      have key : ∀ (as : List String) (fs : Files σ), (∀ a ∈ as, a ∈ o.attrs) →
          saveAttrs (saveObj heap st n) o st dir (anc ++ [id]) as fs ≠ .error .assertionError := by
        intro as
        induction as with
        | nil => intro fs _; simp [saveAttrs]
        | cons a as iha =>
          intro fs hsub
          have ha := hsub a (List.mem_cons_self ..)
          have hsub' := fun b hb => hsub b (List.mem_cons_of_mem _ hb)
          unfold saveAttrs
          cases hv : o.get a with
          | missing => exact absurd hv (hm a ha)
          | none => exact iha fs hsub'
          | module l => exact iha _ hsub'
          | parallel l => exact iha _ hsub'
          | saver c =>
            dsimp only
            have hchild : Child heap id c := ⟨o, a, ho, ha, hv⟩
            have hnot : c ∉ anc ++ [id] := by
              intro hmem
              have hcyc : Relation.TransGen (Child heap) c c := by
                rcases List.mem_append.mp hmem with hx | hx
                · exact (hanc c hx).tail hchild
                · rw [List.mem_singleton.mp hx] at hchild ⊢
                  exact Relation.TransGen.single hchild
              exact (hc a ha c hv).irrefl hcyc
            rw [if_neg hnot]
            have := ih a ha c hv n (anc ++ [id]) (dir ++ [a]) fs (by
              intro x hx
              rcases List.mem_append.mp hx with hx | hx
              · exact (hanc x hx).tail hchild
              · rw [List.mem_singleton.mp hx]; exact Relation.TransGen.single hchild)
            split
            · rename_i e he
              intro h'
              cases h'
              exact this he
            · exact iha _ hsub'
      exact key o.attrs fs fun _ ha => ha

/-! ### Loading -/

/-- What loading does to the store. -/
def Loaded (leaf : List String → String → Option Nat) (g : Nat → σ) (st st' : Nat → σ) : Prop :=
  (∀ p a l, leaf p a = some l → st' l = g l) ∧ (∀ l, (∀ p a, leaf p a ≠ some l) → st' l = st l)

theorem Loaded.comp {heap : List Obj} {o : Obj} {a0 : String} {as : List String} {g st st1 st2 : Nat → σ}
    (h1 : Loaded (leafIn heap o [a0]) g st st1) (h2 : Loaded (leafIn heap o as) g st1 st2) :
    Loaded (leafIn heap o (a0 :: as)) g st st2 := by
  constructor
  · intro p a l hl
    by_cases h : ∃ p' a', leafIn heap o as p' a' = some l
    · obtain ⟨p', a', h⟩ := h
      exact h2.1 p' a' l h
    · have hno : ∀ p' a', leafIn heap o as p' a' ≠ some l := fun p' a' h' => h ⟨p', a', h'⟩
      rw [h2.2 l hno]
      exact h1.1 p a l ((leafIn_cons.mp hl).resolve_right (hno p a))
  · intro l hl
    rw [h2.2 l fun p a h => hl p a (leafIn_cons.mpr (Or.inr h)), h1.2 l fun p a h => hl p a (leafIn_cons.mpr (Or.inl h))]

theorem loaded_skip {heap : List Obj} {o : Obj} {a0 : String} {g st : Nat → σ}
    (h1 : (o.get a0).leaf? = none) (h2 : (o.get a0).saver? = none) : Loaded (leafIn heap o [a0]) g st st := by
  refine ⟨fun p a l h => ?_, fun _ _ => rfl⟩
  exfalso
  cases p with
  | nil =>
    simp only [leafIn, List.mem_singleton] at h
    split at h
    · rename_i he; rw [he, h1] at h; cases h
    · cases h
  | cons b p =>
    simp only [leafIn, List.mem_singleton] at h
    split at h
    · rename_i he; rw [he, h2] at h; cases h
    · cases h

theorem loaded_leaf {heap : List Obj} {o : Obj} {a0 : String} {g st : Nat → σ} {l : Nat}
    (h1 : (o.get a0).leaf? = some l) (h2 : (o.get a0).saver? = none) :
    Loaded (leafIn heap o [a0]) g st (Function.update st l (g l)) := by
  constructor
  · intro p a l' h
    cases p with
    | nil =>
      simp only [leafIn, List.mem_singleton] at h
      split at h
      · rename_i he
        rw [he, h1] at h; cases h
        simp
      · cases h
    | cons b p =>
      simp only [leafIn, List.mem_singleton] at h
      split at h
      · rename_i he; rw [he, h2] at h; cases h
      · cases h
  · intro l' hl
    rw [Function.update_of_ne]
    rintro rfl
    exact hl [] a0 (by simp [leafIn, h1])

theorem loaded_saver {heap : List Obj} {o : Obj} {a0 : String} {g st st' : Nat → σ} {c : Nat} (h1 : o.get a0 = .saver c)
    (h : Loaded (leafAt heap c) g st st') : Loaded (leafIn heap o [a0]) g st st' := by
  constructor
  · intro p a l hl
    cases p with
    | nil =>
      simp only [leafIn, List.mem_singleton] at hl
      split at hl
      · rename_i he; rw [he, h1] at hl; cases hl
      · cases hl
    | cons b p =>
      simp only [leafIn, List.mem_singleton] at hl
      split at hl
      · rename_i he
        rw [he, h1] at hl
        exact h.1 p a l hl
      · cases hl
  · intro l hl
    apply h.2
    intro p a hp
    apply hl (a0 :: p) a
    simp only [leafIn, List.mem_singleton, if_true, h1, Val.saver?, Option.bind_some]
    exact hp

/-- Loading a finite tree whose files are all there. -/
theorem load_spec {heap : List Obj} {fs : Files σ} {g : Nat → σ} {id : Nat} (h : Tree heap id) :
    ∀ (n : Nat) (anc : List Nat) (dir : List String) (st : Nat → σ), anc.Nodup → (∀ x ∈ anc, x < heap.length) →
      (∀ x ∈ anc, Relation.TransGen (Child heap) x id) → heap.length + 1 ≤ n + anc.length →
      (∀ p a l, leafAt heap id p a = some l → fs (dir ++ p) a = some (g l)) →
      ∃ st', load heap fs n dir id st = .ok st' ∧ Loaded (leafAt heap id) g st st' := by
  induction h with
  | @mk id o ho hm hc ih =>
    intro n anc dir st h1 h2 h3 h4 hfiles
    have hid : id < heap.length := (List.getElem?_eq_some_iff.mp ho).1
    have hnotin : id ∉ anc := fun hmem => (Tree.mk ho hm hc).irrefl (h3 id hmem)
    cases n with
    | zero =>
      have := nodup_length_le h1 h2
      omega
    | succ n =>
      unfold load
      rw [ho]
      dsimp only
      have hnd : (anc ++ [id]).Nodup := by
        rw [List.nodup_append]
        refine ⟨h1, by simp, ?_⟩
        intro a ha b hb
        rw [List.mem_singleton] at hb
        rintro rfl
        exact hnotin (hb ▸ ha)
      have hlt : ∀ x ∈ anc ++ [id], x < heap.length := by
        intro x hx
        rcases List.mem_append.mp hx with hx | hx
        · exact h2 x hx
        · rw [List.mem_singleton.mp hx]; exact hid
      have hfiles' : ∀ p a l, leafIn heap o o.attrs p a = some l → fs (dir ++ p) a = some (g l) := by
        intro p a l hl
        rw [← leafAt_eq ho] at hl
        exact hfiles p a l hl
      have key : ∀ (as : List String) (st : Nat → σ), (∀ a ∈ as, a ∈ o.attrs) →
          ∃ st', loadAttrs (load heap fs n) o fs dir id as st = .ok st' ∧ Loaded (leafIn heap o as) g st st' := by
        intro as
        induction as with
        | nil =>
          intro st _
          refine ⟨st, rfl, ?_, fun _ _ => rfl⟩
          intro p a l h
          cases p <;> simp [leafIn] at h
        | cons a as iha =>
          intro st hsub
          have ha := hsub a (List.mem_cons_self ..)
          have hsub' := fun b hb => hsub b (List.mem_cons_of_mem _ hb)
          have comb : ∀ st1, Loaded (leafIn heap o [a]) g st st1 →
              ∃ st', loadAttrs (load heap fs n) o fs dir id as st1 = .ok st' ∧ Loaded (leafIn heap o (a :: as)) g st st' := by
            intro st1 hl
            obtain ⟨st', e1, e2⟩ := iha st1 hsub'
            exact ⟨st', e1, hl.comp e2⟩
          unfold loadAttrs
          cases hv : o.get a with
          | missing => exact absurd hv (hm a ha)
          | none => exact comb st (loaded_skip (by rw [hv]; rfl) (by rw [hv]; rfl))
          | module l =>
            have hf := hfiles' [] a l (by simp [leafIn, ha, hv, Val.leaf?])
            rw [List.append_nil] at hf
            dsimp only
            rw [hf]
            exact comb _ (loaded_leaf (by rw [hv]; rfl) (by rw [hv]; rfl))
          | parallel l =>
            have hf := hfiles' [] a l (by simp [leafIn, ha, hv, Val.leaf?])
            rw [List.append_nil] at hf
            dsimp only
            rw [hf]
            exact comb _ (loaded_leaf (by rw [hv]; rfl) (by rw [hv]; rfl))
          | saver c =>
            dsimp only
            have hchild : Child heap id c := ⟨o, a, ho, ha, hv⟩
            have hne : c ∉ [id] := by
              intro hmem
              rw [List.mem_singleton.mp hmem] at hchild
              exact (Tree.mk ho hm hc).irrefl (Relation.TransGen.single hchild)
            rw [if_neg hne]
            obtain ⟨st1, e1, e2⟩ := ih a ha c hv n (anc ++ [id]) (dir ++ [a]) st hnd hlt (by
              intro x hx
              rcases List.mem_append.mp hx with hx | hx
              · exact (h3 x hx).tail hchild
              · rw [List.mem_singleton.mp hx]; exact Relation.TransGen.single hchild) (by simp; omega) (by
              intro p b l hl
              have := hfiles' (a :: p) b l (by
                simp only [leafIn, ha, if_true, hv, Val.saver?, Option.bind_some]
                exact hl)
              simpa using this)
            rw [e1]
            exact comb st1 (loaded_saver hv e2)
      obtain ⟨st', e1, e2⟩ := key o.attrs st fun _ ha => ha
      refine ⟨st', e1, ?_⟩
      have : leafAt heap id = leafIn heap o o.attrs := by
        funext p a
        exact leafAt_eq ho p a
      rw [this]
      exact e2

/-! ## C59 -/

/-- **C59 (saving).** Let all references of the heap be valid and the recursion depth exceed the number of savers.  `save` never
loops: it succeeds exactly if the attributes below the agent form a finite tree without missing attributes, and otherwise
raises `AssertionError`; in particular it refuses cyclic structures.  If it succeeds, the state of every
module of the structure is in the file named by its path, and no other file is touched. -/
theorem save_spec {heap : List Obj} (hwf : WF heap) (st : Nat → σ) {root : Nat} (hroot : root < heap.length)
    (dir : List String) (fs : Files σ) {depth : Nat} (hd : heap.length < depth) :
    (Tree heap root → ∃ fs', save heap st depth root dir fs = .ok fs' ∧
      (∀ p a l, leafAt heap root p a = some l → fs' (dir ++ p) a = some (st l)) ∧
      (∀ d a, (∀ p l, leafAt heap root p a = some l → d ≠ dir ++ p) → fs' d a = fs d a)) ∧
    (¬ Tree heap root → save heap st depth root dir fs = .error .assertionError) := by
  unfold save
  have h := saveObj_spec hwf (st := st) depth root [] dir fs List.nodup_nil (by simp) (by simp) hroot (by simp; omega)
  constructor
  · intro ht
    rcases h with ⟨fs', e1, _, e3⟩ | e
    · exact ⟨fs', e1, e3⟩
    · exact absurd e (saveObj_not_refused ht depth [] dir fs (by simp))
  · intro ht
    rcases h with ⟨fs', _, e2, _⟩ | e
    · exact absurd e2 ht
    · exact e

/-- A finite tree has no cycle below it: from nothing that can be reached there is a way back to it. -/
theorem tree_acyclic {heap : List Obj} {root x : Nat} (h : Tree heap root)
    (hx : Relation.ReflTransGen (Child heap) root x) : ¬ Relation.TransGen (Child heap) x x := by
  have : Tree heap x := by
    induction hx with
    | refl => exact h
    | tail _ hc ih => exact ih.child hc
  exact this.irrefl

/-- **C59 (round trip).** Let `save` have succeeded.  Loading the directory into an agent of the same structure whose modules
have any states `st2` succeeds; afterwards every module of the structure has the state it had when it was saved, and
every other module is as before. -/
theorem save_load_round_trip {heap : List Obj} (hwf : WF heap) {st1 : Nat → σ} (st2 : Nat → σ) {root : Nat}
    (hroot : root < heap.length) {dir : List String} {fs fs' : Files σ} {depth : Nat} (hd : heap.length < depth)
    (hs : save heap st1 depth root dir fs = .ok fs') :
    ∃ st3, load heap fs' depth dir root st2 = .ok st3 ∧
      (∀ p a l, leafAt heap root p a = some l → st3 l = st1 l) ∧
      (∀ l, (∀ p a, leafAt heap root p a ≠ some l) → st3 l = st2 l) := by
  have h := save_spec hwf st1 hroot dir fs hd
  by_cases ht : Tree heap root
  · obtain ⟨fs'', e1, e2, _⟩ := h.1 ht
    rw [hs] at e1
    cases e1
    exact load_spec ht depth [] dir st2 List.nodup_nil (by simp) (by simp) (by simp; omega) e2
  · rw [h.2 ht] at hs
    cases hs

/-- An agent with a model, an optimiser and a nested saver (such as an explorer with a model of its own), and an attribute that
is `None`. -/
def demo : List Obj :=
  [⟨["model", "optimizer", "aux", "nested"], fun a =>
      if a = "model" then .parallel 0 else if a = "optimizer" then .module 1 else if a = "aux" then .none
      else if a = "nested" then .saver 1 else .missing⟩,
   ⟨["model"], fun a => if a = "model" then .module 2 else .missing⟩]

example : WF demo ∧ Tree demo 0 ∧ leafAt demo 0 ["nested"] "model" = some 2 := by
  refine ⟨?_, ?_, by decide⟩
  · rintro a b ⟨o, x, ho, hx, hg⟩
    match a, ho with
    | 0, ho =>
      cases ho
      simp only [List.mem_cons, List.not_mem_nil, or_false] at hx
      rcases hx with rfl | rfl | rfl | rfl <;> simp at hg
      subst hg
      decide
    | 1, ho =>
      cases ho
      simp only [List.mem_cons, List.not_mem_nil, or_false] at hx
      subst hx
      simp at hg
    | n + 2, ho => simp [demo] at ho
  · refine .mk (o := demo[0]) rfl (by decide) ?_
    intro a ha c hc
    have h1 : Tree demo 1 := .mk (o := demo[1]) rfl (by decide) (by
      intro a ha c hc
      simp only [demo, List.getElem_cons_succ, List.getElem_cons_zero, List.mem_singleton] at ha
      subst ha
      simp [demo] at hc)
    simp only [demo, List.getElem_cons_zero, List.mem_cons, List.not_mem_nil, or_false] at ha
    rcases ha with rfl | rfl | rfl | rfl <;> simp [demo] at hc
    subst hc
    exact h1

/-- Two savers that are attributes of each other. -/
def loop2 : List Obj := [⟨["a"], fun _ => .saver 1⟩, ⟨["b"], fun _ => .saver 0⟩]

/-- `save` refuses this cycle; `load`, whose check sees only one level, never ends: it exceeds every recursion depth. -/
theorem load_loops_on_cycle (st : Nat → σ) (fs : Files σ) (dir : List String) :
    save loop2 st 3 0 dir fs = .error .assertionError ∧
    ∀ depth, load loop2 fs depth dir 0 st = .error .timeout := by
  constructor
  · rfl
  · have h : ∀ depth dir st, load loop2 fs depth dir 0 st = .error .timeout ∧ load loop2 fs depth dir 1 st = .error .timeout := by
      intro depth
      induction depth with
      | zero => intro dir st; exact ⟨rfl, rfl⟩
      | succ n ih =>
        intro dir st
        constructor
        · have := (ih (dir ++ ["a"]) st).2
          simp [load, loop2, loadAttrs] at this ⊢
          rw [this]
        · have := (ih (dir ++ ["b"]) st).1
          simp [load, loop2, loadAttrs] at this ⊢
          rw [this]
    exact fun depth => (h depth dir st).1

end Pfrl.SaveLoad
