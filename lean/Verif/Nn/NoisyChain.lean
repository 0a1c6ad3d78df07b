import Verif.Basic
import Mathlib.Data.List.Nodup
import Mathlib.Tactic.Linarith

/-!
# Replacing linear layers by noisy ones

Model of `to_factorized_noisy` and `_map_modules` of `pfrl/nn/noisy_chain.py` on a heap of modules, so that one module can
be registered in several places.
-/

namespace Pfrl.NoisyChain

open Pfrl

/-! ## Model -/

/-- The class of a module: `nn.Linear`, `FactorizedNoisyLinear`, or anything else. -/
inductive Kind where
  | linear
  | noisy
  | other (cls : ℕ)
  deriving DecidableEq, Repr

/-- A module: its class and `_modules`, a dictionary from names to modules (here: addresses). -/
structure Node where
  kind : Kind
  children : List (ℕ × ℕ)
  deriving DecidableEq, Repr

/-- The modules that exist: those with an address below `next`. -/
structure Heap where
  node : ℕ → Node
  next : ℕ

/-- `module.named_children()` of PyTorch: the items of `_modules`, where a module that has been given already is
left out. -/
def namedChildren : List (ℕ × ℕ) → List (ℕ × ℕ)
  | [] => []
  | (name, c) :: cs => (name, c) :: (namedChildren cs).filter fun x => x.2 ≠ c

/-- `module._modules[name] = new_child`, `pfrl/nn/noisy_chain.py:34`, for a name that is there. -/
def setChild (cs : List (ℕ × ℕ)) (name new : ℕ) : List (ℕ × ℕ) :=
  cs.map fun x => if x.1 = name then (name, new) else x

/-- The names `mu` and `sigma`. -/
def mu : ℕ := 0
/-- See `mu`. -/
def sigma : ℕ := 1

/-- `FactorizedNoisyLinear(module)`, `pfrl/nn/noisy_linear.py:36-54`: a new module at `next` with two new linear layers. -/
def Heap.newNoisy (h : Heap) : Heap :=
  { node := fun a =>
      if a = h.next then ⟨.noisy, [(mu, h.next + 1), (sigma, h.next + 2)]⟩
      else if a = h.next + 1 then ⟨.linear, []⟩
      else if a = h.next + 2 then ⟨.linear, []⟩
      else h.node a
    next := h.next + 3 }

/-- Changing one module. -/
def Heap.set (h : Heap) (a : ℕ) (n : Node) : Heap := { h with node := fun b => if b = a then n else h.node b }

/-- Replacing the child `name` of the module at `a` by a new noisy layer, `pfrl/nn/noisy_chain.py:28,34`. -/
def Heap.replace (h : Heap) (a name : ℕ) : Heap :=
  h.newNoisy.set a ⟨(h.node a).kind, setChild (h.node a).children name h.next⟩

/-- `_map_modules(func_to_factorized_noisy, module)`, `pfrl/nn/noisy_chain.py:26-34`.  The fuel bounds the depth of the recursion.
The iterator reads `_modules` while the loop replaces values in it; only values it has passed are replaced. -/
def mapModules : ℕ → Heap → ℕ → Heap
  | 0, h, _ => h
  | fuel + 1, h, a =>
    (namedChildren (h.node a).children).foldl (fun h x =>
      if (h.node x.2).kind = .linear then h.replace a x.1 else mapModules fuel h x.2) h

/-- `to_factorized_noisy(module)`, `pfrl/nn/noisy_chain.py:11-23`: `func` is applied to children only. -/
def toNoisy (fuel : ℕ) (h : Heap) (a : ℕ) : Heap := mapModules fuel h a

/-- Calling a noisy layer: `self.sigma.weight` and `self.mu.weight` exist only if both are linear layers,
`pfrl/nn/noisy_linear.py:62-68`. -/
def callNoisy (h : Heap) (a : ℕ) : Except PyErr Unit :=
  match (h.node a).children.lookup mu, (h.node a).children.lookup sigma with
  | some m, some s =>
    if (h.node m).kind = .linear ∧ (h.node s).kind = .linear then .ok () else .error .attributeError
  | _, _ => .error .attributeError

/-! ## Specification: networks as trees -/

mutual
/-- A module with its children, without addresses. -/
inductive Shape where
  | node (kind : Kind) (kids : Shapes)
/-- Children with their names. -/
inductive Shapes where
  | nil
  | cons (name : ℕ) (s : Shape) (rest : Shapes)
end

/-- The class of a shape. -/
def Shape.kind : Shape → Kind
  | .node k _ => k

/-- A linear layer. -/
def Shape.linear : Shape := .node .linear .nil

/-- A noisy layer. -/
def Shape.noisy : Shape := .node .noisy (.cons mu Shape.linear (.cons sigma Shape.linear .nil))

mutual
/-- What `to_factorized_noisy` should make of a network: the same network with every linear layer below the root replaced. -/
def Shape.convert : Shape → Shape
  | .node k kids => .node k kids.convert
/-- The same for children. -/
def Shapes.convert : Shapes → Shapes
  | .nil => .nil
  | .cons name s rest => .cons name (if s.kind = .linear then Shape.noisy else s.convert) rest.convert
end

mutual
/-- A module with its children and addresses. -/
inductive Tree where
  | node (addr : ℕ) (kind : Kind) (kids : Trees)
/-- Children with their names. -/
inductive Trees where
  | nil
  | cons (name : ℕ) (t : Tree) (rest : Trees)
end

/-- The address of the root. -/
def Tree.addr : Tree → ℕ
  | .node a _ _ => a

/-- The class of the root. -/
def Tree.kind : Tree → Kind
  | .node _ k _ => k

mutual
/-- Without addresses. -/
def Tree.shape : Tree → Shape
  | .node _ k kids => .node k kids.shapes
/-- Without addresses. -/
def Trees.shapes : Trees → Shapes
  | .nil => .nil
  | .cons name t rest => .cons name t.shape rest.shapes
end

mutual
/-- All addresses in a network. -/
def Tree.addrs : Tree → List ℕ
  | .node a _ kids => a :: kids.addrs
/-- All addresses in a list of networks. -/
def Trees.addrs : Trees → List ℕ
  | .nil => []
  | .cons _ t rest => t.addrs ++ rest.addrs
end

/-- The entries of `_modules`. -/
def Trees.edges : Trees → List (ℕ × ℕ)
  | .nil => []
  | .cons name t rest => (name, t.addr) :: rest.edges

mutual
/-- Names within one module are different, and linear layers have no children. -/
def Tree.WF : Tree → Prop
  | .node _ k kids => (kids.edges.map Prod.fst).Nodup ∧ (k = .linear → kids = .nil) ∧ kids.WF
/-- The same for all. -/
def Trees.WF : Trees → Prop
  | .nil => True
  | .cons _ t rest => t.WF ∧ rest.WF
end

mutual
/-- The heap holds this network at these addresses. -/
def Tree.In (h : Heap) : Tree → Prop
  | .node a k kids => h.node a = ⟨k, kids.edges⟩ ∧ kids.In h
/-- The same for all. -/
def Trees.In (h : Heap) : Trees → Prop
  | .nil => True
  | .cons _ t rest => t.In h ∧ rest.In h
end

mutual
/-- The depth of a network. -/
def Tree.depth : Tree → ℕ
  | .node _ _ kids => kids.depth + 1
/-- The largest depth. -/
def Trees.depth : Trees → ℕ
  | .nil => 0
  | .cons _ t rest => max t.depth rest.depth
end

/-- The heap holds a network of this shape at `a`, as a tree: no module is registered in two places. -/
def Represents (h : Heap) (a : ℕ) (s : Shape) (d : ℕ) : Prop :=
  ∃ t : Tree, t.addr = a ∧ t.shape = s ∧ t.In h ∧ t.addrs.Nodup ∧ (∀ x ∈ t.addrs, x < h.next) ∧ t.WF ∧ t.depth ≤ d

/-! ## Lemmas -/

theorem addr_mem (t : Tree) : t.addr ∈ t.addrs := by
  cases t; simp [Tree.addr, Tree.addrs]

mutual
theorem Tree.In.frame {h h' : Heap} : ∀ (t : Tree), (∀ x ∈ t.addrs, h'.node x = h.node x) → t.In h → t.In h'
  | .node a k kids => fun hx hin => by
    simp only [Tree.addrs, List.mem_cons] at hx
    exact ⟨by rw [hx a (Or.inl rfl)]; exact hin.1, Trees.In.frame kids (fun x hx' => hx x (Or.inr hx')) hin.2⟩
theorem Trees.In.frame {h h' : Heap} : ∀ (ts : Trees), (∀ x ∈ ts.addrs, h'.node x = h.node x) → ts.In h → ts.In h'
  | .nil => fun _ _ => trivial
  | .cons name t rest => fun hx hin => by
    simp only [Trees.addrs, List.mem_append] at hx
    exact ⟨Tree.In.frame t (fun x hx' => hx x (Or.inl hx')) hin.1,
      Trees.In.frame rest (fun x hx' => hx x (Or.inr hx')) hin.2⟩
end

theorem edges_sublist : ∀ ts : Trees, (ts.edges.map Prod.snd).Sublist ts.addrs
  | .nil => List.Sublist.slnil
  | .cons name t rest => by
    cases t with
    | node a k kids =>
      simp only [Trees.edges, List.map_cons, Trees.addrs, Tree.addr, Tree.addrs, List.cons_append]
      exact List.Sublist.cons_cons a ((edges_sublist rest).trans (List.sublist_append_right _ _))

theorem namedChildren_nodup : ∀ cs : List (ℕ × ℕ), (cs.map Prod.snd).Nodup → namedChildren cs = cs
  | [], _ => rfl
  | (name, c) :: cs, h => by
    simp only [List.map_cons, List.nodup_cons] at h
    rw [namedChildren, namedChildren_nodup cs h.2]
    congr 1
    rw [List.filter_eq_self]
    intro x hx
    simp only [ne_eq, decide_not, Bool.not_eq_true', decide_eq_false_iff_not]
    intro he
    exact h.1 (List.mem_map.2 ⟨x, hx, he⟩)

theorem setChild_other (cs : List (ℕ × ℕ)) (name new : ℕ) (h : name ∉ cs.map Prod.fst) : setChild cs name new = cs := by
  unfold setChild
  conv_rhs => rw [← List.map_id cs]
  apply List.map_congr_left
  intro x hx
  rw [if_neg (fun he => h (List.mem_map.2 ⟨x, hx, he⟩))]
  rfl

theorem setChild_mid (pre post : List (ℕ × ℕ)) (name old new : ℕ)
    (h : ((pre ++ (name, old) :: post).map Prod.fst).Nodup) :
    setChild (pre ++ (name, old) :: post) name new = pre ++ (name, new) :: post := by
  have h1 : name ∉ pre.map Prod.fst ∧ name ∉ post.map Prod.fst := by
    rw [List.map_append, List.map_cons, List.nodup_append] at h
    exact ⟨fun hm => h.2.2 name hm name (by simp) rfl, (List.nodup_cons.1 h.2.1).1⟩
  have e : ∀ xs ys : List (ℕ × ℕ), setChild (xs ++ ys) name new = setChild xs name new ++ setChild ys name new :=
    fun xs ys => List.map_append
  have e2 : setChild ((name, old) :: post) name new = (name, new) :: setChild post name new := by simp [setChild]
  rw [e, setChild_other pre _ _ h1.1, e2, setChild_other post _ _ h1.2]

theorem replace_node (h : Heap) (a name : ℕ) (ha : a < h.next) :
    (h.replace a name).node a = ⟨(h.node a).kind, setChild (h.node a).children name h.next⟩ ∧
      (h.replace a name).next = h.next + 3 ∧
      (∀ p, p < h.next → p ≠ a → (h.replace a name).node p = h.node p) ∧
      (h.replace a name).node h.next = ⟨.noisy, [(mu, h.next + 1), (sigma, h.next + 2)]⟩ ∧
      (h.replace a name).node (h.next + 1) = ⟨.linear, []⟩ ∧ (h.replace a name).node (h.next + 2) = ⟨.linear, []⟩ := by
  unfold Heap.replace Heap.set Heap.newNoisy
  refine ⟨by simp, rfl, ?_, ?_, ?_, ?_⟩
  · intro p hp hpa
    have h1 : p ≠ h.next := by omega
    have h2 : p ≠ h.next + 1 := by omega
    have h3 : p ≠ h.next + 2 := by omega
    simp [hpa, h1, h2, h3]
  · have : h.next ≠ a := by omega
    simp [this]
  · have : h.next + 1 ≠ a := by omega
    simp [this]
  · have : h.next + 2 ≠ a := by omega
    simp [this]

/-- What the conversion of a network at `a` achieves. -/
structure Conv (h h' : Heap) (t t' : Tree) : Prop where
  addr : t'.addr = t.addr
  shape : t'.shape = t.shape.convert
  isIn : t'.In h'
  mem : ∀ x ∈ t'.addrs, x ∈ t.addrs ∨ (h.next ≤ x ∧ x < h'.next)
  nodup : t'.addrs.Nodup
  next : h.next ≤ h'.next
  frame : ∀ p, p < h.next → p ∉ t.addrs → h'.node p = h.node p
  wf : t'.WF

/-- The same for the children of the module at `a`, of which those in `pre` have been dealt with. -/
structure ConvKids (h h' : Heap) (a : ℕ) (k : Kind) (pre : List (ℕ × ℕ)) (ts ts' : Trees) : Prop where
  node : h'.node a = ⟨k, pre ++ ts'.edges⟩
  shape : ts'.shapes = ts.shapes.convert
  isIn : ts'.In h'
  mem : ∀ x ∈ ts'.addrs, x ∈ ts.addrs ∨ (h.next ≤ x ∧ x < h'.next)
  nodup : ts'.addrs.Nodup
  next : h.next ≤ h'.next
  frame : ∀ p, p < h.next → p ≠ a → p ∉ ts.addrs → h'.node p = h.node p
  wf : ts'.WF
  names : ts'.edges.map Prod.fst = ts.edges.map Prod.fst

/-- The noisy layer allocated at `n`. -/
def noisyTree (n : ℕ) : Tree :=
  .node n .noisy (.cons mu (.node (n + 1) .linear .nil) (.cons sigma (.node (n + 2) .linear .nil) .nil))

theorem convKids (fuel : ℕ)
    (IH : ∀ (t : Tree) (h : Heap), t.depth ≤ fuel → t.In h → t.addrs.Nodup → (∀ x ∈ t.addrs, x < h.next) → t.WF →
      ∃ t', Conv h (mapModules fuel h t.addr) t t') (a : ℕ) (k : Kind) :
    ∀ (ts : Trees) (h : Heap) (pre : List (ℕ × ℕ)), h.node a = ⟨k, pre ++ ts.edges⟩ →
      ((pre ++ ts.edges).map Prod.fst).Nodup → a < h.next → a ∉ ts.addrs → ts.In h → ts.addrs.Nodup →
      (∀ x ∈ ts.addrs, x < h.next) → ts.WF → ts.depth ≤ fuel →
      ∃ ts', ConvKids h (ts.edges.foldl (fun h x =>
        if (h.node x.2).kind = .linear then h.replace a x.1 else mapModules fuel h x.2) h) a k pre ts ts'
  | .nil => by
    intro h pre hn _ _ _ _ _ _ _ _
    exact ⟨.nil, hn, rfl, trivial, by simp [Trees.addrs], by simp [Trees.addrs], Nat.le_refl _,
      fun _ _ _ _ => rfl, trivial, rfl⟩
  | .cons name t rest => by
    intro h pre hn hnames ha hat hin hnd hlt hwf hdep
    simp only [Trees.edges, List.foldl_cons]
    simp only [Trees.addrs] at hat hnd hlt
    rw [List.nodup_append] at hnd
    obtain ⟨hnd1, hnd2, hnd3⟩ := hnd
    have hat1 : a ∉ t.addrs := fun hh => hat (List.mem_append_left _ hh)
    have hat2 : a ∉ rest.addrs := fun hh => hat (List.mem_append_right _ hh)
    have hlt1 : ∀ x ∈ t.addrs, x < h.next := fun x hx => hlt x (List.mem_append_left _ hx)
    have hlt2 : ∀ x ∈ rest.addrs, x < h.next := fun x hx => hlt x (List.mem_append_right _ hx)
    simp only [Trees.edges] at hn hnames
    simp only [Trees.depth] at hdep
    have hkind : (h.node t.addr).kind = t.kind := by
      cases t with
      | node b kb kids => rw [Tree.addr, hin.1.1]; rfl
    by_cases hl : t.kind = .linear
    · rw [if_pos (by rw [hkind]; exact hl)]
      obtain ⟨r1, r2, r3, r4, r5, r6⟩ := replace_node h a name ha
      have hnode1 : (h.replace a name).node a = ⟨k, (pre ++ [(name, h.next)]) ++ rest.edges⟩ := by
        rw [r1, hn]
        simp only
        rw [setChild_mid _ _ _ _ _ hnames, List.append_assoc]; rfl
      obtain ⟨rest', c⟩ := convKids fuel IH a k rest (h.replace a name) (pre ++ [(name, h.next)]) hnode1
        (by simpa using hnames) (by omega) hat2
        (Trees.In.frame rest (fun x hx => r3 x (hlt2 x hx) (fun e => hat2 (e ▸ hx))) hin.2) hnd2
        (fun x hx => by have := hlt2 x hx; omega) hwf.2 (by omega)
      have hf : ∀ p, h.next ≤ p → p < h.next + 3 → (rest.edges.foldl (fun h x =>
          if (h.node x.2).kind = .linear then h.replace a x.1 else mapModules fuel h x.2) (h.replace a name)).node p =
          (h.replace a name).node p := by
        intro p hp1 hp2
        exact c.frame p (by omega) (by omega) (fun hh => by have := hlt2 p hh; omega)
      have hnext := c.next
      refine ⟨.cons name (noisyTree h.next) rest', ?_, ?_, ?_, ?_, ?_, ?_, ?_, ?_, ?_⟩
      · rw [c.node, List.append_assoc]; rfl
      · simp only [Trees.shapes, Shapes.convert, c.shape]
        have : t.shape.kind = .linear := by cases t; exact hl
        rw [if_pos this]; rfl
      · refine ⟨⟨?_, ⟨⟨?_, trivial⟩, ⟨?_, trivial⟩, trivial⟩⟩, c.isIn⟩
        · rw [hf _ (by omega) (by omega), r4]; rfl
        · rw [hf _ (by omega) (by omega), r5]; rfl
        · rw [hf _ (by omega) (by omega), r6]; rfl
      · intro x hx
        simp only [Trees.addrs, noisyTree, Tree.addrs, List.mem_append, List.mem_cons, List.append_nil,
          List.not_mem_nil, or_false] at hx
        rcases hx with hx | hx
        · right; omega
        · rcases c.mem x hx with hx | hx
          · left; exact List.mem_append_right _ hx
          · right; omega
      · simp only [Trees.addrs]
        rw [List.nodup_append]
        refine ⟨by simp [noisyTree, Tree.addrs, Trees.addrs], c.nodup, ?_⟩
        intro x hx y hy he
        subst he
        simp only [noisyTree, Tree.addrs, Trees.addrs, List.mem_append, List.mem_cons, List.append_nil,
          List.not_mem_nil, or_false] at hx
        rcases c.mem x hy with hy | hy
        · have := hlt2 x hy; omega
        · omega
      · omega
      · intro p hp hpa hpn
        rw [c.frame p (by omega) hpa (fun hh => hpn (List.mem_append_right _ hh)), r3 p hp hpa]
      · refine ⟨⟨by simp [Trees.edges, mu, sigma], by simp, ?_⟩, c.wf⟩
        simp [Trees.WF, Tree.WF, Trees.edges]
      · simp only [Trees.edges, List.map_cons, c.names]
    · rw [if_neg (by rw [hkind]; exact hl)]
      obtain ⟨t', d⟩ := IH t h (by omega) hin.1 hnd1 hlt1 hwf.1
      have hnode1 : (mapModules fuel h t.addr).node a = ⟨k, (pre ++ [(name, t.addr)]) ++ rest.edges⟩ := by
        rw [d.frame a ha hat1, hn, List.append_assoc]; rfl
      have hn1 := d.next
      obtain ⟨rest', c⟩ := convKids fuel IH a k rest (mapModules fuel h t.addr) (pre ++ [(name, t.addr)]) hnode1
        (by simpa using hnames) (by omega) hat2
        (Trees.In.frame rest (fun x hx => d.frame x (hlt2 x hx) (fun hh => hnd3 x hh x hx rfl)) hin.2) hnd2
        (fun x hx => by have := hlt2 x hx; omega) hwf.2 (by omega)
      have hn2 := c.next
      have hf : ∀ p ∈ t'.addrs, (rest.edges.foldl (fun h x =>
          if (h.node x.2).kind = .linear then h.replace a x.1 else mapModules fuel h x.2)
            (mapModules fuel h t.addr)).node p = (mapModules fuel h t.addr).node p := by
        intro p hp
        rcases d.mem p hp with hp | hp
        · exact c.frame p (by have := hlt1 p hp; omega) (fun e => hat1 (e ▸ hp)) (fun hh => hnd3 p hp p hh rfl)
        · exact c.frame p hp.2 (by omega) (fun hh => by have := hlt2 p hh; omega)
      refine ⟨.cons name t' rest', ?_, ?_, ?_, ?_, ?_, ?_, ?_, ?_, ?_⟩
      · rw [c.node, List.append_assoc, Trees.edges, d.addr]; rfl
      · simp only [Trees.shapes, Shapes.convert, c.shape, d.shape]
        have : ¬ t.shape.kind = .linear := by cases t; exact hl
        rw [if_neg this]
      · exact ⟨Tree.In.frame t' hf d.isIn, c.isIn⟩
      · intro x hx
        simp only [Trees.addrs, List.mem_append] at hx ⊢
        rcases hx with hx | hx
        · rcases d.mem x hx with hx | hx
          · exact Or.inl (Or.inl hx)
          · right; omega
        · rcases c.mem x hx with hx | hx
          · exact Or.inl (Or.inr hx)
          · right; omega
      · simp only [Trees.addrs]
        rw [List.nodup_append]
        refine ⟨d.nodup, c.nodup, ?_⟩
        intro x hx y hy he
        subst he
        rcases d.mem x hx with hx | hx <;> rcases c.mem x hy with hy | hy
        · exact hnd3 x hx x hy rfl
        · have := hlt1 x hx; omega
        · have := hlt2 x hy; omega
        · omega
      · omega
      · intro p hp hpa hpn
        rw [c.frame p (by omega) hpa (fun hh => hpn (List.mem_append_right _ hh)),
          d.frame p hp (fun hh => hpn (List.mem_append_left _ hh))]
      · exact ⟨d.wf, c.wf⟩
      · simp only [Trees.edges, List.map_cons, c.names]

theorem conv (fuel : ℕ) : ∀ (t : Tree) (h : Heap), t.depth ≤ fuel → t.In h → t.addrs.Nodup →
    (∀ x ∈ t.addrs, x < h.next) → t.WF → ∃ t', Conv h (mapModules fuel h t.addr) t t' := by
  induction fuel with
  | zero => intro t h hd; cases t; simp [Tree.depth] at hd
  | succ fuel IH =>
    intro t h hd hin hnd hlt hwf
    cases t with
    | node a k kids =>
      simp only [Tree.addrs, List.nodup_cons] at hnd hlt
      obtain ⟨ts', c⟩ := convKids fuel IH a k kids h [] hin.1 hwf.1 (hlt a (by simp)) hnd.1 hin.2 hnd.2
        (fun x hx => hlt x (by simp [hx])) hwf.2.2 (by simp only [Tree.depth] at hd; omega)
      have hm : mapModules (fuel + 1) h a = kids.edges.foldl (fun h x =>
          if (h.node x.2).kind = .linear then h.replace a x.1 else mapModules fuel h x.2) h := by
        rw [mapModules, hin.1]
        simp only
        rw [namedChildren_nodup _ ((edges_sublist kids).nodup hnd.2)]
      rw [Tree.addr, hm]
      refine ⟨.node a k ts', rfl, ?_, ⟨c.node, c.isIn⟩, ?_, ?_, c.next, ?_, ?_⟩
      · simp only [Tree.shape, Shape.convert, c.shape]
      · intro x hx
        simp only [Tree.addrs, List.mem_cons] at hx ⊢
        rcases hx with hx | hx
        · exact Or.inl (Or.inl hx)
        · rcases c.mem x hx with hx | hx
          · exact Or.inl (Or.inr hx)
          · exact Or.inr hx
      · simp only [Tree.addrs, List.nodup_cons]
        refine ⟨fun hh => ?_, c.nodup⟩
        rcases c.mem a hh with hh | hh
        · exact hnd.1 hh
        · have := hlt a (by simp); omega
      · intro p hp hpn
        simp only [Tree.addrs, List.mem_cons, not_or] at hpn
        exact c.frame p hp hpn.1 hpn.2
      · refine ⟨by rw [c.names]; exact hwf.1, fun hk => ?_, c.wf⟩
        have := hwf.2.1 hk
        have hs := c.shape
        rw [this] at hs
        cases ts' with
        | nil => rfl
        | cons _ _ _ => simp [Trees.shapes, Shapes.convert] at hs

/-! ## C98: what `to_factorized_noisy` does to a network -/

mutual
/-- Is there a linear layer in this network that is not part of a noisy layer? -/
def Shape.hasLinear : Shape → Prop
  | .node k kids => k = .linear ∨ (k ≠ .noisy ∧ kids.hasLinear)
/-- In one of the children. -/
def Shapes.hasLinear : Shapes → Prop
  | .nil => False
  | .cons _ s rest => s.hasLinear ∨ rest.hasLinear
end

mutual
/-- Is there no noisy layer yet? -/
def Shape.plain : Shape → Prop
  | .node k kids => k ≠ .noisy ∧ kids.plain
/-- In none of the children. -/
def Shapes.plain : Shapes → Prop
  | .nil => True
  | .cons _ s rest => s.plain ∧ rest.plain
end

mutual
/-- Are all noisy layers as their constructor makes them? -/
def Shape.noisyOk : Shape → Prop
  | .node k kids => (k = .noisy → Shape.node k kids = Shape.noisy) ∧ kids.noisyOk
/-- In all of the children. -/
def Shapes.noisyOk : Shapes → Prop
  | .nil => True
  | .cons _ s rest => s.noisyOk ∧ rest.noisyOk
end

mutual
theorem convert_noisyOk : ∀ s : Shape, s.plain → s.convert.noisyOk
  | .node _ kids => fun hp => ⟨fun hk => absurd hk hp.1, converts_noisyOk kids hp.2⟩
theorem converts_noisyOk : ∀ ss : Shapes, ss.plain → ss.convert.noisyOk
  | .nil => fun _ => trivial
  | .cons name s rest => fun hp => by
    simp only [Shapes.convert, Shapes.noisyOk]
    refine ⟨?_, converts_noisyOk rest hp.2⟩
    by_cases hs : s.kind = .linear
    · rw [if_pos hs]
      simp [Shape.noisy, Shape.noisyOk, Shapes.noisyOk, Shape.linear]
    · rw [if_neg hs]
      exact convert_noisyOk s hp.1
end

mutual
theorem convert_hasLinear : ∀ s : Shape, s.kind ≠ .linear → ¬ s.convert.hasLinear
  | .node k kids => fun hk => by
    simp only [Shape.convert, Shape.hasLinear, not_or, not_and]
    exact ⟨hk, fun _ => converts_hasLinear kids⟩
theorem converts_hasLinear : ∀ ss : Shapes, ¬ ss.convert.hasLinear
  | .nil => fun h => h
  | .cons name s rest => by
    simp only [Shapes.convert, Shapes.hasLinear, not_or]
    refine ⟨?_, converts_hasLinear rest⟩
    by_cases hs : s.kind = .linear
    · rw [if_pos hs]
      simp [Shape.noisy, Shape.hasLinear]
    · rw [if_neg hs]
      exact convert_hasLinear s hs
end

/-- C98, for networks in which no module is registered twice: `to_factorized_noisy` turns the network into the same network with
every linear layer below the root replaced by a noisy layer of its own, changes no other module, leaves no linear layer
outside noisy layers if the root is not one itself, and leaves every noisy layer as its constructor made it if there was none
before.  (The full claim does not ask for a tree: see `noisy_shared_*`.) -/
theorem to_noisy_partial (h : Heap) (a : ℕ) (s : Shape) (fuel : ℕ) (hr : Represents h a s fuel) :
    (∃ d, Represents (toNoisy fuel h a) a s.convert d) ∧
      (s.kind ≠ .linear → ¬ s.convert.hasLinear) ∧ (s.plain → s.convert.noisyOk) ∧
      ∀ t : Tree, t.In h → t.addr = a → t.shape = s → t.addrs.Nodup → (∀ x ∈ t.addrs, x < h.next) → t.WF →
        t.depth ≤ fuel → ∀ p, p < h.next → p ∉ t.addrs → (toNoisy fuel h a).node p = h.node p := by
  refine ⟨?_, convert_hasLinear s, convert_noisyOk s, ?_⟩
  · obtain ⟨t, rfl, rfl, hin, hnd, hlt, hwf, hd⟩ := hr
    obtain ⟨t', c⟩ := conv fuel t h hd hin hnd hlt hwf
    have hnext := c.next
    refine ⟨t'.depth, t', c.addr, c.shape, c.isIn, c.nodup, ?_, c.wf, Nat.le_refl _⟩
    intro x hx
    rcases c.mem x hx with hx | hx
    · have := hlt x hx
      show x < (mapModules fuel h t.addr).next
      omega
    · exact hx.2
  · intro t hin ha _ hnd hlt hwf hd p hp hpn
    obtain ⟨t', c⟩ := conv fuel t h hd hin hnd hlt hwf
    rw [← ha]
    exact c.frame p hp hpn

/-- A heap from a list of modules. -/
def heapOf (ns : List Node) : Heap := ⟨fun a => ns.getD a ⟨.other 0, []⟩, ns.length⟩

/-- Two linear layers in a container inside a container. -/
def small : Heap := heapOf [⟨.other 1, [(7, 1), (8, 3)]⟩, ⟨.other 2, [(9, 2)]⟩, ⟨.linear, []⟩, ⟨.linear, []⟩]

example : Represents small 0 (.node (.other 1) (.cons 7 (.node (.other 2) (.cons 9 .linear .nil)) (.cons 8 .linear .nil))) 3 :=
  ⟨.node 0 (.other 1) (.cons 7 (.node 1 (.other 2) (.cons 9 (.node 2 .linear .nil) .nil)) (.cons 8 (.node 3 .linear .nil) .nil)),
    rfl, rfl, by simp [Tree.In, Trees.In, small, heapOf, Trees.edges, Tree.addr],
    by simp [Tree.addrs, Trees.addrs], by simp [Tree.addrs, Trees.addrs, small, heapOf],
    by simp [Tree.WF, Trees.WF, Trees.edges], by simp [Tree.depth, Trees.depth]⟩

/-- What a network computes with: a layer whose `mu` and `sigma` are not both linear layers cannot be called. -/
theorem call_noisy_iff (h : Heap) (a : ℕ) : callNoisy h a = .ok () ↔
    ∃ m s, (h.node a).children.lookup mu = some m ∧ (h.node a).children.lookup sigma = some s ∧
      (h.node m).kind = .linear ∧ (h.node s).kind = .linear := by
  unfold callNoisy
  cases h1 : (h.node a).children.lookup mu with
  | none => simp
  | some m =>
    cases h2 : (h.node a).children.lookup sigma with
    | none => simp
    | some s =>
      simp only
      by_cases hc : (h.node m).kind = .linear ∧ (h.node s).kind = .linear
      · rw [if_pos hc]; simp [hc.1, hc.2]
      · rw [if_neg hc]
        simp only [reduceCtorEq, false_iff]
        rintro ⟨m', s', e1, e2, e3⟩
        cases e1; cases e2
        exact hc e3

mutual
theorem noisyOk_call (h : Heap) : ∀ t : Tree, t.In h → t.shape.noisyOk → ∀ x ∈ t.addrs, (h.node x).kind = .noisy →
    callNoisy h x = .ok ()
  | .node a k kids => fun hin hok x hx hk => by
    simp only [Tree.addrs, List.mem_cons] at hx
    rcases hx with rfl | hx
    · rw [hin.1] at hk
      have hs := hok.1 hk
      simp only [Shape.noisy, Shape.node.injEq] at hs
      obtain ⟨rfl, hs⟩ := hs
      rw [call_noisy_iff, hin.1]
      cases kids with
      | nil => simp [Trees.shapes] at hs
      | cons n1 t1 r1 =>
        simp only [Trees.shapes, Shapes.cons.injEq] at hs
        obtain ⟨rfl, hs1, hs⟩ := hs
        cases r1 with
        | nil => simp [Trees.shapes] at hs
        | cons n2 t2 r2 =>
          simp only [Trees.shapes, Shapes.cons.injEq] at hs
          obtain ⟨rfl, hs2, _⟩ := hs
          refine ⟨t1.addr, t2.addr, by simp [Trees.edges], by rfl, ?_, ?_⟩
          · have := hin.2.1
            cases t1 with
            | node a1 k1 kids1 =>
              rw [Tree.addr, this.1]
              simp only [Tree.shape, Shape.linear, Shape.node.injEq] at hs1
              exact hs1.1
          · have := hin.2.2.1
            cases t2 with
            | node a1 k1 kids1 =>
              rw [Tree.addr, this.1]
              simp only [Tree.shape, Shape.linear, Shape.node.injEq] at hs2
              exact hs2.1
    · exact noisyOk_calls h kids hin.2 hok.2 x hx hk
theorem noisyOk_calls (h : Heap) : ∀ ts : Trees, ts.In h → ts.shapes.noisyOk → ∀ x ∈ ts.addrs, (h.node x).kind = .noisy →
    callNoisy h x = .ok ()
  | .nil => fun _ _ x hx => by simp [Trees.addrs] at hx
  | .cons name t rest => fun hin hok x hx hk => by
    simp only [Trees.addrs, List.mem_append] at hx
    rcases hx with hx | hx
    · exact noisyOk_call h t hin.1 hok.1 x hx hk
    · exact noisyOk_calls h rest hin.2 hok.2 x hx hk
end

/-- C98, calling the layers: after the conversion of a network without noisy layers, in which no module is registered twice, every
noisy layer of the network can be called. -/
theorem to_noisy_callable_partial (h : Heap) (a : ℕ) (s : Shape) (fuel : ℕ) (hr : Represents h a s fuel) (hp : s.plain) :
    ∃ t : Tree, t.addr = a ∧ t.shape = s.convert ∧ t.In (toNoisy fuel h a) ∧
      ∀ x ∈ t.addrs, ((toNoisy fuel h a).node x).kind = .noisy → callNoisy (toNoisy fuel h a) x = .ok () := by
  obtain ⟨d, t, h1, h2, h3, _⟩ := (to_noisy_partial h a s fuel hr).1
  exact ⟨t, h1, h2, h3, noisyOk_call _ t h3 (by rw [h2]; exact convert_noisyOk s hp)⟩

/-- A module that is a linear layer itself is silently left as it is. -/
theorem noisy_root_linear (fuel : ℕ) (h : Heap) (a : ℕ) (hl : h.node a = ⟨.linear, []⟩) : toNoisy fuel h a = h := by
  unfold toNoisy
  cases fuel with
  | zero => rfl
  | succ fuel => rw [mapModules, hl]; rfl

/-- One linear layer registered under two names of one module. -/
def sharedLayer : Heap := heapOf [⟨.other 1, [(7, 1), (8, 1)]⟩, ⟨.linear, []⟩]

/-- Violation: only the first of the two names gets a noisy layer; under the second the linear layer stays. -/
theorem noisy_shared_layer : ((toNoisy 5 sharedLayer 0).node 0).children = [(7, 2), (8, 1)] ∧
    ((toNoisy 5 sharedLayer 0).node 1).kind = .linear := by decide

/-- One linear layer shared by two containers. -/
def sharedBetween : Heap := heapOf [⟨.other 1, [(7, 1), (8, 2)]⟩, ⟨.other 2, [(9, 3)]⟩, ⟨.other 2, [(9, 3)]⟩, ⟨.linear, []⟩]

/-- Violation: after the conversion the two containers do not share their layer any more. -/
theorem noisy_shared_untied : (sharedBetween.node 1).children = (sharedBetween.node 2).children ∧
    ((toNoisy 5 sharedBetween 0).node 1).children = [(9, 4)] ∧
    ((toNoisy 5 sharedBetween 0).node 2).children = [(9, 7)] := by decide

/-- One container with a linear layer, registered in two places. -/
def sharedContainer : Heap := heapOf [⟨.other 1, [(7, 1), (8, 2)]⟩, ⟨.other 2, [(9, 3)]⟩, ⟨.other 2, [(9, 3)]⟩,
  ⟨.other 3, [(5, 4)]⟩, ⟨.linear, []⟩]

/-- Violation: a container that is reached twice has its noisy layer converted again, and calling that raises. -/
theorem noisy_shared_container : ((toNoisy 5 sharedContainer 0).node 3).children = [(5, 5)] ∧
    ((toNoisy 5 sharedContainer 0).node 5).kind = .noisy ∧
    callNoisy (toNoisy 5 sharedContainer 0) 5 = .error .attributeError := by decide

/-- Violation: converting a network twice leaves noisy layers that raise when they are called, while after the first conversion
they work. -/
theorem noisy_twice : callNoisy (toNoisy 5 small 0) 4 = .ok () ∧
    callNoisy (toNoisy 5 (toNoisy 5 small 0) 0) 4 = .error .attributeError := by decide

end Pfrl.NoisyChain
