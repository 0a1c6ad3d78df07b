import Verif.Sample.Model
import Mathlib.Algebra.Order.Group.Defs

/-!
# Model of the priority trees in `pfrl/collections/prioritized.py`

A Python node is a mutable list: `[]` (nothing stored below), `[None, None, v]` (a leaf) or
`[left, right, v]`.  Nodes are never shared between two trees or two places of one tree, so the
in-place updates are modelled by returning the new node.  The transient value `None` written by
`_expand` is not represented: it is always overwritten by the `_reduce` of the same call.
-/

namespace Pfrl.Tree

/-- `Node`, `pfrl/collections/prioritized.py:129-130`. -/
inductive Node (V : Type _) where
  | nil
  | leaf (v : V)
  | branch (l r : Node V) (v : V)
  deriving Repr, DecidableEq

variable {V : Type _}

/-- `node[2]` of a non-empty node; `none` for `[]`. -/
def Node.val? : Node V → Option V
  | .nil => none
  | .leaf v => some v
  | .branch _ _ v => some v

/-- An aggregator (`sum`, `min`) applied to a non-empty Python list `[a, *rest]`. -/
abbrev Agg (V : Type _) := V → List V → V

/-- Python `sum([a, *rest])`, `prioritized.py:270`. -/
def sumAgg [Add V] [Zero V] : Agg V := fun a rest => (a :: rest).foldl (· + ·) 0

/-- Python `min([a, *rest])`, `prioritized.py:317`: keeps the current minimum unless a strictly
smaller element comes. -/
def minAgg [LT V] [DecidableLT V] : Agg V := fun a rest =>
  rest.foldl (fun m x => if x < m then x else m) a

/-- `_reduce`, `prioritized.py:140-151`, given the (already updated) children. -/
def reduce (op : Agg V) (l r : Node V) : Node V :=
  match l.val?, r.val? with
  | none, none => .nil
  | some a, none => .branch l r (op a [])
  | none, some b => .branch l r (op b [])
  | some a, some b => .branch l r (op a [b])

/-- `_write`, `prioritized.py:154-180` (with `_expand`, `135-137`).  Returns the updated node and
the old value.  `fuel` bounds the recursion depth (Python: the recursion limit). -/
def write (op : Agg V) (key : Int) (value : Option V) :
    Nat → Int → Int → Node V → Except PyErr (Node V × Option V)
  | fuel, ixl, ixr, node =>
    if ixr - ixl = 1 then
      let ret := node.val?
      match value with
      | none => .ok (.nil, ret)
      | some v => .ok (.leaf v, ret)
    else
      match fuel with
      | 0 => .error .recursionError
      | fuel + 1 =>
        let go (nl nr : Node V) : Except PyErr (Node V × Option V) :=
          let ixc := (ixl + ixr) / 2
          if key < ixc then
            match write op key value fuel ixl ixc nl with
            | .error e => .error e
            | .ok (nl', ret) => .ok (reduce op nl' nr, ret)
          else
            match write op key value fuel ixc ixr nr with
            | .error e => .error e
            | .ok (nr', ret) => .ok (reduce op nl nr', ret)
        match node with
        | .leaf _ => .error .typeError
        | .nil => go .nil .nil
        | .branch nl nr _ => go nl nr

/-- `TreeQueue` instance state, `prioritized.py:183-196`.  `tree` holds `root` and `bounds`
(attributes that do not exist before the first `append` and are deleted when the queue becomes
empty). -/
structure TQ (V : Type _) where
  length : Nat
  tree : Option (Node V × Int × Int)
  deriving Repr, DecidableEq

/-- `TreeQueue.__init__`, `prioritized.py:194-196`. -/
def TQ.new : TQ V := { length := 0, tree := none }

/-- Recursion allowance for a tree over `[ixl, ixr)`. -/
def depth (ixl ixr : Int) : Nat := (ixr - ixl).toNat

/-- `TreeQueue._write`, `prioritized.py:203-205`. -/
def TQ.write (op : Agg V) (q : TQ V) (ix : Int) (val : Option V) :
    Except PyErr (TQ V × Option V) :=
  match q.tree with
  | none => .error .attributeError
  | some (root, ixl, ixr) =>
    match Tree.write op ix val (depth ixl ixr) ixl ixr root with
    | .error e => .error e
    | .ok (root', ret) => .ok ({ q with tree := some (root', ixl, ixr) }, ret)

/-- `TreeQueue.__setitem__`, `prioritized.py:198-201` (a value is never `None` here). -/
def TQ.set (op : Agg V) (q : TQ V) (ix : Int) (val : V) : Except PyErr (TQ V) :=
  if 0 ≤ ix ∧ ix < q.length then (q.write op ix (some val)).map (·.1)
  else .error .assertionError

/-- `TreeQueue.append`, `prioritized.py:207-223`. -/
def TQ.append (op : Agg V) (q : TQ V) (value : V) : Except PyErr (TQ V) :=
  if q.length = 0 then .ok { length := 1, tree := some (.leaf value, 0, 1) }
  else
    match q.tree with
    | none => .error .attributeError
    | some (root, ixl, ixr) =>
      let grown : Except PyErr (TQ V) :=
        if ixr = q.length then
          match root.val? with
          | none => .error .valueError
          | some rootValue =>
            .ok { q with tree := some (.branch root .nil rootValue, ixl, ixr + (ixr - ixl)) }
        else .ok q
      match grown with
      | .error e => .error e
      | .ok q1 =>
        match q1.write op q1.length (some value) with
        | .error e => .error e
        | .ok (q2, ret) =>
          if ret.isSome then .error .assertionError
          else .ok { q2 with length := q2.length + 1 }

/-- `TreeQueue.popleft`, `prioritized.py:225-242`. -/
def TQ.popleft (op : Agg V) (q : TQ V) : Except PyErr (Option V × TQ V) :=
  if q.length = 0 then .error .assertionError
  else
    match q.write op 0 none with
    | .error e => .error e
    | .ok (q1, ret) =>
      match q1.tree with
      | none => .error .attributeError
      | some (root, ixl, ixr) =>
        let ixl := ixl - 1
        let ixr := ixr - 1
        let length := q1.length - 1
        if length = 0 then .ok (ret, { length := 0, tree := none })
        else
          let ixc := (ixl + ixr) / 2
          if ixc = 0 then
            match root with
            | .nil => .error .valueError
            | .leaf _ => .error .typeError
            | .branch _ r _ => .ok (ret, { length := length, tree := some (r, ixc, ixr) })
          else .ok (ret, { length := length, tree := some (root, ixl, ixr) })

/-- `SumTreeQueue.sum`, `prioritized.py:272-276`. -/
def TQ.sum [Zero V] (q : TQ V) : Except PyErr V :=
  if q.length = 0 then .ok 0
  else match q.tree with
    | none => .error .attributeError
    | some (root, _, _) =>
      match root.val? with
      | none => .error .indexError
      | some v => .ok v

/-- `MinTreeQueue.min`, `prioritized.py:319-323`; `none` stands for `np.inf`. -/
def TQ.min (q : TQ V) : Except PyErr (Option V) :=
  if q.length = 0 then .ok none
  else match q.tree with
    | none => .error .attributeError
    | some (root, _, _) =>
      match root.val? with
      | none => .error .indexError
      | some v => .ok (some v)

/-- `_find`, `prioritized.py:245-258`.  A leaf met above width 1 cannot be unpacked further
(Python fails one level below); such trees never occur. -/
def find [Zero V] [Sub V] [LT V] [DecidableLT V] : Nat → Int → Int → Node V → V → Except PyErr Int
  | fuel, ixl, ixr, node, pos =>
    if ixr - ixl = 1 then .ok ixl
    else
      match fuel with
      | 0 => .error .recursionError
      | fuel + 1 =>
        match node with
        | .nil => .error .valueError
        | .leaf _ => .error .typeError
        | .branch nl nr _ =>
          let ixc := (ixl + ixr) / 2
          let leftValue := nl.val?.getD 0
          if pos < leftValue then find fuel ixl ixc nl pos
          else find fuel ixc ixr nr (pos - leftValue)

section sampling
variable [Zero V] [Add V] [Sub V] [LT V] [DecidableLT V]

/-- Write back the priorities, `prioritized.py:288-290` and `308-310`. -/
def restore (q : TQ V) : List (Nat × V) → Except PyErr (TQ V)
  | [] => .ok q
  | (ix, val) :: rest =>
    match q.write sumAgg ix (some val) with
    | .error e => .error e
    | .ok (q', _) => restore q' rest

/-- The loop of `uniform_sample`, `prioritized.py:283-286`: zero the priority of every chosen
index, collecting the old priorities. -/
def zeroAll (q : TQ V) : List Nat → Except PyErr (TQ V × List V)
  | [] => .ok (q, [])
  | ix :: rest =>
    match q.write sumAgg ix (some 0) with
    | .error e => .error e
    | .ok (_, none) => .error .assertionError
    | .ok (q', some val) =>
      match zeroAll q' rest with
      | .error e => .error e
      | .ok (q'', vals) => .ok (q'', val :: vals)

/-- `SumTreeQueue.uniform_sample`, `prioritized.py:278-292`.  `perm`, `s`, `fuel` supply the
randomness of `sample_n_k`. -/
def TQ.uniformSample (perm : List Nat) (s : Nat → Nat) (fuel : Nat) (q : TQ V) (n : Int)
    (remove : Bool) : Except PyErr (TQ V × List Nat × List V) :=
  if n < 0 then .error .assertionError
  else
    match Sample.sampleNK perm s fuel q.length n with
    | .error e => .error e
    | .ok ixs =>
      let zeroed := if n > 0 then zeroAll q ixs else .ok (q, [])
      match zeroed with
      | .error e => .error e
      | .ok (q', vals) =>
        if remove then .ok (q', ixs, vals)
        else
          match restore q' (ixs.zip vals) with
          | .error e => .error e
          | .ok q'' => .ok (q'', ixs, vals)

/-- The loop of `prioritized_sample`, `prioritized.py:301-306`.  `rng i hi` is the value returned
by the `i`-th call of `np.random.uniform(0.0, hi)`. -/
def drawLoop (rng : Nat → V → V) : Nat → Nat → TQ V → Except PyErr (TQ V × List Nat × List V)
  | 0, _, q => .ok (q, [], [])
  | n + 1, i, q =>
    match q.tree with
    | none => .error .attributeError
    | some (root, ixl, ixr) =>
      match root.val? with
      | none => .error .indexError
      | some total =>
        match find (depth ixl ixr) ixl ixr root (rng i total) with
        | .error e => .error e
        | .ok ix =>
          match q.write sumAgg ix (some 0) with
          | .error e => .error e
          | .ok (_, none) => .error .assertionError
          | .ok (q', some val) =>
            match drawLoop rng n (i + 1) q' with
            | .error e => .error e
            | .ok (q'', ixs, vals) => .ok (q'', ix.toNat :: ixs, val :: vals)

/-- `SumTreeQueue.prioritized_sample`, `prioritized.py:294-312`; `i0` is the number of uniform
draws made before the call. -/
def TQ.prioritizedSample (rng : Nat → V → V) (i0 : Nat) (q : TQ V) (n : Int) (remove : Bool) :
    Except PyErr (TQ V × List Nat × List V) :=
  if n < 0 then .error .assertionError
  else
    match drawLoop rng n.toNat i0 q with
    | .error e => .error e
    | .ok (q', ixs, vals) =>
      if remove then .ok (q', ixs, vals)
      else
        match restore q' (ixs.zip vals) with
        | .error e => .error e
        | .ok q'' => .ok (q'', ixs, vals)

end sampling

/-- One call of the queue API (`append`, `popleft`, `q[i] = v`). -/
inductive Op (V : Type _) where
  | append (v : V)
  | popleft
  | set (i : Int) (v : V)
  deriving Repr

/-- Run a history of calls that must all succeed, collecting the values returned by `popleft`. -/
def TQ.run (op : Agg V) (q : TQ V) : List (Op V) → Except PyErr (TQ V × List (Option V))
  | [] => .ok (q, [])
  | .append v :: ops =>
    match q.append op v with
    | .error e => .error e
    | .ok q' => TQ.run op q' ops
  | .set i v :: ops =>
    match q.set op i v with
    | .error e => .error e
    | .ok q' => TQ.run op q' ops
  | .popleft :: ops =>
    match q.popleft op with
    | .error e => .error e
    | .ok (ret, q') =>
      match TQ.run op q' ops with
      | .error e => .error e
      | .ok (q'', rets) => .ok (q'', ret :: rets)

end Pfrl.Tree
