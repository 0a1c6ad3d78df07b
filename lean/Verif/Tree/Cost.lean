import Verif.Tree.Float

/-!
# Running time of `TreeQueue` and `SumTreeQueue` (C139)

The docstrings promise that `append` and updates are O(log n).  The recursive functions `_write` and `_find` do a constant amount of work per
call (given a constant-time aggregator of two values), and everything else in the methods modelled here is constant time, so the number of their
calls is what is counted.
-/

namespace Pfrl.Tree

variable {V : Type _}

/-! ## Model -/

/-- `_write`, `pfrl/collections/prioritized.py:154-180`, with the number of calls of `_write`, this one included. -/
def writeT (op : Agg V) (key : Int) (value : Option V) : Nat → Int → Int → Node V → Except PyErr (Node V × Option V) × Nat
  | fuel, ixl, ixr, node =>
    if ixr - ixl = 1 then
      let ret := node.val?
      match value with
      | none => (.ok (.nil, ret), 1)
      | some v => (.ok (.leaf v, ret), 1)
    else
      match fuel with
      | 0 => (.error .recursionError, 1)
      | fuel + 1 =>
        let go (nl nr : Node V) : Except PyErr (Node V × Option V) × Nat :=
          let ixc := (ixl + ixr) / 2
          if key < ixc then
            let r := writeT op key value fuel ixl ixc nl
            (r.1.map fun p => (reduce op p.1 nr, p.2), r.2 + 1)
          else
            let r := writeT op key value fuel ixc ixr nr
            (r.1.map fun p => (reduce op nl p.1, p.2), r.2 + 1)
        match node with
        | .leaf _ => (.error .typeError, 1)
        | .nil => go .nil .nil
        | .branch nl nr _ => go nl nr

/-- `_find`, `prioritized.py:245-258`, with the number of calls of `_find`. -/
def findT [Zero V] [Sub V] [LT V] [DecidableLT V] : Nat → Int → Int → Node V → V → Except PyErr Int × Nat
  | fuel, ixl, ixr, node, pos =>
    if ixr - ixl = 1 then (.ok ixl, 1)
    else
      match fuel with
      | 0 => (.error .recursionError, 1)
      | fuel + 1 =>
        match node with
        | .nil => (.error .valueError, 1)
        | .leaf _ => (.error .typeError, 1)
        | .branch nl nr _ =>
          let ixc := (ixl + ixr) / 2
          let leftValue := nl.val?.getD 0
          let r := if pos < leftValue then findT fuel ixl ixc nl pos else findT fuel ixc ixr nr (pos - leftValue)
          (r.1, r.2 + 1)

/-- `TreeQueue._write`, `prioritized.py:203-205`, with the number of calls of the recursive function. -/
def TQ.writeT (op : Agg V) (q : TQ V) (ix : Int) (val : Option V) : Except PyErr (TQ V × Option V) × Nat :=
  match q.tree with
  | none => (.error .attributeError, 0)
  | some (root, ixl, ixr) =>
    let r := Tree.writeT op ix val (depth ixl ixr) ixl ixr root
    (r.1.map fun p => ({ q with tree := some (p.1, ixl, ixr) }, p.2), r.2)

/-- `TreeQueue.__setitem__`, `prioritized.py:198-201`, with the number of recursive calls. -/
def TQ.setT (op : Agg V) (q : TQ V) (ix : Int) (val : V) : Except PyErr (TQ V) × Nat :=
  if 0 ≤ ix ∧ ix < q.length then
    let r := q.writeT op ix (some val)
    (r.1.map (·.1), r.2)
  else (.error .assertionError, 0)

/-- The growing of the window in `append`, `prioritized.py:212-219`. -/
def TQ.grow (q : TQ V) : Except PyErr (TQ V) :=
  match q.tree with
  | none => .error .attributeError
  | some (root, ixl, ixr) =>
    if ixr = q.length then
      match root.val? with
      | none => .error .valueError
      | some rootValue => .ok { q with tree := some (.branch root .nil rootValue, ixl, ixr + (ixr - ixl)) }
    else .ok q

/-- The end of `append`, `prioritized.py:220-223`, with the number of recursive calls. -/
def TQ.pushT (op : Agg V) (value : V) : Except PyErr (TQ V) → Except PyErr (TQ V) × Nat
  | .error e => (.error e, 0)
  | .ok q1 =>
    let r := q1.writeT op q1.length (some value)
    (r.1.bind fun p => if p.2.isSome then .error .assertionError else .ok { p.1 with length := p.1.length + 1 }, r.2)

/-- `TreeQueue.append`, `prioritized.py:207-223`, with the number of recursive calls. -/
def TQ.appendT (op : Agg V) (q : TQ V) (value : V) : Except PyErr (TQ V) × Nat :=
  if q.length = 0 then (.ok { length := 1, tree := some (.leaf value, 0, 1) }, 0) else TQ.pushT op value q.grow

/-- What `popleft` does after the write, `prioritized.py:228-242`. -/
def TQ.shift (p : TQ V × Option V) : Except PyErr (Option V × TQ V) :=
  match p.1.tree with
  | none => .error .attributeError
  | some (root, ixl, ixr) =>
    let ixl := ixl - 1
    let ixr := ixr - 1
    let length := p.1.length - 1
    if length = 0 then .ok (p.2, { length := 0, tree := none })
    else
      let ixc := (ixl + ixr) / 2
      if ixc = 0 then
        match root with
        | .nil => .error .valueError
        | .leaf _ => .error .typeError
        | .branch _ r _ => .ok (p.2, { length := length, tree := some (r, ixc, ixr) })
      else .ok (p.2, { length := length, tree := some (root, ixl, ixr) })

/-- `TreeQueue.popleft`, `prioritized.py:225-242`, with the number of recursive calls. -/
def TQ.popleftT (op : Agg V) (q : TQ V) : Except PyErr (Option V × TQ V) × Nat :=
  if q.length = 0 then (.error .assertionError, 0)
  else
    let r := q.writeT op 0 none
    (r.1.bind TQ.shift, r.2)

/-- A history of calls, with the number of recursive calls that each of them makes. -/
def TQ.runT (op : Agg V) (q : TQ V) : List (Op V) → Except PyErr (TQ V × List (Option V)) × List Nat
  | [] => (.ok (q, []), [])
  | .append v :: ops =>
    let r := q.appendT op v
    match r.1 with
    | .error e => (.error e, [r.2])
    | .ok q' => ((TQ.runT op q' ops).1, r.2 :: (TQ.runT op q' ops).2)
  | .set i v :: ops =>
    let r := q.setT op i v
    match r.1 with
    | .error e => (.error e, [r.2])
    | .ok q' => ((TQ.runT op q' ops).1, r.2 :: (TQ.runT op q' ops).2)
  | .popleft :: ops =>
    let r := q.popleftT op
    match r.1 with
    | .error e => (.error e, [r.2])
    | .ok (ret, q') => ((TQ.runT op q' ops).1.map fun p => (p.1, ret :: p.2), r.2 :: (TQ.runT op q' ops).2)

section sampling
variable [Zero V] [Add V] [Sub V] [LT V] [DecidableLT V]

/-- Writing back the priorities, `prioritized.py:288-290` and `308-310`, with the number of recursive calls. -/
def restoreT (q : TQ V) : List (Nat × V) → Except PyErr (TQ V) × Nat
  | [] => (.ok q, 0)
  | (ix, val) :: rest =>
    let r := q.writeT sumAgg ix (some val)
    match r.1 with
    | .error e => (.error e, r.2)
    | .ok (q', _) => ((restoreT q' rest).1, r.2 + (restoreT q' rest).2)

/-- The loop of `prioritized_sample`, `prioritized.py:301-306`, with the number of recursive calls. -/
def drawLoopT (rng : Nat → V → V) : Nat → Nat → TQ V → Except PyErr (TQ V × List Nat × List V) × Nat
  | 0, _, q => (.ok (q, [], []), 0)
  | n + 1, i, q =>
    match q.tree with
    | none => (.error .attributeError, 0)
    | some (root, ixl, ixr) =>
      match root.val? with
      | none => (.error .indexError, 0)
      | some total =>
        let f := findT (depth ixl ixr) ixl ixr root (rng i total)
        match f.1 with
        | .error e => (.error e, f.2)
        | .ok ix =>
          let r := q.writeT sumAgg ix (some 0)
          match r.1 with
          | .error e => (.error e, f.2 + r.2)
          | .ok (_, none) => (.error .assertionError, f.2 + r.2)
          | .ok (q', some val) =>
            ((drawLoopT rng n (i + 1) q').1.map fun p => (p.1, ix.toNat :: p.2.1, val :: p.2.2), f.2 + r.2 + (drawLoopT rng n (i + 1) q').2)

/-- `SumTreeQueue.prioritized_sample`, `prioritized.py:294-312`, with the number of recursive calls. -/
def TQ.prioritizedSampleT (rng : Nat → V → V) (i0 : Nat) (q : TQ V) (n : Int) (remove : Bool) : Except PyErr (TQ V × List Nat × List V) × Nat :=
  if n < 0 then (.error .assertionError, 0)
  else
    let d := drawLoopT rng n.toNat i0 q
    match d.1 with
    | .error e => (.error e, d.2)
    | .ok (q', ixs, vals) =>
      if remove then (.ok (q', ixs, vals), d.2)
      else ((restoreT q' (ixs.zip vals)).1.map fun q'' => (q'', ixs, vals), d.2 + (restoreT q' (ixs.zip vals)).2)

end sampling

/-! ## Lemmas: the results are those of C03 -/

theorem writeT_fst (op : Agg V) (key : Int) (value : Option V) (fuel : Nat) : ∀ ixl ixr (node : Node V),
    (writeT op key value fuel ixl ixr node).1 = write op key value fuel ixl ixr node := by
  induction fuel with
  | zero =>
    intro ixl ixr node
    unfold writeT write
    split
    · cases value <;> rfl
    · rfl
  | succ fuel ih =>
    intro ixl ixr node
    unfold writeT write
    split
    · cases value <;> rfl
    · have key' : ∀ nl nr : Node V,
          (if key < (ixl + ixr) / 2 then
            ((writeT op key value fuel ixl ((ixl + ixr) / 2) nl).1.map fun p => (reduce op p.1 nr, p.2), (writeT op key value fuel ixl ((ixl + ixr) / 2) nl).2 + 1)
          else ((writeT op key value fuel ((ixl + ixr) / 2) ixr nr).1.map fun p => (reduce op nl p.1, p.2), (writeT op key value fuel ((ixl + ixr) / 2) ixr nr).2 + 1)).1 =
          if key < (ixl + ixr) / 2 then
            match write op key value fuel ixl ((ixl + ixr) / 2) nl with
            | .error e => .error e
            | .ok (nl', ret) => .ok (reduce op nl' nr, ret)
          else
            match write op key value fuel ((ixl + ixr) / 2) ixr nr with
            | .error e => .error e
            | .ok (nr', ret) => .ok (reduce op nl nr', ret) := by
        intro nl nr
        split
        · simp only [ih]; cases write op key value fuel ixl ((ixl + ixr) / 2) nl <;> rfl
        · simp only [ih]; cases write op key value fuel ((ixl + ixr) / 2) ixr nr <;> rfl
      cases node with
      | leaf v => rfl
      | nil => exact key' .nil .nil
      | branch nl nr v => exact key' nl nr

theorem findT_fst [Zero V] [Sub V] [LT V] [DecidableLT V] (fuel : Nat) : ∀ ixl ixr (node : Node V) (pos : V),
    (findT fuel ixl ixr node pos).1 = find fuel ixl ixr node pos := by
  induction fuel with
  | zero => intro ixl ixr node pos; unfold findT find; split <;> rfl
  | succ fuel ih =>
    intro ixl ixr node pos
    unfold findT find
    split
    · rfl
    · cases node with
      | nil => rfl
      | leaf v => rfl
      | branch nl nr v =>
        simp only
        split
        · exact ih _ _ _ _
        · exact ih _ _ _ _

theorem TQ.writeT_fst (op : Agg V) (q : TQ V) (ix : Int) (val : Option V) : (q.writeT op ix val).1 = q.write op ix val := by
  unfold TQ.writeT TQ.write
  cases q.tree with
  | none => rfl
  | some t =>
    obtain ⟨root, ixl, ixr⟩ := t
    simp only [Tree.writeT_fst]
    cases Tree.write op ix val (depth ixl ixr) ixl ixr root <;> rfl

theorem TQ.setT_fst (op : Agg V) (q : TQ V) (ix : Int) (val : V) : (q.setT op ix val).1 = q.set op ix val := by
  unfold TQ.setT TQ.set
  split
  · simp only [TQ.writeT_fst]
  · rfl

theorem TQ.appendT_fst (op : Agg V) (q : TQ V) (v : V) : (q.appendT op v).1 = q.append op v := by
  unfold TQ.appendT TQ.append TQ.grow
  split
  · rfl
  · cases q.tree with
    | none => rfl
    | some t =>
      obtain ⟨root, ixl, ixr⟩ := t
      simp only
      have fin : ∀ q1 : TQ V, (TQ.pushT op v (.ok q1)).1 = match q1.write op q1.length (some v) with
          | .error e => .error e
          | .ok (q2, ret) => if ret.isSome then .error .assertionError else .ok { q2 with length := q2.length + 1 } := by
        intro q1
        simp only [TQ.pushT, TQ.writeT_fst]
        cases q1.write op q1.length (some v) <;> rfl
      split
      · cases root.val? with
        | none => rfl
        | some w => exact fin _
      · exact fin _

theorem TQ.popleftT_fst (op : Agg V) (q : TQ V) : (q.popleftT op).1 = q.popleft op := by
  unfold TQ.popleftT TQ.popleft
  split
  · rfl
  · simp only [TQ.writeT_fst]
    cases q.write op 0 none with
    | error e => rfl
    | ok p =>
      obtain ⟨q1, ret⟩ := p
      unfold Except.bind TQ.shift
      simp only
      cases q1.tree with
      | none => rfl
      | some t =>
        obtain ⟨root, ixl, ixr⟩ := t
        cases root <;> rfl

theorem TQ.runT_fst (op : Agg V) (ops : List (Op V)) : ∀ q : TQ V, (q.runT op ops).1 = q.run op ops := by
  induction ops with
  | nil => intro q; rfl
  | cons o ops ih =>
    intro q
    cases o with
    | append v =>
      simp only [TQ.runT, TQ.run, TQ.appendT_fst]
      cases q.append op v with
      | error e => rfl
      | ok q' => exact ih q'
    | set i v =>
      simp only [TQ.runT, TQ.run, TQ.setT_fst]
      cases q.set op i v with
      | error e => rfl
      | ok q' => exact ih q'
    | popleft =>
      simp only [TQ.runT, TQ.run, TQ.popleftT_fst]
      cases q.popleft op with
      | error e => rfl
      | ok p =>
        obtain ⟨r, q'⟩ := p
        simp only [ih]
        cases q'.run op ops <;> rfl

section sampling
variable [Zero V] [Add V] [Sub V] [LT V] [DecidableLT V]

omit [Sub V] [LT V] [DecidableLT V] in
theorem restoreT_fst (l : List (Nat × V)) : ∀ q : TQ V, (restoreT q l).1 = restore q l := by
  induction l with
  | nil => intro q; rfl
  | cons x l ih =>
    intro q
    obtain ⟨ix, v⟩ := x
    simp only [restoreT, restore, TQ.writeT_fst]
    cases q.write sumAgg ix (some v) with
    | error e => rfl
    | ok p => exact ih p.1

theorem drawLoopT_fst (rng : Nat → V → V) (n : Nat) : ∀ i (q : TQ V), (drawLoopT rng n i q).1 = drawLoop rng n i q := by
  induction n with
  | zero => intro i q; rfl
  | succ n ih =>
    intro i q
    simp only [drawLoopT, drawLoop]
    cases q.tree with
    | none => rfl
    | some t =>
      obtain ⟨root, ixl, ixr⟩ := t
      simp only
      cases root.val? with
      | none => rfl
      | some total =>
        simp only [findT_fst, TQ.writeT_fst]
        cases find (depth ixl ixr) ixl ixr root (rng i total) with
        | error e => rfl
        | ok ix =>
          simp only
          cases q.write sumAgg ix (some 0) with
          | error e => rfl
          | ok p =>
            obtain ⟨q', o⟩ := p
            cases o with
            | none => rfl
            | some val =>
              simp only [ih]
              cases drawLoop rng n (i + 1) q' <;> rfl

theorem TQ.prioritizedSampleT_fst (rng : Nat → V → V) (i0 : Nat) (q : TQ V) (n : Int) (remove : Bool) :
    (q.prioritizedSampleT rng i0 n remove).1 = q.prioritizedSample rng i0 n remove := by
  unfold TQ.prioritizedSampleT TQ.prioritizedSample
  split
  · rfl
  · simp only [drawLoopT_fst]
    cases drawLoop rng n.toNat i0 q with
    | error e => rfl
    | ok p =>
      obtain ⟨q', ixs, vals⟩ := p
      simp only
      split
      · rfl
      · simp only [restoreT_fst]
        cases restore q' (ixs.zip vals) <;> rfl

end sampling

/-! ## Lemmas: the number of calls -/

theorem mid (l : Int) (h : Nat) : (l + (l + 2 ^ (h + 1))) / 2 = l + 2 ^ h := by
  have : (2 : Int) ^ (h + 1) = 2 * 2 ^ h := by ring
  omega

theorem wide (h : Nat) (l : Int) : ¬ (l + 2 ^ (h + 1) - l = 1) := by
  have : (2 : Int) ^ (h + 1) = 2 * 2 ^ h := by ring
  omega

theorem right (h : Nat) (l : Int) : l + 2 ^ (h + 1) = (l + 2 ^ h) + 2 ^ h := by ring

theorem writeT_cost (op : Agg V) (key : Int) (value : Option V) (h : Nat) : ∀ fuel l (node : Node V),
    (writeT op key value fuel l (l + 2 ^ h) node).2 ≤ h + 1 ∧
      ∀ r, (writeT op key value fuel l (l + 2 ^ h) node).1 = .ok r → (writeT op key value fuel l (l + 2 ^ h) node).2 = h + 1 := by
  induction h with
  | zero =>
    intro fuel l node
    have : l + 2 ^ 0 - l = 1 := by omega
    unfold writeT
    rw [if_pos this]
    cases value <;> exact ⟨le_rfl, fun _ _ => rfl⟩
  | succ h ih =>
    intro fuel l node
    unfold writeT
    rw [if_neg (wide h l)]
    cases fuel with
    | zero => exact ⟨by simp, fun r hr => by cases hr⟩
    | succ fuel =>
      have key' : ∀ nl nr : Node V, ∀ x : Except PyErr (Node V × Option V) × Nat, x =
          (if key < (l + (l + 2 ^ (h + 1))) / 2 then
            ((writeT op key value fuel l ((l + (l + 2 ^ (h + 1))) / 2) nl).1.map fun p => (reduce op p.1 nr, p.2), (writeT op key value fuel l ((l + (l + 2 ^ (h + 1))) / 2) nl).2 + 1)
          else ((writeT op key value fuel ((l + (l + 2 ^ (h + 1))) / 2) (l + 2 ^ (h + 1)) nr).1.map fun p => (reduce op nl p.1, p.2), (writeT op key value fuel ((l + (l + 2 ^ (h + 1))) / 2) (l + 2 ^ (h + 1)) nr).2 + 1)) →
          x.2 ≤ h + 1 + 1 ∧ ∀ r, x.1 = .ok r → x.2 = h + 1 + 1 := by
        intro nl nr x hx
        rw [mid, right] at hx
        split at hx
        · obtain ⟨h1, h2⟩ := ih fuel l nl
          subst hx
          refine ⟨by simpa using h1, ?_⟩
          intro r hr
          cases hw : (writeT op key value fuel l (l + 2 ^ h) nl).1 with
          | error e => simp only [hw] at hr; cases hr
          | ok p => simpa using h2 p hw
        · obtain ⟨h1, h2⟩ := ih fuel (l + 2 ^ h) nr
          subst hx
          refine ⟨by simpa using h1, ?_⟩
          intro r hr
          cases hw : (writeT op key value fuel (l + 2 ^ h) (l + 2 ^ h + 2 ^ h) nr).1 with
          | error e => simp only [hw] at hr; cases hr
          | ok p => simpa using h2 p hw
      cases node with
      | leaf v => exact ⟨by simp, fun r hr => by cases hr⟩
      | nil => exact key' .nil .nil _ rfl
      | branch nl nr v => exact key' nl nr _ rfl

theorem findT_cost [Zero V] [Sub V] [LT V] [DecidableLT V] (h : Nat) : ∀ fuel l (node : Node V) (pos : V),
    (findT fuel l (l + 2 ^ h) node pos).2 ≤ h + 1 := by
  induction h with
  | zero =>
    intro fuel l node pos
    have : l + 2 ^ 0 - l = 1 := by omega
    unfold findT
    rw [if_pos this]
  | succ h ih =>
    intro fuel l node pos
    unfold findT
    rw [if_neg (wide h l)]
    cases fuel with
    | zero => simp
    | succ fuel =>
      cases node with
      | nil => simp
      | leaf v => simp
      | branch nl nr v =>
        simp only [mid]
        split
        · simpa using ih fuel l nl pos
        · have := ih fuel (l + 2 ^ h) nr (pos - nl.val?.getD 0)
          rw [right]
          simpa using this

/-- The window of the tree is `2 ^ h` wide. -/
def Width (h : Nat) (q : TQ V) : Prop := ∀ root ixl ixr, q.tree = some (root, ixl, ixr) → ixr = ixl + 2 ^ h

theorem TQ.writeT_cost {h : Nat} {op : Agg V} {q : TQ V} (hw : Width h q) (i : Int) (v : Option V) :
    (q.writeT op i v).2 ≤ h + 1 ∧ ∀ r, q.write op i v = .ok r → (q.writeT op i v).2 = h + 1 := by
  rw [← TQ.writeT_fst]
  unfold TQ.writeT
  cases hq : q.tree with
  | none => exact ⟨by simp, fun r hr => by cases hr⟩
  | some t =>
    obtain ⟨root, ixl, ixr⟩ := t
    have := hw _ _ _ hq
    subst this
    obtain ⟨h1, h2⟩ := Tree.writeT_cost op i v h (depth ixl (ixl + 2 ^ h)) ixl root
    refine ⟨h1, ?_⟩
    intro r hr
    cases hx : (Tree.writeT op i v (depth ixl (ixl + 2 ^ h)) ixl (ixl + 2 ^ h) root).1 with
    | error e => simp only [hx] at hr; cases hr
    | ok p => exact h2 p hx

theorem Width.write {h : Nat} {op : Agg V} {q q' : TQ V} {i : Int} {v r : Option V} (hw : Width h q) (hq : q.write op i v = .ok (q', r)) :
    Width h q' := by
  obtain ⟨root, root', ixl, ixr, h1, h2, _⟩ := write_tree hq
  intro a b c hc
  rw [h2] at hc
  cases hc
  exact hw _ _ _ h1

theorem sim_width {op : Agg V} {L : Nat} {q : TQ V} {xs : List V} (hs : Sim op q xs) (hn : Narrow L q) : ∃ h ≤ Nat.log 2 L + 2, Width h q := by
  obtain ⟨_, ht⟩ := hs
  cases hq : q.tree with
  | none => exact ⟨0, by omega, fun a b c hc => by rw [hq] at hc; cases hc⟩
  | some t =>
    obtain ⟨root, ixl, ixr⟩ := t
    rw [hq] at ht
    obtain ⟨_, h, k, h1, h2, _⟩ := ht
    refine ⟨h, height_le ?_, ?_⟩
    · have := hn _ _ _ hq
      rw [h1, h2] at this
      linarith
    · intro a b c hc
      rw [hq] at hc
      cases hc
      rw [h1, h2]

theorem setT_cost {op : Agg V} {h : Nat} {q : TQ V} (hw : Width h q) (i : Int) (v : V) : (q.setT op i v).2 ≤ h + 1 := by
  unfold TQ.setT
  split
  · exact (TQ.writeT_cost hw _ _).1
  · simp

theorem popleftT_cost {op : Agg V} {h : Nat} {q : TQ V} (hw : Width h q) : (q.popleftT op).2 ≤ h + 1 := by
  unfold TQ.popleftT
  split
  · simp
  · exact (TQ.writeT_cost hw _ _).1

/-- The part of the state that the number of calls depends on. -/
def TQ.bounds (q : TQ V) : Option (Int × Int) := q.tree.map (·.2)

theorem write_bounds {op : Agg V} {q q' : TQ V} {i : Int} {v r : Option V} (h : q.write op i v = .ok (q', r)) :
    q'.bounds = q.bounds ∧ q'.length = q.length := by
  obtain ⟨root, root', ixl, ixr, h1, h2, h3⟩ := write_tree h
  exact ⟨by simp [TQ.bounds, h1, h2], h3⟩

theorem width_bounds {h : Nat} {q q' : TQ V} (hb : q'.bounds = q.bounds) (hw : Width h q) : Width h q' := by
  intro root ixl ixr hq
  simp only [TQ.bounds, hq, Option.map_some] at hb
  cases ht : q.tree with
  | none => rw [ht] at hb; cases hb
  | some t =>
    obtain ⟨a, b, c⟩ := t
    rw [ht] at hb
    simp only [Option.map_some, Option.some.injEq, Prod.mk.injEq] at hb
    have := hw _ _ _ ht
    omega

theorem appendT_cost {op : Agg V} {h : Nat} {q q' : TQ V} {v : V} (hq : q.append op v = .ok q') (hw : Width h q') : (q.appendT op v).2 ≤ h + 1 := by
  rw [← TQ.appendT_fst] at hq
  unfold TQ.appendT at hq ⊢
  split
  · simp
  · rename_i hl
    rw [if_neg hl] at hq
    cases hg : q.grow with
    | error e => simp [TQ.pushT]
    | ok q1 =>
      rw [hg] at hq
      simp only [TQ.pushT, TQ.writeT_fst] at hq ⊢
      cases hx : q1.write op q1.length (some v) with
      | error e => rw [hx] at hq; cases hq
      | ok p =>
        obtain ⟨q2, ret⟩ := p
        rw [hx] at hq
        simp only [Except.bind] at hq
        split at hq
        · cases hq
        · cases hq
          have h2 : Width h q2 := hw
          exact (TQ.writeT_cost (width_bounds (write_bounds hx).1.symm h2) _ _).1

theorem runT_cost {op : Agg V} (L : Nat) (ops : List (Op V)) : ∀ {q : TQ V} {xs : List V}, Sim op q xs → Narrow L q →
    Spec.longest xs.length ops ≤ L → ∀ c ∈ (q.runT op ops).2, c ≤ Nat.log 2 L + 3 := by
  induction ops with
  | nil => intro q xs _ _ _ c hc; cases hc
  | cons o ops ih =>
    intro q xs hs hn hl c hc
    obtain ⟨h, hh, hw⟩ := sim_width hs hn
    cases o with
    | append v =>
      obtain ⟨q1, h1, h2⟩ := append_sim hs v
      simp only [Spec.longest] at hl
      have hn1 := hn.append hs ((le_longest ops _).trans hl) h1
      obtain ⟨h', hh', hw'⟩ := sim_width h2 hn1
      have hc1 := appendT_cost h1 hw'
      simp only [TQ.runT, TQ.appendT_fst, h1] at hc
      rcases List.mem_cons.1 hc with rfl | hc
      · omega
      · exact ih h2 hn1 (by simpa using hl) c hc
    | set i v =>
      have hc1 := setT_cost (op := op) hw i v
      simp only [TQ.runT, TQ.setT_fst] at hc
      by_cases hi : 0 ≤ i ∧ i < xs.length
      · obtain ⟨q1, h1, h2⟩ := (set_sim hs i v).1 hi
        rw [h1] at hc
        rcases List.mem_cons.1 hc with rfl | hc
        · omega
        · exact ih h2 (hn.set h1) (by simpa [Spec.longest] using hl) c hc
      · rw [(set_sim hs i v).2 hi] at hc
        rw [List.mem_singleton.1 hc]
        omega
    | popleft =>
      have hc1 := popleftT_cost (op := op) hw
      simp only [TQ.runT, TQ.popleftT_fst] at hc
      cases xs with
      | nil =>
        rw [popleft_empty hs] at hc
        rw [List.mem_singleton.1 hc]
        omega
      | cons x xs =>
        obtain ⟨q1, h1, h2⟩ := popleft_sim hs
        rw [h1] at hc
        simp only [Spec.longest, List.length_cons, Nat.add_sub_cancel] at hl
        rcases List.mem_cons.1 hc with rfl | hc
        · omega
        · exact ih h2 (hn.popleft h1) ((le_max_right _ _).trans hl) c hc

theorem new_narrow (L : Nat) : Narrow L (TQ.new : TQ V) := fun a b c h => by cases h

section sampling
variable [Zero V] [Add V] [Sub V] [LT V] [DecidableLT V]

omit [Sub V] [LT V] [DecidableLT V] in
theorem restoreT_cost {h : Nat} (l : List (Nat × V)) : ∀ {q : TQ V}, Width h q → (restoreT q l).2 ≤ l.length * (h + 1) := by
  induction l with
  | nil => intro q _; simp [restoreT]
  | cons x l ih =>
    intro q hw
    obtain ⟨ix, v⟩ := x
    have h1 := (TQ.writeT_cost (op := sumAgg) hw ix (some v)).1
    simp only [restoreT, TQ.writeT_fst, List.length_cons, Nat.succ_mul]
    cases hq : q.write sumAgg ix (some v) with
    | error e => simp only; omega
    | ok p =>
      obtain ⟨q', r⟩ := p
      have h2 := ih (hw.write hq)
      simp only
      omega

theorem drawLoopT_cost {h : Nat} (rng : Nat → V → V) (n : Nat) : ∀ i {q : TQ V}, Width h q → (drawLoopT rng n i q).2 ≤ n * (2 * (h + 1)) ∧
    ∀ q' is vs, (drawLoopT rng n i q).1 = .ok (q', is, vs) → Width h q' ∧ is.length = n ∧ vs.length = n := by
  induction n with
  | zero =>
    intro i q hw
    refine ⟨by simp [drawLoopT], fun q' is vs hr => ?_⟩
    cases hr
    exact ⟨hw, rfl, rfl⟩
  | succ n ih =>
    intro i q hw
    have e : (n + 1) * (2 * (h + 1)) = n * (2 * (h + 1)) + 2 * (h + 1) := by ring
    simp only [drawLoopT]
    rw [e]
    cases hq : q.tree with
    | none => exact ⟨by simp, fun q' is vs hr => by cases hr⟩
    | some t =>
      obtain ⟨root, ixl, ixr⟩ := t
      simp only
      cases root.val? with
      | none => exact ⟨by simp, fun q' is vs hr => by cases hr⟩
      | some total =>
        have hb := hw _ _ _ hq
        subst hb
        have hf := findT_cost h (depth ixl (ixl + 2 ^ h)) ixl root (rng i total)
        simp only
        cases hx : (findT (depth ixl (ixl + 2 ^ h)) ixl (ixl + 2 ^ h) root (rng i total)).1 with
        | error e => exact ⟨by simp only; omega, fun q' is vs hr => by cases hr⟩
        | ok ix =>
          have hg := (TQ.writeT_cost (op := sumAgg) hw ix (some 0)).1
          simp only [TQ.writeT_fst]
          cases hy : q.write sumAgg ix (some 0) with
          | error e => exact ⟨by simp only; omega, fun q' is vs hr => by cases hr⟩
          | ok p =>
            obtain ⟨q1, o⟩ := p
            cases o with
            | none => exact ⟨by simp only; omega, fun q' is vs hr => by cases hr⟩
            | some val =>
              obtain ⟨h1, h2⟩ := ih (i + 1) (hw.write hy)
              refine ⟨by simp only; omega, fun q' is vs hr => ?_⟩
              simp only at hr
              cases hz : (drawLoopT rng n (i + 1) q1).1 with
              | error e => rw [hz] at hr; cases hr
              | ok p =>
                obtain ⟨q2, is', vs'⟩ := p
                rw [hz] at hr
                cases hr
                obtain ⟨a, b, c⟩ := h2 _ _ _ hz
                exact ⟨a, by simp [b], by simp [c]⟩

end sampling

/-! ## C139: the trees -/

/-- **C139 (trees, partial).** Whatever the aggregator and the history: each call of `append`, `popleft` or `q[i] = v` makes at most
`log2 L + 3` recursive calls, where `L` is the largest number of values the queue has held so far or afterwards, and the results are those of the
queue of C03.

What is missing: O(log n) in the number of values held at the time of the call (`tree_update_not_log`). -/
theorem tree_calls_partial (op : Agg V) (ops : List (Op V)) :
    (TQ.new.runT op ops).1 = TQ.new.run op ops ∧ ∀ c ∈ (TQ.new.runT op ops).2, c ≤ Nat.log 2 (Spec.longest 0 ops) + 3 :=
  ⟨TQ.runT_fst op ops _, runT_cost _ ops (new_sim op) (new_narrow _) le_rfl⟩

/-- **C139 (sampling).** On a queue with any history, `prioritized_sample(n, remove)` makes at most `3 * n * (log2 L + 3)` recursive calls,
whatever the random numbers and whether or not it succeeds. -/
theorem prioritized_sample_calls [Zero V] [Add V] [Sub V] [LT V] [DecidableLT V] (ops : List (Op V)) {q : TQ V} {popped : List (Option V)}
    (hrun : TQ.new.run sumAgg ops = .ok (q, popped)) (rng : Nat → V → V) (t : Nat) (n : Nat) (remove : Bool) :
    (q.prioritizedSampleT rng t n remove).1 = q.prioritizedSample rng t n remove ∧
      (q.prioritizedSampleT rng t n remove).2 ≤ 3 * n * (Nat.log 2 (Spec.longest 0 ops) + 3) := by
  refine ⟨TQ.prioritizedSampleT_fst rng t q n remove, ?_⟩
  have hn := run_narrow _ ops (new_sim (sumAgg : Agg V)) (new_narrow _) le_rfl hrun
  have hsim := run_sim ops (new_sim (sumAgg : Agg V))
  obtain ⟨xs, hs⟩ : ∃ xs, Sim sumAgg q xs := by
    cases hr : Spec.run [] ops with
    | none => rw [hr] at hsim; rw [hsim] at hrun; cases hrun
    | some p =>
      rw [hr] at hsim
      obtain ⟨q', h1, h2⟩ := hsim
      rw [h1] at hrun
      cases hrun
      exact ⟨_, h2⟩
  obtain ⟨h, hh, hw⟩ := sim_width hs hn
  have hle : h + 1 ≤ Nat.log 2 (Spec.longest 0 ops) + 3 := by simp only [List.length_nil] at hh; omega
  refine le_trans ?_ (Nat.mul_le_mul_left _ hle)
  obtain ⟨h1, h2⟩ := drawLoopT_cost rng n t hw
  have h3 : 3 * n * (h + 1) = n * (2 * (h + 1)) + n * (h + 1) := by ring
  unfold TQ.prioritizedSampleT
  rw [if_neg (by omega)]
  simp only [Int.toNat_natCast]
  cases hx : (drawLoopT rng n t q).1 with
  | error e => simp only; omega
  | ok p =>
    obtain ⟨q', is, vs⟩ := p
    obtain ⟨hw', hi, hv⟩ := h2 _ _ _ hx
    simp only
    split
    · simp only; omega
    · have := restoreT_cost (is.zip vs) hw'
      rw [List.length_zip, hi, hv, Nat.min_self] at this
      simp only
      omega

/-! ## Limits -/

theorem append_bounds {op : Agg V} {q q' : TQ V} {v : V} (h : q.append op v = .ok q') (hl : q.length ≠ 0) {l r : Int} (hb : q.bounds = some (l, r)) :
    q'.bounds = some (l, if r = q.length then r + (r - l) else r) := by
  rw [← TQ.appendT_fst] at h
  unfold TQ.appendT at h
  rw [if_neg hl] at h
  have hg : ∀ q1, q.grow = .ok q1 → q1.bounds = some (l, if r = q.length then r + (r - l) else r) := by
    intro q1 h1
    unfold TQ.grow at h1
    cases ht : q.tree with
    | none => rw [ht] at h1; cases h1
    | some t =>
      obtain ⟨root, ixl, ixr⟩ := t
      rw [ht] at h1
      simp only [TQ.bounds, ht, Option.map_some, Option.some.injEq, Prod.mk.injEq] at hb
      obtain ⟨rfl, rfl⟩ := hb
      simp only at h1
      split at h1
      · rename_i hc
        rw [if_pos hc]
        cases hv : root.val? with
        | none => rw [hv] at h1; cases h1
        | some w => rw [hv] at h1; cases h1; rfl
      · rename_i hc
        cases h1
        rw [if_neg hc]
        simp [TQ.bounds, ht]
  cases hq : q.grow with
  | error e => rw [hq] at h; cases h
  | ok q1 =>
    rw [hq] at h
    simp only [TQ.pushT, TQ.writeT_fst] at h
    cases hx : q1.write op q1.length (some v) with
    | error e => rw [hx] at h; cases h
    | ok p =>
      obtain ⟨q2, ret⟩ := p
      rw [hx] at h
      simp only [Except.bind] at h
      split at h
      · cases h
      · cases h
        have h2 : q2.bounds = _ := (write_bounds hx).1.trans (hg q1 hq)
        exact h2

theorem popleft_bounds {op : Agg V} {q q' : TQ V} {o : Option V} (h : q.popleft op = .ok (o, q')) (hl : 2 ≤ q.length) {l r : Int}
    (hb : q.bounds = some (l, r)) : q'.bounds = some (if (l - 1 + (r - 1)) / 2 = 0 then 0 else l - 1, r - 1) := by
  rw [← TQ.popleftT_fst] at h
  unfold TQ.popleftT at h
  rw [if_neg (by omega)] at h
  simp only [TQ.writeT_fst] at h
  cases hx : q.write op 0 none with
  | error e => rw [hx] at h; cases h
  | ok p =>
    obtain ⟨q1, ret⟩ := p
    rw [hx] at h
    obtain ⟨h1, h2⟩ := write_bounds hx
    rw [hb] at h1
    simp only [Except.bind, TQ.shift] at h
    cases ht : q1.tree with
    | none => rw [ht] at h; cases h
    | some t =>
      obtain ⟨root, ixl, ixr⟩ := t
      rw [ht] at h
      simp only [TQ.bounds, ht, Option.map_some, Option.some.injEq, Prod.mk.injEq] at h1
      obtain ⟨rfl, rfl⟩ := h1
      simp only at h
      rw [if_neg (by omega)] at h
      split at h
      · rename_i hc
        rw [if_pos hc]
        cases root with
        | nil => cases h
        | leaf _ => cases h
        | branch nl nr v => cases h; simp [TQ.bounds, hc]
      · rename_i hc
        rw [if_neg hc]
        cases h
        rfl

theorem appends {op : Agg V} (v : V) (rest : List (Op V)) (m : Nat) : ∀ {n : Nat} {q : TQ V}, Sim op q (List.replicate (n + 1) v) →
    (∃ k : Nat, q.bounds = some (0, 2 ^ k) ∧ n + 1 ≤ 2 ^ k ∧ 2 ^ k < 2 * (n + 1)) →
    ∃ (q' : TQ V) (k : Nat), q.run op (List.replicate m (.append v) ++ rest) = q'.run op rest ∧ Sim op q' (List.replicate (n + m + 1) v) ∧
      q'.bounds = some (0, 2 ^ k) ∧ n + m + 1 ≤ 2 ^ k ∧ 2 ^ k < 2 * (n + m + 1) := by
  induction m with
  | zero => intro n q hs ⟨k, h1, h2, h3⟩; exact ⟨q, k, rfl, hs, h1, h2, h3⟩
  | succ m ih =>
    intro n q hs ⟨k, h1, h2, h3⟩
    have hlen : q.length = n + 1 := by rw [hs.1]; simp
    obtain ⟨q1, h4, h5⟩ := append_sim hs v
    rw [← List.replicate_succ'] at h5
    have h6 := append_bounds h4 (by omega) h1
    have : ∃ k : Nat, q1.bounds = some (0, 2 ^ k) ∧ n + 1 + 1 ≤ 2 ^ k ∧ 2 ^ k < 2 * (n + 1 + 1) := by
      by_cases hc : (2 : Int) ^ k = q.length
      · rw [if_pos hc] at h6
        have hc' : 2 ^ k = n + 1 := by rw [hlen] at hc; exact_mod_cast hc
        refine ⟨k + 1, ?_, ?_, ?_⟩
        · rw [h6, pow_succ]; congr 2; ring
        · rw [pow_succ]; omega
        · rw [pow_succ]; omega
      · rw [if_neg hc] at h6
        have hc' : 2 ^ k ≠ n + 1 := by rw [hlen] at hc; exact_mod_cast hc
        exact ⟨k, h6, by omega, by omega⟩
    obtain ⟨q', k', e1, e2, e3, e4, e5⟩ := ih h5 this
    refine ⟨q', k', ?_, ?_, e3, by omega, by omega⟩
    · rw [List.replicate_succ, List.cons_append, TQ.run, h4]
      exact e1
    · rw [show n + (m + 1) + 1 = n + 1 + m + 1 by omega]; exact e2

theorem pops {op : Agg V} (v : V) (k : Nat) (j : Nat) : ∀ {a : Nat} {q : TQ V}, Sim op q (List.replicate (j + 2) v) →
    q.bounds = some (-(a : Int), 2 ^ (k + 1) - (a : Int)) → a + j + 1 = 2 ^ k →
    ∃ (q' : TQ V) (r : List (Option V)), q.run op (List.replicate (j + 1) .popleft) = .ok (q', r) ∧ Sim op q' [v] ∧ q'.bounds = some (0, 2 ^ k) := by
  induction j with
  | zero =>
    intro a q hs hb ha
    have hlen : q.length = 2 := by rw [hs.1]; simp
    obtain ⟨q1, h1, h2⟩ := popleft_sim hs
    have h3 := popleft_bounds h1 (by omega) hb
    have ha' : (a : Int) + 1 = 2 ^ k := by exact_mod_cast ha
    have hp : (2 : Int) ^ (k + 1) = 2 * 2 ^ k := by ring
    rw [if_pos (by omega)] at h3
    refine ⟨q1, _, by simp only [List.replicate_succ, List.replicate_zero, TQ.run, h1]; rfl, h2, ?_⟩
    rw [h3]
    congr 2
    omega
  | succ j ih =>
    intro a q hs hb ha
    have hlen : q.length = j + 3 := by rw [hs.1]; simp
    obtain ⟨q1, h1, h2⟩ := popleft_sim hs
    have h3 := popleft_bounds h1 (by omega) hb
    have ha' : (a : Int) + j + 2 = 2 ^ k := by have : a + j + 2 = 2 ^ k := by omega
                                               exact_mod_cast this
    have hp : (2 : Int) ^ (k + 1) = 2 * 2 ^ k := by ring
    rw [if_neg (by omega)] at h3
    obtain ⟨q', r, e1, e2, e3⟩ := ih (a := a + 1) (q := q1) h2 (by rw [h3]; congr 2 <;> push_cast <;> ring) (by omega)
    exact ⟨q', some v :: r, by rw [List.replicate_succ, TQ.run, h1]; simp only [e1], e2, e3⟩

/-- The promised O(log n) fails for the current size `n`: the window of the tree does not shrink with the queue.  After `2 ^ k + 1` appends and
`2 ^ k` pops the queue holds one value, and overwriting it makes `k + 1` recursive calls. -/
theorem tree_update_not_log (op : Agg V) (v w : V) (k : Nat) :
    ∃ q q' popped, TQ.new.run op (List.replicate (2 ^ k + 1) (.append v) ++ List.replicate (2 ^ k) .popleft) = .ok (q, popped) ∧ q.length = 1 ∧
      q.setT op 0 w = (.ok q', k + 1) := by
  obtain ⟨q1, h1, h2⟩ := append_sim (new_sim op) v
  have hb : q1.bounds = some (0, 2 ^ 0) := by cases h1; rfl
  obtain ⟨q2, k2, e1, e2, e3, e4, e5⟩ := appends v (List.replicate (2 ^ k) .popleft) (2 ^ k) (n := 0) (q := q1) h2 ⟨0, hb, by simp, by simp⟩
  have hk : k2 = k + 1 := by
    have h6 : 2 ^ k < 2 ^ k2 := by omega
    have h7 := (Nat.pow_lt_pow_iff_right (a := 2) (by norm_num)).1 h6
    have h8 : 2 ^ k2 < 2 ^ (k + 2) := by have : 2 ^ (k + 2) = 4 * 2 ^ k := by ring
                                         have := Nat.one_le_two_pow (n := k)
                                         omega
    have h9 := (Nat.pow_lt_pow_iff_right (a := 2) (by norm_num)).1 h8
    omega
  subst hk
  obtain ⟨j, hj⟩ : ∃ j, 2 ^ k = j + 1 := ⟨2 ^ k - 1, by have := Nat.one_le_two_pow (n := k); omega⟩
  have e2' : Sim op q2 (List.replicate (j + 2) v) := by rw [show j + 2 = 0 + 2 ^ k + 1 by omega]; exact e2
  obtain ⟨q3, r, f1, f2, f3⟩ := pops v k j (a := 0) e2' (by rw [e3]; simp) (by omega)
  obtain ⟨q4, g1, _⟩ := (set_sim f2 0 w).1 ⟨le_rfl, by simp⟩
  refine ⟨q3, q4, r, ?_, by rw [f2.1]; rfl, ?_⟩
  · rw [List.replicate_succ, List.cons_append, TQ.run, h1]
    simp only
    rw [e1, hj]
    exact f1
  · rw [← TQ.setT_fst] at g1
    refine Prod.ext g1 ?_
    have hw : Width k q3 := by
      intro root ixl ixr hq
      simp only [TQ.bounds, hq, Option.map_some, Option.some.injEq, Prod.mk.injEq] at f3
      rw [f3.1, f3.2]
      ring
    have hl : q3.length = 1 := by rw [f2.1]; rfl
    unfold TQ.setT at g1 ⊢
    rw [if_pos (by omega)] at g1 ⊢
    simp only [TQ.writeT_fst] at g1
    cases hx : q3.write op 0 (some w) with
    | error e => rw [hx] at g1; cases g1
    | ok p => exact (TQ.writeT_cost hw _ _).2 p hx

/-! ## Non-vacuity -/

/-- Each call of a history with all kinds of calls, the numbers of recursive calls, and the largest size. -/
example : (TQ.new.runT sumAgg [.append 3, .append 1, .append 4, .append 1, .append 5, .popleft, .set 0 2, .popleft, .set (-1) 0] : _ × List Nat).2 =
    [0, 2, 3, 3, 4, 4, 4, 4, 0] ∧
    Spec.longest 0 ([.append 3, .append 1, .append 4, .append 1, .append 5, .popleft, .set 0 2, .popleft, .set (-1) 0] : List (Op Int)) = 5 := by decide

/-- A draw of two priorities out of three: each takes three calls of `_find` and three of `_write`, and three more to restore. -/
example : ∃ q : TQ Int, TQ.new.run sumAgg [.append 3, .append 1, .append 4] = .ok (q, []) ∧
    (q.prioritizedSampleT (fun _ hi => hi - 1) 0 2 false) = (.ok (q, [2, 1], [4, 1]), 18) := ⟨⟨3, some (.branch (.branch (.leaf 3) (.leaf 1) 4) (.branch (.leaf 4) .nil 4) 8, 0, 4)⟩, by rfl, by rfl⟩

end Pfrl.Tree
