import Verif.Queue.Model

/-!
# Model of `pfrl/utils/random.py: sample_n_k` and `RandomAccessQueue.sample`

Randomness is explicit: `s : Nat → Nat` is the stream of values produced by the successive
`np.random.choice(n, ·)` draws (with replacement), in order; `perm` is the value returned by
`np.random.choice(n, k, replace=False)`.
-/

namespace Pfrl.Sample

/-- `np.random.choice(n, len)` when `pos` values of the stream have been consumed. -/
def draws (s : Nat → Nat) (pos len : Nat) : List Nat := (List.range len).map fun i => s (pos + i)

/-- Local variables of the rejection branch, `pfrl/utils/random.py:14-17`: the array `result`,
the set `selected`, the index `j`, plus the number `pos` of stream values consumed so far. -/
structure St where
  result : List Nat
  selected : List Nat
  j : Nat
  pos : Nat
  deriving Repr, DecidableEq

/-- The inner loop `while x in selected`, `pfrl/utils/random.py:20-26`, at outer index `i`, with
current value `x`; `fuel` bounds the iterations. Returns the final `x` and the new locals. -/
def resolve (s : Nat → Nat) (k i : Nat) : Nat → St → Nat → Except PyErr (St × Nat)
  | fuel, st, x =>
    if x ∈ st.selected then
      match fuel with
      | 0 => .error .timeout
      | fuel + 1 =>
        match st.result[st.j]? with
        | none => .error .indexError
        | some x' =>
          let st1 := { st with result := st.result.set i x', j := st.j + 1 }
          let st2 :=
            if st1.j = 2 * k then
              { st1 with result := st1.result.take k ++ draws s st1.pos k, j := k,
                         pos := st1.pos + k }
            else st1
          resolve s k i fuel st2 x'
    else .ok (st, x)

/-- The outer loop `for i in range(k)`, `pfrl/utils/random.py:18-27`; the last argument is the
list of indices still to be visited. -/
def fill (s : Nat → Nat) (k fuel : Nat) : St → List Nat → Except PyErr St
  | st, [] => .ok st
  | st, i :: is =>
    match st.result[i]? with
    | none => .error .indexError
    | some x =>
      match resolve s k i fuel st x with
      | .error e => .error e
      | .ok (st', x') => fill s k fuel { st' with selected := x' :: st'.selected } is

/-- `sample_n_k(n, k)`, `pfrl/utils/random.py:4-28`. -/
def sampleNK (perm : List Nat) (s : Nat → Nat) (fuel : Nat) (n k : Int) :
    Except PyErr (List Nat) :=
  if ¬ (0 ≤ k ∧ k ≤ n) then .error .valueError
  else if k = 0 then .ok []
  else if 3 * k ≥ n then .ok perm
  else
    let k := k.toNat
    let st : St := { result := draws s 0 (2 * k), selected := [], j := k, pos := 2 * k }
    (fill s k fuel st (List.range k)).map fun st => st.result.take k

/-- `RandomAccessQueue.sample`, `pfrl/collections/random_access_queue.py:100-101`. -/
def raqSample {α : Type _} (perm : List Nat) (s : Nat → Nat) (fuel : Nat) (q : Queue.RAQ α)
    (k : Int) : Except PyErr (List α) :=
  match sampleNK perm s fuel q.len k with
  | .error e => .error e
  | .ok ixs => ixs.mapM fun (i : Nat) => q.get i

end Pfrl.Sample
