import Verif.Basic

/-!
# Model of `pfrl/collections/random_access_queue.py`

The queue keeps two Python lists: `_queue_front` (stored in reverse order, its *end* is the
oldest item) and `_queue_back`.
-/

namespace Pfrl.Queue

/-- `RandomAccessQueue` instance state.
Models `pfrl/collections/random_access_queue.py:13-18` (attributes `maxlen`, `_queue_front`,
`_queue_back`). -/
structure RAQ (α : Type _) where
  maxlen : Option Int
  front : List α
  back : List α
  deriving DecidableEq, Repr

variable {α : Type _}

/-- `__len__`, `random_access_queue.py:31-32`. -/
def RAQ.len (q : RAQ α) : Nat := q.front.length + q.back.length

/-- `__iter__`, `random_access_queue.py:25-26`. -/
def RAQ.iter (q : RAQ α) : List α := q.front.reverse ++ q.back

/-- `popleft`, `random_access_queue.py:89-98`.  `_queue_front.pop()` removes the last element of
the Python list. -/
def RAQ.popleft (q : RAQ α) : Except PyErr (α × RAQ α) :=
  if q.front = [] ∧ q.back = [] then .error .indexError
  else
    let fb := if q.front.isEmpty then (q.back.reverse, []) else (q.front, q.back)
    match fb.1.getLast? with
    | none => .error .indexError
    | some x => .ok (x, { q with front := fb.1.dropLast, back := fb.2 })

/-- The loop of `_apply_maxlen`, `random_access_queue.py:22-23`:
`while len(self) > self.maxlen: self.popleft()`.  The first argument bounds the number of
iterations; `timeout` when it is used up (never reached with the bound used below, see
`RAQ.trim_spec`). -/
def RAQ.trim (m : Int) : Nat → RAQ α → Except PyErr (RAQ α)
  | 0, q => if (q.len : Int) > m then .error .timeout else .ok q
  | fuel + 1, q =>
    if (q.len : Int) > m then
      match q.popleft with
      | .error e => .error e
      | .ok (_, q') => RAQ.trim m fuel q'
    else .ok q

/-- `_apply_maxlen`, `random_access_queue.py:20-23`. -/
def RAQ.applyMaxlen (q : RAQ α) : Except PyErr (RAQ α) :=
  match q.maxlen with
  | none => .ok q
  | some m => q.trim m q.len

/-- `__init__`, `random_access_queue.py:13-18`; `init` is the iterable argument. -/
def RAQ.new (maxlen : Option Int) (init : List α) : Except PyErr (RAQ α) :=
  match maxlen with
  | some m => if m < 0 then .error .assertionError
              else RAQ.applyMaxlen { maxlen := some m, front := [], back := init }
  | none => RAQ.applyMaxlen { maxlen := none, front := [], back := init }

/-- `__getitem__`, `random_access_queue.py:34-55`. -/
def RAQ.get (q : RAQ α) (i : Int) : Except PyErr α :=
  if i ≥ 0 then
    let nf : Int := q.front.length
    if i < nf then pyGet q.front (pyInvert i)
    else
      let i := i - nf
      if i < q.back.length then pyGet q.back i else .error .indexError
  else
    let nb : Int := q.back.length
    if i ≥ -nb then pyGet q.back i
    else
      let i := i + nb
      if i ≥ -(q.front.length : Int) then pyGet q.front (pyInvert i) else .error .indexError

/-- `__setitem__`, `random_access_queue.py:57-78`. -/
def RAQ.set (q : RAQ α) (i : Int) (x : α) : Except PyErr (RAQ α) :=
  if i ≥ 0 then
    let nf : Int := q.front.length
    if i < nf then (pySet q.front (pyInvert i) x).map fun f => { q with front := f }
    else
      let i := i - nf
      if i < q.back.length then (pySet q.back i x).map fun b => { q with back := b }
      else .error .indexError
  else
    let nb : Int := q.back.length
    if i ≥ -nb then (pySet q.back i x).map fun b => { q with back := b }
    else
      let i := i + nb
      if i ≥ -(q.front.length : Int) then
        (pySet q.front (pyInvert i) x).map fun f => { q with front := f }
      else .error .indexError

/-- `append`, `random_access_queue.py:80-83`. -/
def RAQ.append (q : RAQ α) (x : α) : Except PyErr (RAQ α) :=
  let q := { q with back := q.back ++ [x] }
  match q.maxlen with
  | none => .ok q
  | some m =>
    if (q.len : Int) > m then q.popleft.map (·.2) else .ok q

/-- `extend`, `random_access_queue.py:85-87`. -/
def RAQ.extend (q : RAQ α) (xs : List α) : Except PyErr (RAQ α) :=
  RAQ.applyMaxlen { q with back := q.back ++ xs }

/-- One call of the public API. -/
inductive Op (α : Type _) where
  | append (x : α)
  | extend (xs : List α)
  | popleft
  | get (i : Int)
  | set (i : Int) (x : α)
  | len
  | iter
  deriving Repr

/-- What the caller observes from one call: a value, nothing, or an exception. -/
inductive Res (α : Type _) where
  | unit
  | item (x : α)
  | nat (n : Nat)
  | items (l : List α)
  | raised (e : PyErr)
  deriving DecidableEq, Repr

/-- Execute one call on the queue object.  When an exception is raised the object keeps the
state it had (none of the modelled methods mutates before raising on these paths). -/
def RAQ.step (q : RAQ α) : Op α → Res α × RAQ α
  | .append x => match q.append x with | .ok q' => (.unit, q') | .error e => (.raised e, q)
  | .extend xs => match q.extend xs with | .ok q' => (.unit, q') | .error e => (.raised e, q)
  | .popleft => match q.popleft with | .ok (x, q') => (.item x, q') | .error e => (.raised e, q)
  | .get i => match q.get i with | .ok x => (.item x, q) | .error e => (.raised e, q)
  | .set i x => match q.set i x with | .ok q' => (.unit, q') | .error e => (.raised e, q)
  | .len => (.nat q.len, q)
  | .iter => (.items q.iter, q)

/-- Execute a whole history of calls, collecting the observations. -/
def RAQ.run (q : RAQ α) : List (Op α) → List (Res α) × RAQ α
  | [] => ([], q)
  | op :: ops =>
    let r := q.step op
    let rest := RAQ.run r.2 ops
    (r.1 :: rest.1, rest.2)

end Pfrl.Queue
