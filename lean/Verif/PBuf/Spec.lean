import Verif.PBuf.Model
import Verif.Tree.Spec
import Verif.Sample.Props

/-!
# Specification of a prioritized buffer

The abstract state is a list of items, oldest first, each paired with its current priority.
-/

namespace Pfrl.PBuf.Spec
variable {T V : Type _} [Field V] [LinearOrder V]

/-- Abstract state. `sampled` are the positions returned by the last `sample` and not yet updated;
`waiting` tells whether an update is due. -/
structure St (T V : Type _) where
  cap : Option Int
  wait : Bool
  entries : List (T × V)
  maxp : V
  sampled : Option (List Nat)
  waiting : Bool

/-- Priorities, oldest first. -/
def St.prios (s : St T V) : List V := s.entries.map (·.2)

/-- Initial state. -/
def St.init (cap : Option Int) (wait : Bool) (maxp : V) : St T V :=
  ⟨cap, wait, [], maxp, none, false⟩

/-- Is the buffer full? -/
def St.full (s : St T V) : Bool := decide (s.cap = some (s.entries.length : Int))

/-- Give the items at the given positions the given priorities, in order. -/
def assign (es : List (T × V)) : List (Nat × V) → List (T × V)
  | [] => es
  | (i, p) :: rest => assign (es.modify i fun e => (e.1, p)) rest

/-- The effect and the result of each call. -/
inductive Step : St T V → Op T V → Out T V → St T V → Prop
  | append (s : St T V) (x : T) (p : Option V) :
      Step s (.append x p) .none
        { s with entries := (if s.full then s.entries.tail else s.entries)
                              ++ [(x, p.getD s.maxp)] }
  | popleft (s : St T V) (e : T × V) (es : List (T × V)) : s.entries = e :: es →
      Step s .popleft (.item e.1) { s with entries := es }
  | sample (s : St T V) (n : Nat) (ratio : V) (r : Rnd V) (us is : List Nat) (vs ws : List V)
      (mn : V) (items : List T) :
      -- the uniform part: distinct positions
      us.Nodup → us.length = (if 0 < ratio then r.nUniform else 0) →
      (∀ i ∈ us, i < s.entries.length) →
      -- the prioritized part: weighted draws without replacement
      Tree.Spec.Drawn r.rng 0 (if s.wait then Tree.Spec.zeroAt s.prios us else s.prios) is vs ws →
      us.length + is.length = n →
      -- the items at those positions are returned
      (us ++ is).map (fun i => (s.entries[i]?).map (·.1)) = items.map some →
      -- `mn` is the least priority
      mn ∈ s.prios → (∀ p ∈ s.prios, mn ≤ p) →
      Step s (.sample n ratio r)
        (.batch items
          ((us ++ is).map fun i => ratio / (s.entries.length : V)
            + (1 - ratio) * ((s.prios[i]?).getD 0) / s.prios.sum)
          (if 0 < ratio then ratio / (s.entries.length : V) + (1 - ratio) * (mn / s.prios.sum)
            else mn / s.prios.sum))
        { s with sampled := some (us ++ is), waiting := true }
  | setLast (s : St T V) (ps : List V) (is : List Nat) : s.sampled = some is →
      Step s (.setLast ps) .none
        { s with entries := assign s.entries (is.zip ps)
                 maxp := ps.foldl max s.maxp
                 sampled := some [], waiting := false }

/-- Calls the protocol allows: positive priorities; no eviction between a `sample` and its
`set_last_priority`; as many new priorities as sampled items; samples no larger than the buffer;
random numbers within the ranges their generators guarantee. -/
def Valid (s : St T V) : Op T V → Prop
  | .append _ p => (∀ v, p = some v → 0 < v) ∧ (s.waiting = true → s.full = false)
  | .popleft => s.entries ≠ [] ∧ s.waiting = false
  | .sample n ratio r => (s.wait = true → s.waiting = false) ∧ s.entries ≠ [] ∧
      n ≤ s.entries.length ∧ Tree.Spec.UniformRng r.rng ∧
      (0 < ratio → r.nUniform ≤ n ∧ Sample.IsChoice s.entries.length r.nUniform r.perm ∧
        (∀ i, r.s i < s.entries.length) ∧
        ∃ us, Sample.sampleNK r.perm r.s r.fuel s.entries.length r.nUniform = .ok us)
  | .setLast ps => (s.wait = true → s.waiting = true) ∧ (∀ p ∈ ps, 0 < p) ∧
      ∃ is, s.sampled = some is ∧ is.length = ps.length

/-- A history all of whose calls are valid, whatever the earlier random outcomes were. -/
def Allowed (s : St T V) : List (Op T V) → Prop
  | [] => True
  | op :: ops => Valid s op ∧ ∀ out s', Step s op out s' → Allowed s' ops

/-- Several steps. -/
inductive Steps : St T V → List (Op T V) → List (Out T V) → St T V → Prop
  | nil (s : St T V) : Steps s [] [] s
  | cons {s s' s'' : St T V} {op : Op T V} {ops : List (Op T V)} {out : Out T V}
      {outs : List (Out T V)} : Step s op out s' → Steps s' ops outs s'' →
      Steps s (op :: ops) (out :: outs) s''

end Pfrl.PBuf.Spec
