/-!
# Shared conventions

Python exceptions as values, and Python list indexing.
-/

namespace Pfrl

/-- Exceptions the modelled code can raise.  `timeout` is not a Python exception: it is the
result of a fuel-bounded loop whose fuel ran out (the Python loop is still running). -/
inductive PyErr where
  | indexError
  | keyError
  | valueError
  | typeError
  | assertionError
  | attributeError
  | runtimeError
  | zeroDivision
  | recursionError
  | unpicklingError
  | eofError
  | notImplemented
  | unboundLocal
  | timeout
  | fileNotFound
  deriving DecidableEq, Repr

/-- Position designated by a Python index `i` in a sequence of length `n`, if any
(`xs[i]`: `0 ≤ i < n`, or `-n ≤ i < 0` counted from the end). -/
def pyIndex (n : Nat) (i : Int) : Option Nat :=
  if 0 ≤ i then
    if i < (n : Int) then some i.toNat else none
  else if -(n : Int) ≤ i then some (i + n).toNat
  else none

/-- Python `xs[i]` on a list. -/
def pyGet {α : Type _} (xs : List α) (i : Int) : Except PyErr α :=
  match pyIndex xs.length i with
  | none => .error .indexError
  | some j =>
    match xs[j]? with
    | none => .error .indexError
    | some x => .ok x

/-- Python `xs[i] = x` on a list. -/
def pySet {α : Type _} (xs : List α) (i : Int) (x : α) : Except PyErr (List α) :=
  match pyIndex xs.length i with
  | none => .error .indexError
  | some j => .ok (xs.set j x)

/-- Python `~i`. -/
def pyInvert (i : Int) : Int := -i - 1

/-- From a computed image of a result back to the result (used in examples). -/
theorem ok_of_map {α β ε : Type _} {f : α → β} {e : Except ε α} {v : β} (h : e.map f = .ok v) :
    ∃ a, e = .ok a ∧ f a = v := by
  cases e with
  | error e => cases h
  | ok a => exact ⟨a, rfl, by simpa [Except.map] using h⟩

end Pfrl
