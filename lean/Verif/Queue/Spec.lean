import Verif.Queue.Model

/-!
# Specification of a bounded FIFO list

A plain Python list from which, after every insertion, only the newest `maxlen` items are kept.
`Op` and `Res` (the API calls and observations) are shared with the model; nothing else is.
-/

namespace Pfrl.Queue.Spec

variable {α : Type _}

/-- The newest `m` elements of a list whose last element is the newest. -/
def newest (m : Nat) (l : List α) : List α := l.drop (l.length - m)

/-- Keep what the bound allows (`none`: no bound). -/
def keep (maxlen : Option Nat) (l : List α) : List α :=
  match maxlen with
  | none => l
  | some m => newest m l

/-- One API call on the plain list. -/
def step (maxlen : Option Nat) (l : List α) : Op α → Res α × List α
  | .append x => (.unit, keep maxlen (l ++ [x]))
  | .extend xs => (.unit, keep maxlen (l ++ xs))
  | .popleft => match l with
    | [] => (.raised .indexError, [])
    | x :: rest => (.item x, rest)
  | .get i => match pyGet l i with
    | .ok x => (.item x, l)
    | .error e => (.raised e, l)
  | .set i x => match pySet l i x with
    | .ok l' => (.unit, l')
    | .error e => (.raised e, l)
  | .len => (.nat l.length, l)
  | .iter => (.items l, l)

/-- A whole history on the plain list. -/
def run (maxlen : Option Nat) (l : List α) : List (Op α) → List (Res α) × List α
  | [] => ([], l)
  | op :: ops =>
    let r := step maxlen l op
    let rest := run maxlen r.2 ops
    (r.1 :: rest.1, rest.2)

end Pfrl.Queue.Spec
