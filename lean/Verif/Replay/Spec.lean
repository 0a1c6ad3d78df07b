import Verif.Replay.Model
import Verif.Queue.Spec

/-!
# What an n-step replay buffer should store

Written in terms of the calls only: the calls of one environment are cut into episodes, and an
episode determines its windows.
-/

namespace Pfrl.Replay.Spec

open Pfrl.Replay

variable {ε π : Type _} [DecidableEq ε]

/-- The calls about environment `e`, in order: `some t` for `append(t)`, `none` for
`stop_current_episode()`. -/
def calls (e : ε) : List (Op ε π) → List (Option (Tr π))
  | [] => []
  | .append e' t :: ops => if e' = e then some t :: calls e ops else calls e ops
  | .stop e' :: ops => if e' = e then none :: calls e ops else calls e ops

/-- The finished episodes and the unfinished one, of one environment.  An episode ends after a
terminal transition or at a stop. -/
structure Episodes (π : Type _) where
  finished : List (List (Tr π))
  current : List (Tr π)

/-- Effect of one call on the episodes. -/
def Episodes.next (s : Episodes π) : Option (Tr π) → Episodes π
  | some t =>
    if t.terminal then ⟨s.finished ++ [s.current ++ [t]], []⟩
    else ⟨s.finished, s.current ++ [t]⟩
  | none => if s.current = [] then s else ⟨s.finished ++ [s.current], []⟩

/-- Cut the calls of one environment into episodes. -/
def episodes (cs : List (Option (Tr π))) : Episodes π := cs.foldl Episodes.next ⟨[], []⟩

/-- The window of (at most) `n` transitions of `ep` starting at position `i`. -/
def window (n : Nat) (ep : List (Tr π)) (i : Nat) : List (Tr π) := (ep.drop i).take n

/-- What one environment should have stored: for a finished episode one window from every starting
position (the last `n - 1` are shorter), for the unfinished one only the windows of full length. -/
def stored (n : Nat) (cs : List (Option (Tr π))) : List (List (Tr π)) :=
  (episodes cs).finished.flatMap (fun ep => (List.range ep.length).map (window n ep)) ++
  ((List.range (episodes cs).current.length).filter
    (fun i => i + n ≤ (episodes cs).current.length)).map (window n (episodes cs).current)

/-- Everything ever stored, with the environment it came from, in the order of storing: each call
adds the windows of its own environment that were not due before. -/
def log (n : Nat) (past : List (Op ε π)) : List (Op ε π) → List (ε × List (Tr π))
  | [] => []
  | op :: ops =>
    ((stored n (calls op.env (past ++ [op]))).drop
        (stored n (calls op.env past)).length).map (fun w => (op.env, w)) ++
      log n (past ++ [op]) ops

/-- The part of a log that belongs to environment `e`. -/
def ofEnv (e : ε) (l : List (ε × List (Tr π))) : List (List (Tr π)) :=
  l.filterMap fun x => if x.1 = e then some x.2 else none

end Pfrl.Replay.Spec
