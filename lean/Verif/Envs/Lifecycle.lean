import Mathlib.Data.List.Nodup
import Mathlib.Data.List.Forall2
import Mathlib.Algebra.BigOperators.Group.Finset.Basic
import Mathlib.Algebra.Order.BigOperators.Group.Finset
import Mathlib.Logic.Function.Basic
import Verif.Basic

/-!
# The processes of `MultiprocessVectorEnv` (C99)

`Envs/Vector.lean` (C46) proves that the multiprocess vector environment returns what the serial one does, for pipes
of unbounded size and environments that do not raise, without `close` and `seed`.  Here the processes are modelled in
small steps: a pipe holds at most one message in each direction (a `send` waits for room, which is the worst case for
large messages), environments may raise, and the vector environment is closed at some time.

The main process does what a program decides from everything returned so far.  Any process that can move may move
next.  Not modelled: an `env_fn` that raises, signals and killed processes.
-/

namespace Pfrl.Envs.Lifecycle

open Pfrl

variable {E A R : Type}

/-! ## Model -/

/-- A command with its data, `pfrl/envs/multiprocess_vector_env.py:17-32` (`close` is separate). -/
inductive Cmd (A : Type) where
  | step (a : A)
  | reset
  | spec
  | seed (s : Option Int)
deriving DecidableEq

/-- What is in a pipe towards a worker. -/
inductive Msg (A : Type) where
  | cmd (m : Cmd A)
  | close
deriving DecidableEq

/-- Where a worker is: in `remote.recv()`, in `remote.send(reply)`, or out of its loop,
`multiprocess_vector_env.py:16-36`. -/
inductive Wk (E R : Type) where
  | idle (e : E)
  | sending (e : E) (r : R)
  | ended
deriving DecidableEq

/-- A worker, the two directions of its pipe, and how often it called `env.close()`. -/
structure View (E A R : Type) where
  w : Wk E R
  toW : Option (Msg A)
  fromW : Option R
  closes : Nat
deriving DecidableEq

/-- A waiting worker. -/
def View.quiet (e : E) : View E A R := ⟨.idle e, none, none, 0⟩

/-- The argument of `seed`. -/
inductive Seeds where
  | none
  | int (k : Int)
  | list (l : List (Option Int))
  | other
deriving DecidableEq

/-- A call on the vector environment.  `spec` stands for the first access: later ones return the cached value
(`lazy_property`, `multiprocess_vector_env.py:74`) and are not modelled. -/
inductive Call (A : Type) where
  | step (actions : List A)
  | reset (mask : Option (List Bool))
  | seed (s : Seeds)
  | spec
  | close
deriving DecidableEq

/-- Whether the call is `close`. -/
def Call.isClose : Call A → Bool
  | .close => true
  | _ => false

/-- What a call returned: the replies received, in order (`reset` fills the places of masked environments from
`last_obs`; see `Envs/Vector.lean`), or an exception. -/
inductive Res (R : Type) where
  | replies (l : List R)
  | closed
  | error (e : PyErr)
deriving DecidableEq

/-- One operation of the main process on a pipe or a process. -/
inductive Micro (A : Type) where
  | snd (i : Nat) (m : Msg A)
  | rcv (i : Nat)
  | join (i : Nat)
deriving DecidableEq

/-- The seeds sent, `multiprocess_vector_env.py:114-129`. -/
def seedList (n : Nat) : Seeds → Except PyErr (List (Option Int))
  | .none => .ok (List.replicate n none)
  | .int k => .ok (List.replicate n (some k))
  | .list l => if l.length ≠ n then .error .valueError else .ok l
  | .other => .error .typeError

/-- The environments that `reset` asks, `multiprocess_vector_env.py:91-95`. -/
def resetIdx (n : Nat) (mask : Option (List Bool)) : List Nat :=
  (((mask.getD (List.replicate n false)).zip (List.range n)).filter fun p => !p.1).map Prod.snd

/-- The operations of `step` (83-85), `reset` (93-100; `last_obs` has `num_envs` elements), `seed` (131-133) and
`spec` (77-78), `multiprocess_vector_env.py`. -/
def request (n : Nat) : Call A → Except PyErr (List (Micro A))
  | .step actions => .ok (((List.range n).zip actions).map (fun p => .snd p.1 (.cmd (.step p.2)))
      ++ (List.range n).map .rcv)
  | .reset mask => .ok ((resetIdx n mask).map (fun i => .snd i (.cmd .reset)) ++ (resetIdx n mask).map .rcv)
  | .seed s => match seedList n s with
    | .error e => .error e
    | .ok l => .ok (((List.range n).zip l).map (fun p => .snd p.1 (.cmd (.seed p.2))) ++ (List.range n).map .rcv)
  | .spec => .ok [.snd 0 (.cmd .spec), .rcv 0]
  | .close => .ok ((List.range n).map (fun i => .snd i .close) ++ (List.range n).map .join)

/-- Where the main process is: in the user's code, in a call that waits for replies, in `close`. -/
inductive Cur where
  | user
  | asking
  | closing
deriving DecidableEq

/-- All processes. -/
structure Sys (E A R : Type) where
  ws : Nat → View E A R
  cur : Cur
  todo : List (Micro A)
  got : List R
  closed : Bool
  results : List (Res R)

/-- After the constructor, `multiprocess_vector_env.py:57-68`. -/
def Sys.init (envs : Nat → E) : Sys E A R := ⟨fun i => .quiet (envs i), .user, [], [], false, []⟩

/-- The start of a call: `_assert_not_closed` (140-141) and, in `close`, `self.closed = True` (106),
`multiprocess_vector_env.py`. -/
def start (n : Nat) (s : Sys E A R) (c : Call A) : Sys E A R :=
  if s.closed then { s with results := s.results ++ [.error .assertionError] }
  else match request n c with
    | .error e => { s with results := s.results ++ [.error e] }
    | .ok l => { s with
        cur := if c.isClose then .closing else .asking
        closed := c.isClose
        todo := l }

/-- The return of a call. -/
def finish (s : Sys E A R) : Sys E A R :=
  { s with cur := .user, got := [],
           results := s.results ++ [if s.cur = .closing then .closed else .replies s.got] }

/-- One operation: `remote.send` waits for room in the pipe, `remote.recv` for a message and `p.join` for the end of
the process.  The main process never closes its own copies of the workers' ends (`self.work_remotes`, line 58), so that
`recv` from a worker that has ended waits as well. -/
def micro (s : Sys E A R) (l : List (Micro A)) : Micro A → Option (Sys E A R)
  | .snd i m => if (s.ws i).toW.isSome then none
      else some { s with todo := l, ws := Function.update s.ws i { s.ws i with toW := some m } }
  | .rcv i => match (s.ws i).fromW with
    | none => none
    | some r => some { s with todo := l, got := s.got ++ [r],
                              ws := Function.update s.ws i { s.ws i with fromW := none } }
  | .join i => match (s.ws i).w with
    | .ended => some { s with todo := l }
    | _ => none

/-- A move of the main process, if it can move. -/
def mainTick (prog : List (Res R) → Option (Call A)) (n : Nat) (s : Sys E A R) : Option (Sys E A R) :=
  match s.cur, s.todo with
  | .user, _ => (prog s.results).map (start n s)
  | _, [] => some (finish s)
  | _, m :: l => micro s l m

/-- A move of a worker, if it can move: `remote.recv()` and the environment's method (17-32), or `remote.send`.  If
the environment raises or the command is `close`, the `finally` clause closes the environment,
`multiprocess_vector_env.py:24-26,35-36`. -/
def workerTick (handle : E → Cmd A → Option (E × R)) (v : View E A R) : Option (View E A R) :=
  match v.w, v.toW, v.fromW with
  | .idle _, some .close, _ => some { v with w := .ended, toW := none, closes := v.closes + 1 }
  | .idle e, some (.cmd m), _ => match handle e m with
    | some p => some { v with w := .sending p.1 p.2, toW := none }
    | none => some { v with w := .ended, toW := none, closes := v.closes + 1 }
  | .sending e r, _, none => some { v with w := .idle e, fromW := some r }
  | _, _, _ => none

/-- A process. -/
inductive Actor where
  | main
  | worker (i : Nat)

/-- A move of one of the processes. -/
def tick (handle : E → Cmd A → Option (E × R)) (prog : List (Res R) → Option (Call A)) (n : Nat) (s : Sys E A R) :
    Actor → Option (Sys E A R)
  | .main => mainTick prog n s
  | .worker i => if i < n then (workerTick handle (s.ws i)).map fun v => { s with ws := Function.update s.ws i v }
      else none

/-- A sequence of moves. -/
def moves (handle : E → Cmd A → Option (E × R)) (prog : List (Res R) → Option (Call A)) (n : Nat) :
    Sys E A R → List Actor → Option (Sys E A R)
  | s, [] => some s
  | s, a :: l => (tick handle prog n s a).bind fun s' => moves handle prog n s' l

/-! ## Specification -/

namespace Spec

/-- What a call asks of environment `i`. -/
def cmd : Call A → Nat → Option (Cmd A)
  | .step actions, i => actions[i]?.map .step
  | .reset none, _ => some .reset
  | .reset (some mask), i => if mask[i]? = some false then some .reset else none
  | .seed .none, _ => some (.seed none)
  | .seed (.int k), _ => some (.seed (some k))
  | .seed (.list l), i => l[i]?.map .seed
  | .seed .other, _ => none
  | .spec, i => if i = 0 then some .spec else none
  | .close, _ => none

/-- The commands of a call, with the numbers of the environments, in the order of the environments. -/
def cmds (n : Nat) (c : Call A) : List (Nat × Cmd A) := (List.range n).filterMap fun i => (cmd c i).map fun m => (i, m)

/-- Calls that are meant: an action for every environment, a mask of the right length, at least one environment.
(`seed` checks its argument itself.) -/
def Proper (n : Nat) : Call A → Prop
  | .step actions => n ≤ actions.length
  | .reset (some mask) => mask.length = n
  | .spec => 0 < n
  | _ => True

/-- The exception of a call that is refused. -/
def refused (n : Nat) : Call A → Option PyErr
  | .seed .other => some .typeError
  | .seed (.list l) => if l.length = n then none else some .valueError
  | _ => none

/-- One call after the other, one environment after the other, in one process. -/
inductive Serial (handle : E → Cmd A → Option (E × R)) (prog : List (Res R) → Option (Call A)) (n : Nat)
    (envs₀ : Nat → E) : (Nat → E) → Bool → List (Res R) → Prop
  | init : Serial handle prog n envs₀ envs₀ false []
  | ask {envs envs' : Nat → E} {rs : List (Res R)} {c : Call A} {replies : List R}
      (h : Serial handle prog n envs₀ envs false rs) (hp : prog rs = some c) (hc : c ≠ .close)
      (hr : refused n c = none)
      (answers : List.Forall₂ (fun p r => handle (envs p.1) p.2 = some (envs' p.1, r)) (cmds n c) replies)
      (others : ∀ i, i ∉ (cmds n c).map Prod.fst → envs' i = envs i) :
      Serial handle prog n envs₀ envs' false (rs ++ [.replies replies])
  | refuse {envs : Nat → E} {rs : List (Res R)} {c : Call A} {e : PyErr}
      (h : Serial handle prog n envs₀ envs false rs) (hp : prog rs = some c) (hr : refused n c = some e) :
      Serial handle prog n envs₀ envs false (rs ++ [.error e])
  | close {envs : Nat → E} {rs : List (Res R)}
      (h : Serial handle prog n envs₀ envs false rs) (hp : prog rs = some .close) :
      Serial handle prog n envs₀ envs true (rs ++ [.closed])
  | late {envs : Nat → E} {rs : List (Res R)} {c : Call A}
      (h : Serial handle prog n envs₀ envs true rs) (hp : prog rs = some c) :
      Serial handle prog n envs₀ envs true (rs ++ [.error .assertionError])

/-- The process has ended and closed its environment once, or it is running and has not closed it. -/
def ClosedOnce (v : View E A R) : Prop := (v.w = .ended ∧ v.closes = 1) ∨ (v.w ≠ .ended ∧ v.closes = 0)

/-- Reached by some schedule of the processes. -/
def Reachable (handle : E → Cmd A → Option (E × R)) (prog : List (Res R) → Option (Call A)) (n : Nat)
    (envs₀ : Nat → E) (s : Sys E A R) : Prop :=
  ∃ acts, moves handle prog n (Sys.init envs₀) acts = some s

end Spec

/-! ## Lemmas -/

section lemmas

variable {handle : E → Cmd A → Option (E × R)} {prog : List (Res R) → Option (Call A)} {n : Nat} {envs₀ : Nat → E}

theorem cmds_fst_nodup (c : Call A) : ((Spec.cmds n c).map Prod.fst).Nodup := by
  have h : (Spec.cmds n c).map Prod.fst = (List.range n).filter fun i => (Spec.cmd c i).isSome := by
    unfold Spec.cmds
    induction List.range n with
    | nil => rfl
    | cons i l ih =>
      cases hc : Spec.cmd c i <;> simp [hc, ih]
  rw [h]
  exact List.nodup_range.filter _

theorem mem_cmds {c : Call A} {i : Nat} {m : Cmd A} : (i, m) ∈ Spec.cmds n c ↔ i < n ∧ Spec.cmd c i = some m := by
  unfold Spec.cmds
  simp only [List.mem_filterMap, List.mem_range, Option.map_eq_some_iff, Prod.mk.injEq]
  constructor
  · rintro ⟨j, hj, m', hm, rfl, rfl⟩; exact ⟨hj, hm⟩
  · rintro ⟨hi, hm⟩; exact ⟨i, hi, m, hm, rfl, rfl⟩

theorem filterMap_zip_range' {α β : Type _} (f : Nat → α → β) : ∀ (n k : Nat) (l : List α), n ≤ l.length →
    ((List.range' k n).zip l).map (fun p => f p.1 p.2)
      = (List.range' k n).filterMap fun i => l[i - k]?.map fun a => f i a
  | 0, k, l, _ => by simp
  | n + 1, k, [], h => by simp at h
  | n + 1, k, a :: l, h => by
    have ih := filterMap_zip_range' f n (k + 1) l (by simpa using h)
    simp only [List.range'_succ, List.zip_cons_cons, List.map_cons, ih]
    rw [List.filterMap_cons]
    simp only [Nat.sub_self, List.getElem?_cons_zero, Option.map_some, List.cons.injEq, true_and]
    apply List.filterMap_congr
    intro i hi
    have : k + 1 ≤ i := by simp [List.mem_range'] at hi; omega
    rw [show i - k = (i - (k + 1)) + 1 by omega, List.getElem?_cons_succ]

theorem filterMap_zip_range {α β : Type _} (f : Nat → α → β) (n : Nat) (l : List α) (h : n ≤ l.length) :
    ((List.range n).zip l).map (fun p => f p.1 p.2) = (List.range n).filterMap fun i => l[i]?.map fun a => f i a := by
  have := filterMap_zip_range' f n 0 l h
  simpa [List.range_eq_range'] using this

theorem filterMap_some_range {β : Type _} (f : Nat → β) (l : List Nat) :
    l.filterMap (fun i => some (f i)) = l.map f := by
  induction l with
  | nil => rfl
  | cons a l ih => simp [ih]

theorem resetIdx_eq' : ∀ (n k : Nat) (mask : List Bool), mask.length = n →
    ((mask.zip (List.range' k n)).filter fun p => !p.1).map Prod.snd
      = (List.range' k n).filterMap fun i => if mask[i - k]? = some false then some i else none
  | 0, k, mask, _ => by simp
  | n + 1, k, [], h => by simp at h
  | n + 1, k, b :: mask, h => by
    have ih := resetIdx_eq' n (k + 1) mask (by simpa using h)
    simp only [List.range'_succ, List.zip_cons_cons]
    have hc : (List.range' (k + 1) n).filterMap (fun i => if (b :: mask)[i - k]? = some false then some i else none)
        = (List.range' (k + 1) n).filterMap (fun i => if mask[i - (k + 1)]? = some false then some i else none) := by
      apply List.filterMap_congr
      intro i hi
      have : k + 1 ≤ i := by simp [List.mem_range'] at hi; omega
      rw [show i - k = (i - (k + 1)) + 1 by omega, List.getElem?_cons_succ]
    cases b <;> simp [hc, ih]

theorem resetIdx_some {n : Nat} {mask : List Bool} (h : mask.length = n) :
    resetIdx n (some mask) = (List.range n).filterMap fun i => if mask[i]? = some false then some i else none := by
  have := resetIdx_eq' n 0 mask h
  simpa [List.range_eq_range', resetIdx] using this

theorem resetIdx_none (n : Nat) : resetIdx n none = List.range n := by
  have h : resetIdx n none = resetIdx n (some (List.replicate n false)) := rfl
  rw [h, resetIdx_some (by simp)]
  have : (List.range n).filterMap (fun i => if (List.replicate n false)[i]? = some false then some i else none)
      = (List.range n).filterMap (fun i => some i) := by
    apply List.filterMap_congr
    intro i hi
    rw [List.getElem?_replicate_of_lt (by simpa using hi)]
    simp
  rw [this, filterMap_some_range]
  simp

/-- The operations of a proper call: the commands, then as many receptions. -/
def plan (l : List (Nat × Cmd A)) : List (Micro A) :=
  l.map (fun p => .snd p.1 (.cmd p.2)) ++ l.map (fun p => .rcv p.1)

theorem filterMap_map_fst (c : Call A) (f : Nat → Cmd A → Micro A) (l : List Nat) :
    (l.filterMap fun i => (Spec.cmd c i).map fun m => (i, m)).map (fun p => f p.1 p.2)
      = l.filterMap fun i => (Spec.cmd c i).map fun m => f i m := by
  rw [List.map_filterMap]
  apply List.filterMap_congr
  intro i _
  cases Spec.cmd c i <;> rfl

theorem filterMap_all {α β : Type _} (f : α → Option β) (g : α → β) (l : List α) (h : ∀ a ∈ l, f a = some (g a)) :
    l.filterMap f = l.map g := by
  induction l with
  | nil => rfl
  | cons a l ih =>
    rw [List.filterMap_cons, h a (by simp)]
    simp [ih fun b hb => h b (by simp [hb])]

theorem range_getElem_filterMap {α : Type _} (n : Nat) (l : List α) (h : n ≤ l.length) (f : Nat → Micro A) :
    (List.range n).filterMap (fun i => l[i]?.map fun _ => f i) = (List.range n).map f := by
  apply filterMap_all
  intro i hi
  have : i < l.length := by have := List.mem_range.1 hi; omega
  simp [List.getElem?_eq_getElem this]

theorem request_eq {c : Call A} (hp : Spec.Proper n c) (hc : c ≠ .close) (hr : Spec.refused n c = none) :
    request n c = .ok (plan (Spec.cmds n c)) := by
  unfold plan
  have h1 : (Spec.cmds n c).map (fun p => Micro.snd p.1 (.cmd p.2))
      = (List.range n).filterMap fun i => (Spec.cmd c i).map fun m => Micro.snd i (.cmd m) :=
    filterMap_map_fst c (fun i m => Micro.snd i (.cmd m)) _
  have h2 : (Spec.cmds n c).map (fun p => Micro.rcv (A := A) p.1)
      = (List.range n).filterMap fun i => (Spec.cmd c i).map fun _ => Micro.rcv i :=
    filterMap_map_fst c (fun i _ => Micro.rcv i) _
  rw [h1, h2]
  have seedCase : ∀ l : List (Option Int), l.length = n →
      (((List.range n).zip l).map fun p => Micro.snd (A := A) p.1 (.cmd (.seed p.2)))
        = (List.range n).filterMap fun i => (l[i]?.map Cmd.seed).map fun m => Micro.snd i (.cmd m) := by
    intro l hl
    rw [filterMap_zip_range (fun i s => Micro.snd (A := A) i (.cmd (.seed s))) n l (by omega)]
    simp [Option.map_map, Function.comp_def]
  cases c with
  | step as =>
    have hp : n ≤ as.length := hp
    simp only [request, Spec.cmd, Option.map_map, Function.comp_def]
    rw [filterMap_zip_range (fun i a => Micro.snd (A := A) i (.cmd (.step a))) n as hp,
      range_getElem_filterMap n as hp]
  | reset mask =>
    cases mask with
    | none =>
      simp only [request, Spec.cmd, Option.map_some, resetIdx_none, filterMap_some_range]
    | some mask =>
      simp only [request, Spec.cmd]
      rw [resetIdx_some hp]
      simp only [List.map_filterMap]
      congr 2
      · apply List.filterMap_congr
        intro i _
        by_cases h : mask[i]? = some false <;> simp [h]
      · apply List.filterMap_congr
        intro i _
        by_cases h : mask[i]? = some false <;> simp [h]
  | seed s =>
    cases s with
    | none =>
      have := filterMap_zip_range (fun i s => Micro.snd (A := A) i (.cmd (.seed s))) n (List.replicate n none) (by simp)
      simp only [request, seedList, Spec.cmd, Option.map_some, filterMap_some_range, this]
      congr 2
      apply filterMap_all
      intro i hi
      rw [List.getElem?_replicate_of_lt (by simpa using hi)]
      rfl
    | int k =>
      have := filterMap_zip_range (fun i s => Micro.snd (A := A) i (.cmd (.seed s))) n (List.replicate n (some k))
        (by simp)
      simp only [request, seedList, Spec.cmd, Option.map_some, filterMap_some_range, this]
      congr 2
      apply filterMap_all
      intro i hi
      rw [List.getElem?_replicate_of_lt (by simpa using hi)]
      rfl
    | list l =>
      have hl : l.length = n := by
        by_contra h
        simp [Spec.refused, h] at hr
      simp only [request, seedList, hl, ne_eq, not_true_eq_false, if_false, Spec.cmd, Option.map_map,
        Function.comp_def]
      rw [filterMap_zip_range (fun i s => Micro.snd (A := A) i (.cmd (.seed s))) n l (by omega),
        range_getElem_filterMap n l (by omega)]
    | other => simp [Spec.refused] at hr
  | spec =>
    have hp : 0 < n := hp
    obtain ⟨k, rfl⟩ : ∃ k, n = k + 1 := ⟨n - 1, by omega⟩
    simp only [request, Spec.cmd, List.range_eq_range', List.range'_succ, List.filterMap_cons]
    have h0 : ∀ f : Nat → Cmd A → Micro A, (List.range' (0 + 1) k).filterMap
        (fun i => (if i = 0 then some (Cmd.spec (A := A)) else none).map fun m => f i m) = [] := by
      intro f
      rw [List.filterMap_eq_nil_iff]
      intro i hi
      have : i ≠ 0 := by simp [List.mem_range'] at hi; omega
      simp [this]
    rw [h0 (fun i m => Micro.snd i (.cmd m)), h0 (fun i _ => Micro.rcv i)]
    rfl
  | close => exact absurd rfl hc

theorem request_refused {c : Call A} {e : PyErr} (hr : Spec.refused n c = some e) : request n c = .error e := by
  cases c with
  | seed s =>
    cases s with
    | list l =>
      by_cases h : l.length = n
      · simp [Spec.refused, h] at hr
      · simp [Spec.refused, h] at hr
        simp [request, seedList, h, hr]
    | other => simp [Spec.refused] at hr; simp [request, seedList, hr]
    | none => simp [Spec.refused] at hr
    | int k => simp [Spec.refused] at hr
  | step _ => simp [Spec.refused] at hr
  | reset _ => simp [Spec.refused] at hr
  | spec => simp [Spec.refused] at hr
  | close => simp [Spec.refused] at hr

/-- A worker between the `send` of command `m` and the reception of its reply. -/
def Busy (handle : E → Cmd A → Option (E × R)) (e : E) (m : Cmd A) (v : View E A R) : Prop :=
  v = ⟨.idle e, some (.cmd m), none, 0⟩ ∨
  (∃ e' r, handle e m = some (e', r) ∧ (v = ⟨.sending e' r, none, none, 0⟩ ∨ v = ⟨.idle e', none, some r, 0⟩)) ∨
  (handle e m = none ∧ v = ⟨.ended, none, none, 1⟩)

theorem busy_tick {e : E} {m : Cmd A} {v v' : View E A R} (h : Busy handle e m v)
    (ht : workerTick handle v = some v') : Busy handle e m v' := by
  rcases h with rfl | ⟨e', r, hh, rfl | rfl⟩ | ⟨hh, rfl⟩
  · simp only [workerTick] at ht
    cases hh : handle e m with
    | none => rw [hh] at ht; simp at ht; subst ht; exact .inr (.inr ⟨hh, rfl⟩)
    | some p => rw [hh] at ht; simp at ht; subst ht; exact .inr (.inl ⟨p.1, p.2, hh, .inl rfl⟩)
  · simp only [workerTick] at ht; simp at ht; subst ht; exact .inr (.inl ⟨e', r, hh, .inr rfl⟩)
  · simp [workerTick] at ht
  · simp [workerTick] at ht

theorem quiet_tick {e : E} : workerTick handle (View.quiet e : View E A R) = none := rfl

/-- A worker between the `send` of `close` and its end. -/
def Closing (v : View E A R) : Prop :=
  (∃ e, v = ⟨.idle e, some .close, none, 0⟩) ∨ v = ⟨.ended, none, none, 1⟩

theorem closing_tick {v v' : View E A R} (h : Closing v) (ht : workerTick handle v = some v') :
    Closing v' := by
  rcases h with ⟨e, rfl⟩ | rfl
  · simp only [workerTick] at ht; simp at ht; subst ht; exact .inr rfl
  · simp [workerTick] at ht

/-- The invariant. -/
inductive Inv (handle : E → Cmd A → Option (E × R)) (prog : List (Res R) → Option (Call A)) (n : Nat)
    (envs₀ : Nat → E) (s : Sys E A R) : Prop
  | user (envs : Nat → E) (hs : Spec.Serial handle prog n envs₀ envs s.closed s.results) (hc : s.cur = .user)
      (hg : s.got = [])
      (ho : s.closed = false → ∀ i, s.ws i = .quiet (envs i))
      (hcl : s.closed = true → ∀ i < n, s.ws i = ⟨.ended, none, none, 1⟩)
  | sending (envs : Nat → E) (c : Call A) (l₁ l₂ : List (Nat × Cmd A))
      (hs : Spec.Serial handle prog n envs₀ envs false s.results) (hcl : s.closed = false)
      (hp : prog s.results = some c) (hcc : c ≠ .close) (hr : Spec.refused n c = none) (hc : s.cur = .asking)
      (hl : Spec.cmds n c = l₁ ++ l₂)
      (ht : s.todo = l₂.map (fun p => .snd p.1 (.cmd p.2)) ++ (l₁ ++ l₂).map (fun p => .rcv p.1))
      (hg : s.got = [])
      (h₁ : ∀ p ∈ l₁, Busy handle (envs p.1) p.2 (s.ws p.1))
      (h₂ : ∀ i, i ∉ l₁.map Prod.fst → s.ws i = .quiet (envs i)) (hne : l₂ ≠ [])
  | receiving (envs : Nat → E) (c : Call A) (l₁ l₂ : List (Nat × Cmd A))
      (hs : Spec.Serial handle prog n envs₀ envs false s.results) (hcl : s.closed = false)
      (hp : prog s.results = some c) (hcc : c ≠ .close) (hr : Spec.refused n c = none) (hc : s.cur = .asking)
      (hl : Spec.cmds n c = l₁ ++ l₂)
      (ht : s.todo = l₂.map (fun p => .rcv p.1))
      (hg : List.Forall₂ (fun p r => ∃ e', handle (envs p.1) p.2 = some (e', r) ∧ s.ws p.1 = .quiet e') l₁ s.got)
      (h₁ : ∀ p ∈ l₂, Busy handle (envs p.1) p.2 (s.ws p.1))
      (h₂ : ∀ i, i ∉ (Spec.cmds n c).map Prod.fst → s.ws i = .quiet (envs i))
  | closeSend (envs : Nat → E) (l₁ l₂ : List Nat)
      (hs : Spec.Serial handle prog n envs₀ envs false s.results) (hcl : s.closed = true)
      (hp : prog s.results = some .close) (hc : s.cur = .closing)
      (hl : List.range n = l₁ ++ l₂)
      (ht : s.todo = l₂.map (fun i => .snd i .close) ++ (l₁ ++ l₂).map .join)
      (hg : s.got = [])
      (h₁ : ∀ i ∈ l₁, Closing (s.ws i))
      (h₂ : ∀ i, i ∉ l₁ → s.ws i = .quiet (envs i)) (hne : l₂ ≠ [])
  | closeJoin (envs : Nat → E) (l₁ l₂ : List Nat)
      (hs : Spec.Serial handle prog n envs₀ envs false s.results) (hcl : s.closed = true)
      (hp : prog s.results = some .close) (hc : s.cur = .closing)
      (hl : List.range n = l₁ ++ l₂)
      (ht : s.todo = l₂.map .join)
      (hg : s.got = [])
      (h₁ : ∀ i ∈ l₁, s.ws i = ⟨.ended, none, none, 1⟩)
      (h₂ : ∀ i ∈ l₂, Closing (s.ws i))

theorem mkSending {s : Sys E A R} (envs : Nat → E) (c : Call A) (l₁ l₂ : List (Nat × Cmd A))
    (hs : Spec.Serial handle prog n envs₀ envs false s.results) (hcl : s.closed = false)
    (hp : prog s.results = some c) (hcc : c ≠ .close) (hr : Spec.refused n c = none) (hc : s.cur = .asking)
    (hl : Spec.cmds n c = l₁ ++ l₂)
    (ht : s.todo = l₂.map (fun p => .snd p.1 (.cmd p.2)) ++ (l₁ ++ l₂).map (fun p => .rcv p.1))
    (hg : s.got = [])
    (h₁ : ∀ p ∈ l₁, Busy handle (envs p.1) p.2 (s.ws p.1))
    (h₂ : ∀ i, i ∉ l₁.map Prod.fst → s.ws i = .quiet (envs i)) : Inv handle prog n envs₀ s := by
  cases l₂ with
  | nil =>
    refine .receiving envs c [] l₁ hs hcl hp hcc hr hc (by simpa using hl) (by simpa using ht)
      (by rw [hg]; exact .nil) h₁ ?_
    intro i hi
    exact h₂ i (by simpa [hl] using hi)
  | cons p l₂ => exact .sending envs c l₁ _ hs hcl hp hcc hr hc hl ht hg h₁ h₂ (by simp)

theorem mkCloseSend {s : Sys E A R} (envs : Nat → E) (l₁ l₂ : List Nat)
    (hs : Spec.Serial handle prog n envs₀ envs false s.results) (hcl : s.closed = true)
    (hp : prog s.results = some .close) (hc : s.cur = .closing)
    (hl : List.range n = l₁ ++ l₂)
    (ht : s.todo = l₂.map (fun i => .snd i .close) ++ (l₁ ++ l₂).map .join)
    (hg : s.got = [])
    (h₁ : ∀ i ∈ l₁, Closing (s.ws i))
    (h₂ : ∀ i, i ∉ l₁ → s.ws i = .quiet (envs i)) : Inv handle prog n envs₀ s := by
  cases l₂ with
  | nil =>
    exact .closeJoin envs [] l₁ hs hcl hp hc (by simpa using hl) (by simpa using ht) hg (by simp) h₁
  | cons i l₂ => exact .closeSend envs l₁ _ hs hcl hp hc hl ht hg h₁ h₂ (by simp)

theorem inv_init : Inv handle prog n envs₀ (Sys.init envs₀) :=
  .user envs₀ .init rfl rfl (fun _ _ => rfl) (fun h => by simp [Sys.init] at h)

theorem inv_worker {s : Sys E A R} (h : Inv handle prog n envs₀ s) {i : Nat} (hi : i < n) {v : View E A R}
    (ht : workerTick handle (s.ws i) = some v) :
    Inv handle prog n envs₀ { s with ws := Function.update s.ws i v } := by
  have quiet_absurd : ∀ e, s.ws i = .quiet e → False := by
    intro e he; rw [he, quiet_tick] at ht; simp at ht
  cases h with
  | user envs hs hc hg ho hcl =>
    exfalso
    cases hb : s.closed with
    | false => exact quiet_absurd _ (ho hb i)
    | true =>
      rw [hcl hb i hi] at ht
      simp [workerTick] at ht
  | sending envs c l₁ l₂ hs hcl hp hcc hr hc hl ht' hg h₁ h₂ hne =>
    refine .sending envs c l₁ l₂ hs hcl hp hcc hr hc hl ht' hg ?_ ?_ hne
    · intro p hp'
      by_cases hpi : p.1 = i
      · subst hpi
        simp only [Function.update_self]
        exact busy_tick (h₁ p hp') ht
      · simp only [Function.update_of_ne hpi]
        exact h₁ p hp'
    · intro j hj
      by_cases hji : j = i
      · subst hji; exact (quiet_absurd _ (h₂ j hj)).elim
      · simp only [Function.update_of_ne hji]
        exact h₂ j hj
  | receiving envs c l₁ l₂ hs hcl hp hcc hr hc hl ht' hg h₁ h₂ =>
    refine .receiving envs c l₁ l₂ hs hcl hp hcc hr hc hl ht' ?_ ?_ ?_
    · refine hg.imp ?_
      rintro p r ⟨e', hh, hq⟩
      refine ⟨e', hh, ?_⟩
      by_cases hpi : p.1 = i
      · subst hpi; exact (quiet_absurd _ hq).elim
      · simp only [Function.update_of_ne hpi]
        exact hq
    · intro p hp'
      by_cases hpi : p.1 = i
      · subst hpi
        simp only [Function.update_self]
        exact busy_tick (h₁ p hp') ht
      · simp only [Function.update_of_ne hpi]
        exact h₁ p hp'
    · intro j hj
      by_cases hji : j = i
      · subst hji; exact (quiet_absurd _ (h₂ j hj)).elim
      · simp only [Function.update_of_ne hji]
        exact h₂ j hj
  | closeSend envs l₁ l₂ hs hcl hp hc hl ht' hg h₁ h₂ hne =>
    refine .closeSend envs l₁ l₂ hs hcl hp hc hl ht' hg ?_ ?_ hne
    · intro j hj
      by_cases hji : j = i
      · subst hji
        simp only [Function.update_self]
        exact closing_tick (h₁ j hj) ht
      · simp only [Function.update_of_ne hji]
        exact h₁ j hj
    · intro j hj
      by_cases hji : j = i
      · subst hji; exact (quiet_absurd _ (h₂ j hj)).elim
      · simp only [Function.update_of_ne hji]
        exact h₂ j hj
  | closeJoin envs l₁ l₂ hs hcl hp hc hl ht' hg h₁ h₂ =>
    refine .closeJoin envs l₁ l₂ hs hcl hp hc hl ht' hg ?_ ?_
    · intro j hj
      by_cases hji : j = i
      · subst hji
        rw [h₁ j hj] at ht
        simp [workerTick] at ht
      · simp only [Function.update_of_ne hji]
        exact h₁ j hj
    · intro j hj
      by_cases hji : j = i
      · subst hji
        simp only [Function.update_self]
        exact closing_tick (h₂ j hj) ht
      · simp only [Function.update_of_ne hji]
        exact h₂ j hj

theorem inv_main (hprog : ∀ rs c, prog rs = some c → Spec.Proper n c) {s s' : Sys E A R}
    (h : Inv handle prog n envs₀ s) (ht : mainTick prog n s = some s') : Inv handle prog n envs₀ s' := by
  cases h with
  | user envs hs hc hg ho hcl =>
    simp only [mainTick, hc, Option.map_eq_some_iff] at ht
    obtain ⟨c, hp, rfl⟩ := ht
    cases hb : s.closed with
    | true =>
      simp only [start, hb, if_true]
      rw [hb] at hs
      exact .user envs (by simpa [hb] using Spec.Serial.late hs hp) hc hg (by simp) (by simpa [hb] using hcl hb)
    | false =>
      rw [hb] at hs
      cases hr : Spec.refused n c with
      | some e =>
        simp only [start, hb, request_refused hr]
        exact .user envs (by simpa [hb] using Spec.Serial.refuse hs hp hr) hc hg (by simpa [hb] using ho hb)
          (by simp)
      | none =>
        by_cases hcc : c = .close
        · subst hcc
          simp only [start, hb, request]
          exact mkCloseSend envs [] (List.range n) hs rfl hp rfl rfl rfl hg (by simp) (fun i _ => ho hb i)
        · have h1 : c.isClose = false := by cases c <;> first | rfl | exact absurd rfl hcc
          simp only [start, hb, request_eq (hprog _ _ hp) hcc hr, h1]
          exact mkSending envs c [] (Spec.cmds n c) hs rfl hp hcc hr rfl rfl rfl hg (by simp)
            (fun i _ => ho hb i)
  | sending envs c l₁ l₂ hs hcl hp hcc hr hc hl ht' hg h₁ h₂ hne =>
    cases l₂ with
    | nil => exact absurd rfl hne
    | cons p l₂ =>
      have hnd := cmds_fst_nodup (n := n) c
      rw [hl] at hnd
      simp only [List.map_append, List.map_cons] at hnd
      have hp1 : p.1 ∉ l₁.map Prod.fst := by
        intro hm
        have := (List.nodup_append.1 hnd).2.2
        exact this _ hm _ (by simp) rfl
      simp only [mainTick, hc, ht', List.map_cons, List.cons_append, micro] at ht
      rw [h₂ _ hp1] at ht
      simp only [View.quiet, Option.isSome_none, Bool.false_eq_true, if_false, Option.some.injEq] at ht
      subst ht
      refine mkSending envs c (l₁ ++ [p]) l₂ hs hcl hp hcc hr rfl (by simp [hl]) (by simp) hg ?_ ?_
      · intro q hq
        rcases List.mem_append.1 hq with hq | hq
        · have : q.1 ≠ p.1 := fun hh => hp1 (hh ▸ List.mem_map_of_mem hq)
          simp only [Function.update_of_ne this]
          exact h₁ q hq
        · simp at hq; subst hq
          simp only [Function.update_self]
          exact .inl rfl
      · intro i hi
        simp only [List.map_append, List.map_cons, List.map_nil, List.mem_append, List.mem_singleton, not_or] at hi
        simp only [Function.update_of_ne hi.2]
        exact h₂ i hi.1
  | receiving envs c l₁ l₂ hs hcl hp hcc hr hc hl ht' hg h₁ h₂ =>
    cases l₂ with
    | nil =>
      simp only [mainTick, hc, ht', List.map_nil, Option.some.injEq] at ht
      subst ht
      simp only [List.append_nil] at hl
      have hq : ∀ p ∈ l₁, ∃ e', s.ws p.1 = .quiet e' := by
        intro p hp'
        obtain ⟨k, hk, rfl⟩ := List.mem_iff_getElem.1 hp'
        obtain ⟨e', _, he⟩ := hg.get hk (by rw [← hg.length_eq]; exact hk)
        exact ⟨e', he⟩
      have hq2 : ∀ i, ∃ e', s.ws i = .quiet e' := by
        intro i
        by_cases hi : i ∈ (Spec.cmds n c).map Prod.fst
        · obtain ⟨p, hp', rfl⟩ := List.mem_map.1 hi
          exact hq p (hl ▸ hp')
        · exact ⟨_, h₂ i hi⟩
      choose envs' henvs' using hq2
      have inj : ∀ {e e' : E}, (View.quiet e : View E A R) = .quiet e' → e = e' := by
        intro e e' h; simpa [View.quiet] using h
      refine .user envs' ?_ rfl rfl ?_ ?_
      · simp only [finish, hcl, hc]
        refine .ask (envs := envs) (c := c) hs hp hcc hr ?_ ?_
        · rw [hl]
          refine hg.imp ?_
          rintro p r ⟨e', hh, he⟩
          rw [hh, inj (he.symm.trans (henvs' p.1))]
        · intro i hi
          exact inj ((henvs' i).symm.trans (h₂ i hi))
      · intro _ i
        exact henvs' i
      · intro hh
        simp [finish, hcl] at hh
    | cons p l₂ =>
      simp only [mainTick, hc, ht', List.map_cons, micro] at ht
      have hnd := cmds_fst_nodup (n := n) c
      rw [hl] at hnd
      simp only [List.map_append, List.map_cons] at hnd
      have hp1 : p.1 ∉ l₁.map Prod.fst := by
        intro hm
        exact (List.nodup_append.1 hnd).2.2 _ hm _ (by simp) rfl
      have hp2 : p.1 ∉ l₂.map Prod.fst := (List.nodup_cons.1 (List.nodup_append.1 hnd).2.1).1
      rcases h₁ p (by simp) with hb | ⟨e', r, hh, hb | hb⟩ | ⟨hh, hb⟩
      · rw [hb] at ht; simp at ht
      · rw [hb] at ht; simp at ht
      · rw [hb] at ht
        simp only [Option.some.injEq] at ht
        subst ht
        refine .receiving envs c (l₁ ++ [p]) l₂ hs hcl hp hcc hr rfl (by simp [hl]) rfl ?_ ?_ ?_
        · refine List.rel_append ?_ (.cons ⟨e', hh, by simp only [Function.update_self]; rfl⟩ .nil)
          have hmem : ∀ q ∈ l₁, q.1 ≠ p.1 := fun q hq hh => hp1 (hh ▸ List.mem_map_of_mem hq)
          clear hl hnd hp1
          generalize hgot : s.got = got at hg
          clear hgot
          induction hg with
          | nil => exact .nil
          | cons hx _ ih =>
            refine .cons ?_ (ih fun q hq => hmem q (by simp [hq]))
            obtain ⟨e'', h1, h2⟩ := hx
            refine ⟨e'', h1, ?_⟩
            rw [← h2]
            exact Function.update_of_ne (hmem _ List.mem_cons_self) _ _
        · intro q hq
          have : q.1 ≠ p.1 := fun hh => hp2 (hh ▸ List.mem_map_of_mem hq)
          simp only [Function.update_of_ne this]
          exact h₁ q (by simp [hq])
        · intro i hi
          have : i ≠ p.1 := by
            rintro rfl
            apply hi
            rw [hl]
            simp
          simp only [Function.update_of_ne this]
          exact h₂ i hi
      · rw [hb] at ht; simp at ht
  | closeSend envs l₁ l₂ hs hcl hp hc hl ht' hg h₁ h₂ hne =>
    cases l₂ with
    | nil => exact absurd rfl hne
    | cons i l₂ =>
      have hnd : (List.range n).Nodup := List.nodup_range
      rw [hl] at hnd
      have hi1 : i ∉ l₁ := fun hm => (List.nodup_append.1 hnd).2.2 _ hm _ (by simp) rfl
      simp only [mainTick, hc, ht', List.map_cons, List.cons_append, micro] at ht
      rw [h₂ _ hi1] at ht
      simp only [View.quiet, Option.isSome_none, Bool.false_eq_true, if_false, Option.some.injEq] at ht
      subst ht
      refine mkCloseSend envs (l₁ ++ [i]) l₂ hs hcl hp rfl (by simp [hl]) (by simp) hg ?_ ?_
      · intro j hj
        rcases List.mem_append.1 hj with hj | hj
        · have : j ≠ i := fun hh => hi1 (hh ▸ hj)
          simp only [Function.update_of_ne this]
          exact h₁ j hj
        · simp at hj; subst hj
          simp only [Function.update_self]
          exact .inl ⟨envs j, rfl⟩
      · intro j hj
        simp only [List.mem_append, List.mem_singleton, not_or] at hj
        simp only [Function.update_of_ne hj.2]
        exact h₂ j hj.1
  | closeJoin envs l₁ l₂ hs hcl hp hc hl ht' hg h₁ h₂ =>
    cases l₂ with
    | nil =>
      simp only [mainTick, hc, ht', List.map_nil, Option.some.injEq] at ht
      subst ht
      refine .user envs ?_ rfl rfl ?_ ?_
      · simp only [finish, hcl, hc]
        exact .close hs hp
      · intro hh; simp [finish, hcl] at hh
      · intro _ i hi
        exact h₁ i (by simpa [hl] using List.mem_range.2 hi)
    | cons i l₂ =>
      simp only [mainTick, hc, ht', List.map_cons, micro] at ht
      rcases h₂ i (by simp) with ⟨e, hb⟩ | hb
      · rw [hb] at ht; simp at ht
      · rw [hb] at ht
        simp only [Option.some.injEq] at ht
        subst ht
        refine .closeJoin envs (l₁ ++ [i]) l₂ hs hcl hp rfl (by simp [hl]) rfl hg ?_ ?_
        · intro j hj
          rcases List.mem_append.1 hj with hj | hj
          · exact h₁ j hj
          · simp at hj; subst hj; exact hb
        · intro j hj
          exact h₂ j (by simp [hj])

theorem inv_tick (hprog : ∀ rs c, prog rs = some c → Spec.Proper n c) {s s' : Sys E A R} {a : Actor}
    (h : Inv handle prog n envs₀ s) (ht : tick handle prog n s a = some s') : Inv handle prog n envs₀ s' := by
  cases a with
  | main => exact inv_main hprog h ht
  | worker i =>
    simp only [tick] at ht
    split at ht
    · rename_i hi
      simp only [Option.map_eq_some_iff] at ht
      obtain ⟨v, hv, rfl⟩ := ht
      exact inv_worker h hi hv
    · simp at ht

theorem inv_moves (hprog : ∀ rs c, prog rs = some c → Spec.Proper n c) : ∀ (acts : List Actor) {s s' : Sys E A R},
    Inv handle prog n envs₀ s → moves handle prog n s acts = some s' → Inv handle prog n envs₀ s'
  | [], s, s', h, ht => by simp only [moves, Option.some.injEq] at ht; subst ht; exact h
  | a :: acts, s, s', h, ht => by
    simp only [moves, Option.bind_eq_some_iff] at ht
    obtain ⟨s₁, h1, h2⟩ := ht
    exact inv_moves hprog acts (inv_tick hprog h h1) h2

theorem inv_reachable (hprog : ∀ rs c, prog rs = some c → Spec.Proper n c) {s : Sys E A R}
    (h : Spec.Reachable handle prog n envs₀ s) : Inv handle prog n envs₀ s := by
  obtain ⟨acts, h⟩ := h
  exact inv_moves hprog acts inv_init h

theorem forall₂_det {envs envs₁ envs₂ : Nat → E} {l : List (Nat × Cmd A)} {r₁ r₂ : List R}
    (h₁ : List.Forall₂ (fun p r => handle (envs p.1) p.2 = some (envs₁ p.1, r)) l r₁)
    (h₂ : List.Forall₂ (fun p r => handle (envs p.1) p.2 = some (envs₂ p.1, r)) l r₂) :
    r₁ = r₂ ∧ ∀ p ∈ l, envs₁ p.1 = envs₂ p.1 := by
  induction h₁ generalizing r₂ with
  | nil => cases h₂; simp
  | cons hx _ ih =>
    cases h₂ with
    | cons hy hys =>
      obtain ⟨h1, h2⟩ := ih hys
      rw [hx] at hy
      simp only [Option.some.injEq, Prod.mk.injEq] at hy
      refine ⟨by rw [hy.2, h1], ?_⟩
      intro p hp
      rcases List.mem_cons.1 hp with rfl | hp
      · exact hy.1
      · exact h2 p hp

/-- What the serial execution does is determined. -/
theorem serial_det {e₁ e₂ : Nat → E} {b₁ b₂ : Bool} {r₁ r₂ : List (Res R)}
    (h₁ : Spec.Serial handle prog n envs₀ e₁ b₁ r₁) (h₂ : Spec.Serial handle prog n envs₀ e₂ b₂ r₂)
    (hl : r₁.length = r₂.length) : e₁ = e₂ ∧ b₁ = b₂ ∧ r₁ = r₂ := by
  induction h₁ generalizing e₂ b₂ r₂ with
  | init =>
    cases h₂ with
    | init => simp
    | _ => simp at hl
  | @ask _ _ _ c _ h hp hc hr ha ho ih =>
    cases h₂ with
    | init => simp at hl
    | ask h' hp' hc' hr' ha' ho' =>
      obtain ⟨rfl, _, rfl⟩ := ih h' (by simpa using hl)
      rw [hp] at hp'
      simp only [Option.some.injEq] at hp'
      subst hp'
      obtain ⟨rfl, hx⟩ := forall₂_det ha ha'
      refine ⟨?_, rfl, rfl⟩
      funext i
      by_cases hi : i ∈ (Spec.cmds n c).map Prod.fst
      · obtain ⟨p, hp, rfl⟩ := List.mem_map.1 hi
        exact hx p hp
      · rw [ho i hi, ho' i hi]
    | refuse h' hp' hr' =>
      obtain ⟨rfl, _, rfl⟩ := ih h' (by simpa using hl)
      rw [hp] at hp'; simp only [Option.some.injEq] at hp'; subst hp'
      rw [hr] at hr'; simp at hr'
    | close h' hp' =>
      obtain ⟨rfl, _, rfl⟩ := ih h' (by simpa using hl)
      rw [hp] at hp'; simp only [Option.some.injEq] at hp'
      exact absurd hp' hc
    | late h' hp' =>
      obtain ⟨_, hb, _⟩ := ih h' (by simpa using hl)
      simp at hb
  | refuse h hp hr ih =>
    cases h₂ with
    | init => simp at hl
    | ask h' hp' hc' hr' ha' ho' =>
      obtain ⟨rfl, _, rfl⟩ := ih h' (by simpa using hl)
      rw [hp] at hp'; simp only [Option.some.injEq] at hp'; subst hp'
      rw [hr] at hr'; simp at hr'
    | refuse h' hp' hr' =>
      obtain ⟨rfl, _, rfl⟩ := ih h' (by simpa using hl)
      rw [hp] at hp'; simp only [Option.some.injEq] at hp'; subst hp'
      rw [hr] at hr'; simp only [Option.some.injEq] at hr'; subst hr'
      simp
    | close h' hp' =>
      obtain ⟨rfl, _, rfl⟩ := ih h' (by simpa using hl)
      rw [hp] at hp'; simp only [Option.some.injEq] at hp'; subst hp'
      simp [Spec.refused] at hr
    | late h' hp' =>
      obtain ⟨_, hb, _⟩ := ih h' (by simpa using hl)
      simp at hb
  | close h hp ih =>
    cases h₂ with
    | init => simp at hl
    | ask h' hp' hc' hr' ha' ho' =>
      obtain ⟨rfl, _, rfl⟩ := ih h' (by simpa using hl)
      rw [hp] at hp'; simp only [Option.some.injEq] at hp'
      exact absurd hp'.symm hc'
    | refuse h' hp' hr' =>
      obtain ⟨rfl, _, rfl⟩ := ih h' (by simpa using hl)
      rw [hp] at hp'; simp only [Option.some.injEq] at hp'; subst hp'
      simp [Spec.refused] at hr'
    | close h' hp' =>
      obtain ⟨rfl, _, rfl⟩ := ih h' (by simpa using hl)
      simp
    | late h' hp' =>
      obtain ⟨_, hb, _⟩ := ih h' (by simpa using hl)
      simp at hb
  | late h hp ih =>
    cases h₂ with
    | init => simp at hl
    | late h' hp' =>
      obtain ⟨rfl, _, rfl⟩ := ih h' (by simpa using hl)
      simp
    | ask h' _ _ _ _ _ => obtain ⟨_, hb, _⟩ := ih h' (by simpa using hl); simp at hb
    | refuse h' _ _ => obtain ⟨_, hb, _⟩ := ih h' (by simpa using hl); simp at hb
    | close h' _ => obtain ⟨_, hb, _⟩ := ih h' (by simpa using hl); simp at hb

/-- A later stage of the serial execution went through every earlier length. -/
theorem serial_prefix {e : Nat → E} {b : Bool} {r : List (Res R)}
    (h : Spec.Serial handle prog n envs₀ e b r) : ∀ k < r.length, ∃ e' b' r' e'' b'' x,
      Spec.Serial handle prog n envs₀ e' b' r' ∧ Spec.Serial handle prog n envs₀ e'' b'' (r' ++ [x]) ∧
      r'.length = k := by
  induction h with
  | init => simp
  | @ask _ _ rs _ _ h hp hc hr ha ho ih =>
    intro k hk
    simp only [List.length_append, List.length_singleton] at hk
    by_cases hlt : k = rs.length
    · exact ⟨_, _, _, _, _, _, h, .ask h hp hc hr ha ho, hlt.symm⟩
    · exact ih k (by omega)
  | @refuse _ rs _ _ h hp hr ih =>
    intro k hk
    simp only [List.length_append, List.length_singleton] at hk
    by_cases hlt : k = rs.length
    · exact ⟨_, _, _, _, _, _, h, .refuse h hp hr, hlt.symm⟩
    · exact ih k (by omega)
  | @close _ rs h hp ih =>
    intro k hk
    simp only [List.length_append, List.length_singleton] at hk
    by_cases hlt : k = rs.length
    · exact ⟨_, _, _, _, _, _, h, .close h hp, hlt.symm⟩
    · exact ih k (by omega)
  | @late _ rs _ h hp ih =>
    intro k hk
    simp only [List.length_append, List.length_singleton] at hk
    by_cases hlt : k = rs.length
    · exact ⟨_, _, _, _, _, _, h, .late h hp, hlt.symm⟩
    · exact ih k (by omega)

/-- An open vector environment in which environment `i` raises at the next call gets no further. -/
theorem serial_stuck {envs : Nat → E} {rs : List (Res R)} {c : Call A} {i : Nat} {m : Cmd A}
    (hs : Spec.Serial handle prog n envs₀ envs false rs) (hp : prog rs = some c) (hi : i < n)
    (hr : Spec.refused n c = none) (hm : Spec.cmd c i = some m) (hf : handle (envs i) m = none)
    {e : Nat → E} {b : Bool} {x : Res R} (h : Spec.Serial handle prog n envs₀ e b (rs ++ [x])) : False := by
  have hmem : (i, m) ∈ Spec.cmds n c := mem_cmds.2 ⟨hi, hm⟩
  generalize hrs : rs ++ [x] = rs' at h
  cases h with
  | init => simp at hrs
  | ask h' hp' hc' hr' ha' ho' =>
    obtain ⟨hrs, _⟩ := List.append_inj' hrs rfl
    subst hrs
    obtain ⟨rfl, _, _⟩ := serial_det hs h' rfl
    rw [hp] at hp'; simp only [Option.some.injEq] at hp'; subst hp'
    obtain ⟨k, hk, hkm⟩ := List.mem_iff_getElem.1 hmem
    have := ha'.get hk (by rw [← ha'.length_eq]; exact hk)
    simp only [List.get_eq_getElem, hkm, hf] at this
    simp at this
  | refuse h' hp' hr' =>
    obtain ⟨hrs, _⟩ := List.append_inj' hrs rfl
    subst hrs
    rw [hp] at hp'; simp only [Option.some.injEq] at hp'; subst hp'
    rw [hr] at hr'; simp at hr'
  | close h' hp' =>
    obtain ⟨hrs, _⟩ := List.append_inj' hrs rfl
    subst hrs
    rw [hp] at hp'; simp only [Option.some.injEq] at hp'; subst hp'
    simp [Spec.cmd] at hm
  | late h' hp' =>
    obtain ⟨hrs, _⟩ := List.append_inj' hrs rfl
    subst hrs
    obtain ⟨_, hb, _⟩ := serial_det hs h' rfl
    simp at hb

/-- How many moves are left in the current call. -/
def weight : Micro A → Nat
  | .snd _ (.cmd _) => 3
  | .snd _ .close => 2
  | .rcv _ => 1
  | .join _ => 1

def View.left (v : View E A R) : Nat :=
  (match v.toW with | some (.cmd _) => 2 | some .close => 1 | none => 0) +
  (match v.w with | .sending _ _ => 1 | _ => 0)

/-- An upper bound on the moves before the current call returns. -/
def left (n : Nat) (s : Sys E A R) : Nat :=
  (s.todo.map weight).sum + (∑ i ∈ Finset.range n, (s.ws i).left) + (if s.cur = .user then 0 else 1)

theorem sum_update (f : Nat → View E A R) (i : Nat) (v : View E A R) (n : Nat) :
    (∑ j ∈ Finset.range n, (Function.update f i v j).left) + (if i < n then (f i).left else 0)
      = (∑ j ∈ Finset.range n, (f j).left) + (if i < n then v.left else 0) := by
  induction n with
  | zero => simp
  | succ n ih =>
    rw [Finset.sum_range_succ, Finset.sum_range_succ]
    by_cases h : i = n
    · subst h
      simp only [Nat.lt_irrefl, if_false, Nat.add_zero] at ih
      simp only [Function.update_self, Nat.lt_succ_self, if_true, ih]
      omega
    · have h1 : i < n + 1 ↔ i < n := by omega
      rw [Function.update_of_ne (Ne.symm h)]
      simp only [h1]
      omega

theorem workerTick_left {v v' : View E A R} (h : workerTick handle v = some v') : v'.left < v.left := by
  obtain ⟨w, toW, fromW, closes⟩ := v
  cases w with
  | idle e =>
    cases toW with
    | none => simp [workerTick] at h
    | some m =>
      cases m with
      | close => simp only [workerTick, Option.some.injEq] at h; subst h; simp [View.left]
      | cmd m =>
        simp only [workerTick] at h
        cases hh : handle e m with
        | none => rw [hh] at h; simp only [Option.some.injEq] at h; subst h; simp [View.left]
        | some p => rw [hh] at h; simp only [Option.some.injEq] at h; subst h; simp [View.left]
  | sending e r =>
    cases fromW with
    | none => simp only [workerTick, Option.some.injEq] at h; subst h; simp [View.left]
    | some _ => simp [workerTick] at h
  | ended => simp [workerTick] at h

/-- Every move in a call brings its return nearer. -/
theorem tick_left {s s' : Sys E A R} {a : Actor} (hc : s.cur ≠ .user) (ht : tick handle prog n s a = some s') :
    left n s' < left n s ∧ (s'.cur = s.cur ∨ s'.cur = .user) ∧ s.results.length ≤ s'.results.length ∧
    (s'.cur = .user → s'.results.length = s.results.length + 1) := by
  cases a with
  | main =>
    simp only [tick, mainTick] at ht
    have key : (match s.todo with | [] => some (finish s) | m :: l => micro s l m) = some s' := by
      rcases hcur : s.cur with _ | _ | _
      · exact absurd hcur hc
      · rw [hcur] at ht; rcases htodo : s.todo with _ | ⟨m, l⟩ <;> rw [htodo] at ht <;> exact ht
      · rw [hcur] at ht; rcases htodo : s.todo with _ | ⟨m, l⟩ <;> rw [htodo] at ht <;> exact ht
    rcases htodo : s.todo with _ | ⟨m, l⟩
    · rw [htodo] at key
      simp only [Option.some.injEq] at key
      subst key
      refine ⟨?_, .inr rfl, by simp [finish], by simp [finish]⟩
      simp [left, finish, htodo, hc]
    · rw [htodo] at key
      cases m with
      | snd i m =>
        simp only [micro] at key
        split at key
        · simp at key
        · rename_i hn
          simp only [Option.some.injEq] at key
          subst key
          refine ⟨?_, .inl rfl, Nat.le_refl _, fun h => absurd h hc⟩
          have hz : (s.ws i).toW = none := by simpa using hn
          have hu := sum_update s.ws i { s.ws i with toW := some m } n
          simp only [left, htodo, hc, List.map_cons, List.sum_cons, if_false]
          have h1 : View.left ⟨(s.ws i).w, some m, (s.ws i).fromW, (s.ws i).closes⟩ <
              (s.ws i).left + weight (.snd i m) := by
            simp only [View.left, hz, weight]
            cases m <;> simp <;> omega
          by_cases hi : i < n
          · simp only [hi, if_true] at hu; omega
          · simp only [hi, if_false] at hu
            have : 0 < weight (.snd i m) := by cases m <;> simp [weight]
            omega
      | rcv i =>
        simp only [micro] at key
        split at key
        · simp at key
        · simp only [Option.some.injEq] at key
          subst key
          refine ⟨?_, .inl rfl, Nat.le_refl _, fun h => absurd h hc⟩
          have hu := sum_update s.ws i { s.ws i with fromW := none } n
          have h1 : View.left ⟨(s.ws i).w, (s.ws i).toW, none, (s.ws i).closes⟩ = (s.ws i).left := rfl
          simp only [left, htodo, hc, List.map_cons, List.sum_cons, if_false, weight]
          rw [h1] at hu
          by_cases hi : i < n
          · simp only [hi, if_true] at hu; omega
          · simp only [hi, if_false] at hu; omega
      | join i =>
        simp only [micro] at key
        split at key
        · simp only [Option.some.injEq] at key
          subst key
          refine ⟨?_, .inl rfl, Nat.le_refl _, fun h => absurd h hc⟩
          simp only [left, htodo, hc, List.map_cons, List.sum_cons, if_false, weight]
          omega
        · simp at key
  | worker i =>
    simp only [tick] at ht
    split at ht
    · rename_i hi
      simp only [Option.map_eq_some_iff] at ht
      obtain ⟨v, hv, rfl⟩ := ht
      refine ⟨?_, .inl rfl, Nat.le_refl _, fun h => absurd h hc⟩
      have h1 := workerTick_left hv
      have hu := sum_update s.ws i v n
      simp only [hi, if_true] at hu
      simp only [left, hc, if_false]
      omega
    · simp at ht

theorem moves_results_mono : ∀ (acts : List Actor) {s s' : Sys E A R}, moves handle prog n s acts = some s' →
    s.results.length ≤ s'.results.length
  | [], s, s', h => by simp only [moves, Option.some.injEq] at h; subst h; exact Nat.le_refl _
  | a :: acts, s, s', h => by
    simp only [moves, Option.bind_eq_some_iff] at h
    obtain ⟨s₁, h1, h2⟩ := h
    refine Nat.le_trans ?_ (moves_results_mono acts h2)
    by_cases hc : s.cur = .user
    · cases a with
      | main =>
        simp only [tick, mainTick, hc, Option.map_eq_some_iff] at h1
        obtain ⟨c, _, rfl⟩ := h1
        simp only [start]
        split
        · simp
        · split <;> simp
      | worker i =>
        simp only [tick] at h1
        split at h1
        · simp only [Option.map_eq_some_iff] at h1
          obtain ⟨v, _, rfl⟩ := h1
          exact Nat.le_refl _
        · simp at h1
    · exact (tick_left hc h1).2.2.1

end lemmas

/-! ## C99 -/

section props

variable (handle : E → Cmd A → Option (E × R)) (prog : List (Res R) → Option (Call A)) (n : Nat) (envs₀ : Nat → E)

/-- **C99.** Whatever the schedule and the number of processes: what the calls have returned so far is what they would
have returned in one process, one environment after the other. -/
theorem processes_serial (hprog : ∀ rs c, prog rs = some c → Spec.Proper n c) (s : Sys E A R)
    (h : Spec.Reachable handle prog n envs₀ s) : ∃ envs closed, Spec.Serial handle prog n envs₀ envs closed s.results := by
  cases inv_reachable hprog h with
  | user envs hs _ _ _ _ => exact ⟨_, _, hs⟩
  | sending envs _ _ _ hs _ _ _ _ _ _ _ _ _ _ _ => exact ⟨_, _, hs⟩
  | receiving envs _ _ _ hs _ _ _ _ _ _ _ _ _ _ => exact ⟨_, _, hs⟩
  | closeSend envs _ _ hs _ _ _ _ _ _ _ _ _ => exact ⟨_, _, hs⟩
  | closeJoin envs _ _ hs _ _ _ _ _ _ _ _ => exact ⟨_, _, hs⟩

/-- The serial execution is determined: two schedules that got equally far have returned the same. -/
theorem processes_deterministic (hprog : ∀ rs c, prog rs = some c → Spec.Proper n c) (s t : Sys E A R)
    (hs : Spec.Reachable handle prog n envs₀ s) (ht : Spec.Reachable handle prog n envs₀ t)
    (hl : s.results.length = t.results.length) : s.results = t.results := by
  obtain ⟨_, _, h1⟩ := processes_serial handle prog n envs₀ hprog s hs
  obtain ⟨_, _, h2⟩ := processes_serial handle prog n envs₀ hprog t ht
  exact (serial_det h1 h2 hl).2.2

/-- **C99.** No deadlock: unless the program is over, some process can move, or an environment raises in this call. -/
theorem processes_progress_partial (hprog : ∀ rs c, prog rs = some c → Spec.Proper n c) (s : Sys E A R)
    (h : Spec.Reachable handle prog n envs₀ s) :
    (∃ a s', tick handle prog n s a = some s') ∨ (s.cur = .user ∧ prog s.results = none) ∨
    ∃ envs c i m, Spec.Serial handle prog n envs₀ envs false s.results ∧ prog s.results = some c ∧ i < n ∧
      Spec.cmd c i = some m ∧ handle (envs i) m = none := by
  cases inv_reachable hprog h with
  | user envs hs hc hg ho hcl =>
    cases hp : prog s.results with
    | none => exact .inr (.inl ⟨hc, rfl⟩)
    | some c => exact .inl ⟨.main, start n s c, by simp [tick, mainTick, hc, hp]⟩
  | sending envs c l₁ l₂ hs hcl hp hcc hr hc hl ht' hg h₁ h₂ hne =>
    cases l₂ with
    | nil => exact absurd rfl hne
    | cons p l₂ =>
      have hnd := cmds_fst_nodup (n := n) c
      rw [hl] at hnd
      simp only [List.map_append, List.map_cons] at hnd
      have hp1 : p.1 ∉ l₁.map Prod.fst := by
        intro hm
        exact (List.nodup_append.1 hnd).2.2 _ hm _ (by simp) rfl
      refine .inl ⟨.main, ?_⟩
      simp only [tick, mainTick, hc, ht', List.map_cons, List.cons_append, micro]
      rw [h₂ _ hp1]
      simp [View.quiet]
  | receiving envs c l₁ l₂ hs hcl hp hcc hr hc hl ht' hg h₁ h₂ =>
    cases l₂ with
    | nil => exact .inl ⟨.main, finish s, by simp [tick, mainTick, hc, ht']⟩
    | cons p l₂ =>
      have hmem : (p.1, p.2) ∈ Spec.cmds n c := by rw [hl]; simp
      obtain ⟨hi, hm⟩ := mem_cmds.1 hmem
      rcases h₁ p (by simp) with hb | ⟨e', r, hh, hb | hb⟩ | ⟨hh, hb⟩
      · left
        refine ⟨.worker p.1, ?_⟩
        simp only [tick, hi, if_true, hb, workerTick]
        cases handle (envs p.1) p.2 <;> simp
      · left
        refine ⟨.worker p.1, ?_⟩
        simp [tick, hi, hb, workerTick]
      · left
        refine ⟨.main, ?_⟩
        simp [tick, mainTick, hc, ht', micro, hb]
      · exact .inr (.inr ⟨envs, c, p.1, p.2, hs, hp, hi, hm, hh⟩)
  | closeSend envs l₁ l₂ hs hcl hp hc hl ht' hg h₁ h₂ hne =>
    cases l₂ with
    | nil => exact absurd rfl hne
    | cons i l₂ =>
      have hnd : (List.range n).Nodup := List.nodup_range
      rw [hl] at hnd
      have hi1 : i ∉ l₁ := fun hm => (List.nodup_append.1 hnd).2.2 _ hm _ (by simp) rfl
      refine .inl ⟨.main, ?_⟩
      simp only [tick, mainTick, hc, ht', List.map_cons, List.cons_append, micro]
      rw [h₂ _ hi1]
      simp [View.quiet]
  | closeJoin envs l₁ l₂ hs hcl hp hc hl ht' hg h₁ h₂ =>
    cases l₂ with
    | nil => exact .inl ⟨.main, finish s, by simp [tick, mainTick, hc, ht']⟩
    | cons i l₂ =>
      have hi : i < n := by
        have : i ∈ List.range n := by rw [hl]; simp
        exact List.mem_range.1 this
      rcases h₂ i (by simp) with ⟨e, hb⟩ | hb
      · left
        refine ⟨.worker i, ?_⟩
        simp [tick, hi, hb, workerTick]
      · left
        refine ⟨.main, ?_⟩
        simp [tick, mainTick, hc, ht', micro, hb]

/-- **C99.** No endless run either: in a call, the processes together make at most `left n s` moves before the call has
returned. -/
theorem processes_bounded (s s' : Sys E A R) (hc : s.cur ≠ .user) (acts : List Actor)
    (h : moves handle prog n s acts = some s') (hlen : left n s ≤ acts.length) :
    s.results.length < s'.results.length := by
  induction acts generalizing s with
  | nil =>
    simp only [left, hc, if_false, List.length_nil] at hlen
    omega
  | cons a acts ih =>
    simp only [moves, Option.bind_eq_some_iff] at h
    obtain ⟨s₁, h1, h2⟩ := h
    obtain ⟨t1, t2, t3, t4⟩ := tick_left hc h1
    by_cases hu : s₁.cur = .user
    · have := moves_results_mono acts h2
      have := t4 hu
      omega
    · have := ih s₁ hu h2 (by simp only [List.length_cons] at hlen; omega)
      omega

/-- When `step` has just been called, at most `4 * n + 1` moves are left. -/
theorem processes_bound_step (hprog : ∀ rs c, prog rs = some c → Spec.Proper n c) (s s' : Sys E A R)
    (h : Spec.Reachable handle prog n envs₀ s) (actions : List A) (hp : prog s.results = some (.step actions))
    (hu : s.cur = .user) (hc : s.closed = false) (ht : tick handle prog n s .main = some s') :
    s'.cur ≠ .user ∧ left n s' = 4 * n + 1 := by
  have hpr : n ≤ actions.length := hprog _ _ hp
  cases inv_reachable hprog h with
  | user envs hs _ hg ho hcl =>
    simp only [tick, mainTick, hu, hp, Option.map_some, start, hc, request, Option.some.injEq] at ht
    subst ht
    refine ⟨by simp [Call.isClose], ?_⟩
    have h1 : (((List.range n).zip actions).map (weight ∘ fun p => Micro.snd p.1 (.cmd (.step p.2)))).sum = 3 * n := by
      have : (weight ∘ fun p : Nat × A => Micro.snd p.1 (.cmd (.step p.2))) = fun _ => 3 := rfl
      rw [this, List.map_const', List.sum_replicate]
      simp [hpr]
      omega
    have h2 : ((List.range n).map (weight ∘ (Micro.rcv : Nat → Micro A))).sum = n := by
      have : (weight ∘ (Micro.rcv : Nat → Micro A)) = fun _ => 1 := rfl
      rw [this, List.map_const', List.sum_replicate]
      simp
    have h3 : ∀ i, (s.ws i).left = 0 := fun i => by rw [ho hc i]; rfl
    simp [left, h1, h2, h3, Call.isClose]
    omega
  | sending envs _ _ _ _ _ _ _ _ hc' => rw [hu] at hc'; simp at hc'
  | receiving envs _ _ _ _ _ _ _ _ hc' => rw [hu] at hc'; simp at hc'
  | closeSend _ _ _ _ _ _ hc' => rw [hu] at hc'; simp at hc'
  | closeJoin _ _ _ _ _ _ hc' => rw [hu] at hc'; simp at hc'

/-- **C99.** Once `close` has returned, every process has ended and every environment has been closed exactly once, and
that remains so; every later call raises `AssertionError`. -/
theorem processes_close (hprog : ∀ rs c, prog rs = some c → Spec.Proper n c) (s : Sys E A R)
    (h : Spec.Reachable handle prog n envs₀ s) (hclosed : .closed ∈ s.results) :
    (∀ i < n, (s.ws i).w = .ended ∧ (s.ws i).closes = 1) ∧
    ∃ before after, s.results = before ++ .closed :: after ∧ ∀ r ∈ after, r = .error .assertionError := by
  have key : ∀ {e : Nat → E} {b : Bool} {r : List (Res R)}, Spec.Serial handle prog n envs₀ e b r → .closed ∈ r →
      b = true ∧ ∃ before after, r = before ++ .closed :: after ∧ ∀ x ∈ after, x = .error .assertionError := by
    intro e b r hs
    induction hs with
    | init => simp
    | ask _ _ _ _ _ _ ih => intro hm; have := ih (by simpa using hm); simp at this
    | refuse _ _ _ ih => intro hm; have := ih (by simpa using hm); simp at this
    | close hs hp ih => intro _; exact ⟨rfl, _, [], rfl, by simp⟩
    | late hs hp ih =>
      intro hm
      obtain ⟨_, before, after, h1, h2⟩ := ih (by simpa using hm)
      refine ⟨rfl, before, after ++ [.error .assertionError], by simp [h1], ?_⟩
      intro x hx
      rcases List.mem_append.1 hx with hx | hx
      · exact h2 x hx
      · simpa using hx
  cases inv_reachable hprog h with
  | user envs hs hc hg ho hcl =>
    obtain ⟨hb, hx⟩ := key hs hclosed
    exact ⟨fun i hi => by rw [hcl hb i hi]; exact ⟨rfl, rfl⟩, hx⟩
  | sending envs _ _ _ hs => have := (key hs hclosed).1; simp at this
  | receiving envs _ _ _ hs => have := (key hs hclosed).1; simp at this
  | closeSend envs _ _ hs => have := (key hs hclosed).1; simp at this
  | closeJoin envs _ _ hs => have := (key hs hclosed).1; simp at this

/-- **C99.** An environment is never closed twice, and it is closed when and only when its process ends. -/
theorem processes_close_once (hprog : ∀ rs c, prog rs = some c → Spec.Proper n c) (s : Sys E A R)
    (h : Spec.Reachable handle prog n envs₀ s) (i : Nat) (hi : i < n) :
    Spec.ClosedOnce (s.ws i) := by
  have hq : ∀ e, s.ws i = .quiet e → Spec.ClosedOnce (s.ws i) := by
    intro e he; rw [he]; simp [View.quiet, Spec.ClosedOnce]
  have hb : ∀ e m, Busy handle e m (s.ws i) → Spec.ClosedOnce (s.ws i) := by
    rintro e m (hb | ⟨e', r, hh, hb | hb⟩ | ⟨hh, hb⟩) <;> rw [hb] <;> simp [Spec.ClosedOnce]
  have hcl : Closing (s.ws i) → Spec.ClosedOnce (s.ws i) := by
    rintro (⟨e, hb⟩ | hb) <;> rw [hb] <;> simp [Spec.ClosedOnce]
  cases inv_reachable hprog h with
  | user envs hs hc hg ho hcl' =>
    cases hb' : s.closed with
    | false => exact hq _ (ho hb' i)
    | true => rw [hcl' hb' i hi]; simp [Spec.ClosedOnce]
  | sending envs c l₁ l₂ hs _ hp hcc hr hc hl ht' hg h₁ h₂ hne =>
    by_cases hm : i ∈ l₁.map Prod.fst
    · obtain ⟨p, hp', rfl⟩ := List.mem_map.1 hm
      exact hb _ _ (h₁ p hp')
    · exact hq _ (h₂ i hm)
  | receiving envs c l₁ l₂ hs _ hp hcc hr hc hl ht' hg h₁ h₂ =>
    by_cases hm : i ∈ (Spec.cmds n c).map Prod.fst
    · rw [hl] at hm
      obtain ⟨p, hp', rfl⟩ := List.mem_map.1 hm
      rcases List.mem_append.1 hp' with hp' | hp'
      · obtain ⟨k, hk, rfl⟩ := List.mem_iff_getElem.1 hp'
        obtain ⟨e', _, he⟩ := hg.get hk (by rw [← hg.length_eq]; exact hk)
        exact hq _ he
      · exact hb _ _ (h₁ p hp')
    · exact hq _ (h₂ i hm)
  | closeSend envs l₁ l₂ hs _ hp hc hl ht' hg h₁ h₂ hne =>
    by_cases hm : i ∈ l₁
    · exact hcl (h₁ i hm)
    · exact hq _ (h₂ i hm)
  | closeJoin envs l₁ l₂ hs _ hp hc hl ht' hg h₁ h₂ =>
    have : i ∈ l₁ ++ l₂ := by rw [← hl]; exact List.mem_range.2 hi
    rcases List.mem_append.1 this with hm | hm
    · rw [h₁ i hm]; simp [Spec.ClosedOnce]
    · exact hcl (h₂ i hm)

/-- **C99, violated.** If an environment raises in a call, the exception is not passed on: under every schedule the call
never returns. -/
theorem processes_failure_hangs (hprog : ∀ rs c, prog rs = some c → Spec.Proper n c) (envs : Nat → E)
    (rs : List (Res R)) (c : Call A) (i : Nat) (m : Cmd A)
    (hs : Spec.Serial handle prog n envs₀ envs false rs) (hp : prog rs = some c) (hi : i < n)
    (hr : Spec.refused n c = none) (hm : Spec.cmd c i = some m) (hf : handle (envs i) m = none) (s : Sys E A R)
    (h : Spec.Reachable handle prog n envs₀ s) : s.results.length ≤ rs.length := by
  by_contra hlt
  obtain ⟨e, b, hser⟩ := processes_serial handle prog n envs₀ hprog s h
  obtain ⟨e', b', r', e'', b'', x, h1, h2, h3⟩ := serial_prefix hser rs.length (by omega)
  obtain ⟨rfl, rfl, rfl⟩ := serial_det hs h1 h3.symm
  exact serial_stuck hs hp hi hr hm hf h2

/-- **C99, violated.** `step` with fewer actions than environments does not raise: it never returns. -/
theorem processes_fewer_actions_hang (s : Sys E A R) (actions : List A) (hlen : actions.length < n)
    (hp : prog s.results = some (.step actions)) (hu : s.cur = .user) (hc : s.closed = false)
    (e : E) (hq : s.ws actions.length = .quiet e) (acts : List Actor) (s' : Sys E A R)
    (h : moves handle prog n s acts = some s') : s'.results = s.results := by
  have key : ∀ (acts : List Actor) (t : Sys E A R), moves handle prog n t acts = some s' → t.results = s.results → t.closed = false →
      t.ws actions.length = .quiet e →
      (t.cur = .user ∨ t.cur = .asking ∧ .rcv actions.length ∈ t.todo ∧
        ∀ m, .snd actions.length m ∉ t.todo) →
      s'.results = s.results := by
    intro acts
    induction acts with
    | nil => intro t ht h1 _ _ _; simp only [moves, Option.some.injEq] at ht; rw [← ht, h1]
    | cons a acts ih =>
      intro t ht h1 hcl h2 h3
      simp only [moves, Option.bind_eq_some_iff] at ht
      obtain ⟨t₁, ht1, ht2⟩ := ht
      cases a with
      | worker i =>
        simp only [tick] at ht1
        split at ht1
        · simp only [Option.map_eq_some_iff] at ht1
          obtain ⟨v, hv, rfl⟩ := ht1
          refine ih _ ht2 h1 hcl ?_ h3
          by_cases hi : actions.length = i
          · subst hi; rw [h2, quiet_tick] at hv; simp at hv
          · simp only [Function.update_of_ne hi]; exact h2
        · simp at ht1
      | main =>
        rcases h3 with h3 | ⟨h3, hr, hns⟩
        · simp only [tick, mainTick, h3, h1, hp, Option.map_some, start, hcl, request, Bool.false_eq_true, if_false, Option.some.injEq] at ht1
          subst ht1
          refine ih _ ht2 rfl rfl h2 (.inr ⟨rfl, ?_, ?_⟩)
          · apply List.mem_append_right
            exact List.mem_map_of_mem (List.mem_range.2 hlen)
          · intro m hm
            rcases List.mem_append.1 hm with hm | hm
            · obtain ⟨p, hp', hpe⟩ := List.mem_map.1 hm
              simp only [Micro.snd.injEq] at hpe
              obtain ⟨k, hk, hkp⟩ := List.mem_iff_getElem.1 hp'
              have hk1 : k < actions.length := by simp only [List.length_zip] at hk; omega
              have : p.1 = k := by rw [← hkp]; simp
              omega
            · simp at hm
        · rcases htodo : t.todo with _ | ⟨m, l⟩
          · rw [htodo] at hr; simp at hr
          · rw [htodo] at hr hns
            simp only [tick, mainTick, h3, htodo] at ht1
            cases m with
            | snd i m =>
              simp only [micro] at ht1
              split at ht1
              · simp at ht1
              · simp only [Option.some.injEq] at ht1
                subst ht1
                have hi : actions.length ≠ i := by rintro rfl; exact hns m (by simp)
                refine ih _ ht2 h1 hcl ?_ (.inr ⟨h3, by simpa using hr, fun m' hm' => hns m' (by simp [hm'])⟩)
                simp only [Function.update_of_ne hi]; exact h2
            | rcv i =>
              simp only [micro] at ht1
              by_cases hi : actions.length = i
              · subst hi; rw [h2] at ht1; simp [View.quiet] at ht1
              · split at ht1
                · simp at ht1
                · simp only [Option.some.injEq] at ht1
                  subst ht1
                  refine ih _ ht2 h1 hcl ?_ (.inr ⟨h3, ?_, fun m' hm' => hns m' (by simp [hm'])⟩)
                  · simp only [Function.update_of_ne hi]; exact h2
                  · simpa [hi] using hr
            | join i =>
              simp only [micro] at ht1
              split at ht1
              · simp only [Option.some.injEq] at ht1
                subst ht1
                exact ih _ ht2 h1 hcl h2 (.inr ⟨h3, by simpa using hr, fun m' hm' => hns m' (by simp [hm'])⟩)
              · simp at ht1
  exact key acts s h rfl hc hq (.inl hu)

end props

/-! ### Non-vacuity -/

/-- An environment that counts, answers the sum, and raises for action `9`. -/
def demoHandle (e : Nat) : Cmd Nat → Option (Nat × Nat)
  | .step 9 => none
  | .step a => some (e + a, e + a)
  | .reset => some (0, 0)
  | .spec => some (e, 7)
  | .seed _ => some (e, 5)

/-- Reset, one step that depends on what `reset` returned, close, and a call after `close`. -/
def demoProg : List (Res Nat) → Option (Call Nat)
  | [] => some (.reset none)
  | [.replies [a, b]] => some (.step [a + 1, b + 2])
  | [_, _] => some .close
  | [_, _, .closed] => some .spec
  | _ => none

theorem demoProper : ∀ rs c, demoProg rs = some c → Spec.Proper 2 c := by
  intro rs c h
  unfold demoProg at h
  split at h <;> simp only [Option.some.injEq, reduceCtorEq] at h <;> subst h <;> simp [Spec.Proper]

/-- A whole run, with the second worker first, to the end. -/
example : (moves demoHandle demoProg 2 (Sys.init fun _ => 3)
    ([.main, .main, .main, .worker 1, .worker 0, .worker 1, .worker 0, .main, .main, .main] ++
     [.main, .main, .worker 0, .main, .worker 1, .worker 1, .worker 0, .main, .main, .main] ++
     [.main, .main, .main, .worker 1, .worker 0, .main, .main, .main, .main])).map (fun s => s.results)
    = some [.replies [0, 0], .replies [1, 2], .closed, .error .assertionError] := by decide

/-- An environment that raises: nothing moves any more, and the call has not returned. -/
example : ((moves demoHandle (fun _ => some (.step [9, 1])) 2 (Sys.init fun _ => 3)
    [.main, .main, .main, .worker 0, .worker 1, .worker 1]).map fun s =>
      (s.results, s.cur, (tick demoHandle (fun _ => some (.step [9, 1])) 2 s .main).isSome,
        (tick demoHandle (fun _ => some (.step [9, 1])) 2 s (.worker 0)).isSome,
        (tick demoHandle (fun _ => some (.step [9, 1])) 2 s (.worker 1)).isSome))
    = some ([], .asking, false, false, false) := by decide

example (s : Sys Nat Nat Nat)
    (h : Spec.Reachable demoHandle (fun _ => some (.step [9, 1])) 2 (fun _ => 3) s) : s.results.length ≤ 0 :=
  processes_failure_hangs demoHandle _ 2 _ (by simp [Spec.Proper]) _ [] (.step [9, 1]) 0 (.step 9) .init rfl (by decide)
    rfl rfl rfl s h

example (acts : List Actor) (s' : Sys Nat Nat Nat)
    (h : moves demoHandle (fun _ => some (.step [1])) 2 (Sys.init fun _ => 3) acts = some s') : s'.results = [] :=
  processes_fewer_actions_hang demoHandle _ 2 _ [1] (by decide) rfl rfl rfl 3 rfl acts s' h

end Pfrl.Envs.Lifecycle
