import Verif.Persist.Props
import Verif.Replay.Model

/-!
# Persistent replay buffers (C80, C81)

`pfrl/replay_buffers/persistent.py`: `PersistentReplayBuffer` and `PersistentEpisodicReplayBuffer` (not distributed, without an
ancestor, for which see C66).
-/

namespace Pfrl.Persist

open Queue (RAQ Sim Op Res)
open Queue.Spec (keep newest inserted)
open Replay (Tr RB)

variable {α ε π : Type _} [DecidableEq ε]

/-! ## Model -/

/-- The memory of a persistent buffer: what has been written since opening, and the queue. -/
structure Mem (α : Type _) where
  effs : List Eff
  q : PQ α

/-- `self.memory.append`. -/
def Mem.push (cd : Codec α) (ck : Nat) (m : Mem α) (x : α) : Except PyErr (Mem α) :=
  match m.q.append cd ck x with
  | .error e => .error e
  | .ok (effs, q) => .ok ⟨m.effs ++ effs, q⟩

/-- `PersistentReplayBuffer.__init__`, `persistent.py:42-60`: `ReplayBuffer.__init__(capacity)` with `num_steps = 1`, then the memory
is replaced. -/
def openReplay (cd : Codec (List (Tr π))) (ck : Nat) (d : Dir) (capacity : Option Int) :
    Except PyErr (RB ε π (Mem (List (Tr π)))) :=
  match (RB.new capacity 1 : Except PyErr (RB ε π (RAQ (List (Tr π))))) with
  | .error e => .error e
  | .ok b =>
    match PQ.open cd ck d capacity with
    | .error e => .error e
    | .ok (effs, q) => .ok ⟨b.numSteps, ⟨effs, q⟩, b.last⟩

/-- Two queues in two directories: `false` is `episodic_memory`, `true` is `memory`.  `effs` is everything written since opening, in
order, with the directory. -/
structure Two (α : Type _) where
  effs : List (Bool × Eff)
  q : Bool → PQ α

/-- `append` to one of the queues. -/
def Two.push (cd : Codec α) (ck : Nat) (m : Two α) (side : Bool) (x : α) : Except PyErr (Two α) :=
  match (m.q side).append cd ck x with
  | .error e => .error e
  | .ok (effs, q) => .ok ⟨m.effs ++ effs.map (Prod.mk side), Function.update m.q side q⟩

/-- Several of them in a row. -/
def Two.pushAll (cd : Codec α) (ck : Nat) (m : Two α) : List (Bool × α) → Except PyErr (Two α)
  | [] => .ok m
  | (side, x) :: rest =>
    match m.push cd ck side x with
    | .error e => .error e
    | .ok m' => Two.pushAll cd ck m' rest

/-- `PersistentEpisodicReplayBuffer`, `persistent.py:84-165`, with the attributes of `EpisodicReplayBuffer`, `episodic.py:13-17`. -/
structure EpBuf (ε π : Type _) where
  capacity : Option Int
  current : ε → List (Tr π)
  mem : Two (List (Tr π))

/-- `PersistentEpisodicReplayBuffer.__init__`, `persistent.py:109-157`: both directories get the capacity as `maxlen`; `memory` is
opened first. -/
def openEpisodic (cd : Codec (List (Tr π))) (ck : Nat) (d : Bool → Dir) (capacity : Option Int) : Except PyErr (EpBuf ε π) :=
  match PQ.open cd ck (d true) capacity with
  | .error e => .error e
  | .ok (effs, q) =>
    match PQ.open cd ck (d false) capacity with
    | .error e => .error e
    | .ok (effs', q') => .ok ⟨capacity, fun _ => [], ⟨effs.map (Prod.mk true) ++ effs'.map (Prod.mk false), fun b => if b then q else q'⟩⟩

/-- The test of the loop that evicts episodes, `episodic.py:94`. -/
def EpBuf.tooLong (capacity : Option Int) (m : Two (List (Tr π))) : Bool :=
  match capacity with
  | none => false
  | some c => decide (((m.q true).len : Int) > c)

/-- `stop_current_episode`, `episodic.py:87-98`.  The eviction loop calls `len` of the result of `popleft`, which is `None` for
persistent queues: if it were entered, it would raise. -/
def EpBuf.stop (cd : Codec (List (Tr π))) (ck : Nat) (b : EpBuf ε π) (env : ε) : Except PyErr (EpBuf ε π) :=
  if b.current env = [] then .ok b
  else
    match b.mem.pushAll cd ck ((false, b.current env) :: (b.current env).map fun t => (true, [t])) with
    | .error e => .error e
    | .ok m =>
      if EpBuf.tooLong b.capacity m then .error .typeError
      else .ok { b with current := Function.update b.current env [], mem := m }

/-- `append`, `episodic.py:19-42`. -/
def EpBuf.append (cd : Codec (List (Tr π))) (ck : Nat) (b : EpBuf ε π) (env : ε) (t : Tr π) : Except PyErr (EpBuf ε π) :=
  let b' := { b with current := Function.update b.current env (b.current env ++ [t]) }
  if t.terminal then b'.stop cd ck env else .ok b'

/-- One call that stores data. -/
def EpBuf.step (cd : Codec (List (Tr π))) (ck : Nat) (b : EpBuf ε π) : Replay.Op ε π → Except PyErr (EpBuf ε π)
  | .append e t => b.append cd ck e t
  | .stop e => b.stop cd ck e

/-- A history of calls. -/
def EpBuf.run (cd : Codec (List (Tr π))) (ck : Nat) (b : EpBuf ε π) : List (Replay.Op ε π) → Except PyErr (EpBuf ε π)
  | [] => .ok b
  | op :: ops =>
    match b.step cd ck op with
    | .error e => .error e
    | .ok b' => EpBuf.run cd ck b' ops

/-- What is in the two directories after some writes. -/
def applyTwo (d : Bool → Dir) (effs : List (Bool × Eff)) (side : Bool) : Dir :=
  (d side).applyAll ((effs.filter fun e => e.1 = side).map Prod.snd)

/-! ## Specification -/

/-- The transitions given to `append`, in order, each as a list of one, as a replay buffer stores them. -/
def Spec.appended : List (Replay.Op ε π) → List (List (Tr π))
  | [] => []
  | .append _ t :: ops => [t] :: Spec.appended ops
  | .stop _ :: ops => Spec.appended ops

/-- The episodes finished by a list of calls, in the order of their ends; `cur` are the unfinished ones before the calls. -/
def Spec.finished (cur : ε → List (Tr π)) : List (Replay.Op ε π) → List (List (Tr π))
  | [] => []
  | .append e t :: ops =>
    if t.terminal then (cur e ++ [t]) :: Spec.finished (Function.update cur e []) ops
    else Spec.finished (Function.update cur e (cur e ++ [t])) ops
  | .stop e :: ops =>
    if cur e = [] then Spec.finished cur ops else cur e :: Spec.finished (Function.update cur e []) ops

/-- The transitions of episodes, each as a list of one. -/
def Spec.transitions (eps : List (List (Tr π))) : List (List (Tr π)) := eps.flatten.map fun t => [t]

/-! ## Lemmas: one session of appends -/

theorem run_snoc {cd : Codec α} {ck : Nat} (op : Op α) : ∀ {ops : List (Op α)} {q q' : PQ α} {e : List Eff} {outs : List (Res α)},
    q.run cd ck ops = .ok (e, outs, q') →
    q.run cd ck (ops ++ [op]) = match q'.step cd ck op with
      | .error er => .error er
      | .ok (e2, o, q2) => .ok (e ++ e2, outs ++ [o], q2)
  | [], q, q', e, outs, h => by
    cases h
    simp only [List.nil_append, PQ.run]
    cases q.step cd ck op with
    | error er => rfl
    | ok r => simp
  | op' :: ops, q, q', e, outs, h => by
    unfold PQ.run at h
    split at h
    · cases h
    · rename_i e1 o1 q1 hs
      split at h
      · cases h
      · rename_i e2 o2 q2 hr
        cases h
        simp only [List.cons_append, PQ.run, hs, run_snoc op hr]
        cases q'.step cd ck op with
        | error er => rfl
        | ok r => simp

/-- A queue was opened and `xs` were appended; `e` is all that was written. -/
def Sess (cd : Codec α) (ck : Nat) (d : Dir) (cap : Option Nat) (e : List Eff) (q : PQ α) (xs : List α) : Prop :=
  ∃ e0 q0 e1 outs, PQ.open cd ck d (cap.map Int.ofNat) = .ok (e0, q0) ∧
    q0.run cd ck (xs.map Op.append) = .ok (e1, outs, q) ∧ e = e0 ++ e1

theorem inserted_appends (xs : List α) : inserted (xs.map Op.append) = xs := by
  induction xs with
  | nil => rfl
  | cons x xs ih => rw [List.map_cons, inserted_cons, ih]; rfl

theorem Sess.append {cd : Codec α} {ck : Nat} {d : Dir} {cap : Option Nat} {e e2 : List Eff} {q q2 : PQ α} {xs : List α} {x : α}
    (h : Sess cd ck d cap e q xs) (ha : q.append cd ck x = .ok (e2, q2)) : Sess cd ck d cap (e ++ e2) q2 (xs ++ [x]) := by
  obtain ⟨e0, q0, e1, outs, h1, h2, rfl⟩ := h
  refine ⟨e0, q0, e1 ++ e2, outs ++ [.unit], h1, ?_, by rw [List.append_assoc]⟩
  rw [List.map_append, List.map_cons, List.map_nil, run_snoc _ h2]
  simp [PQ.step, ha]

theorem Sess.history {cd : Codec α} {ck : Nat} {d : Dir} {cap : Option Nat} {e : List Eff} {q : PQ α} {xs all : List α}
    (h : Sess cd ck d cap e q xs) (hh : Spec.History cd ck d all) : Spec.History cd ck (d.applyAll e) (all ++ xs) := by
  obtain ⟨e0, q0, e1, outs, h1, h2, rfl⟩ := h
  have := Spec.History.session hh h1 h2
  rwa [inserted_appends] at this

theorem Sess.crash {cd : Codec α} {ck : Nat} {d : Dir} {cap : Option Nat} {e e2 p : List Eff} {q q2 : PQ α} {xs all : List α} {x : α}
    (h : Sess cd ck d cap e q xs) (hh : Spec.History cd ck d all) (ha : q.append cd ck x = .ok (e2, q2)) (hp : p <+: e2) :
    (p = e2 ∧ Spec.History cd ck (d.applyAll (e ++ p)) (all ++ (xs ++ [x]))) ∨
      (p ≠ e2 ∧ Spec.History cd ck (d.applyAll (e ++ p)) (all ++ xs)) := by
  by_cases hpe : p = e2
  · subst hpe
    exact Or.inl ⟨rfl, (h.append ha).history hh⟩
  · refine Or.inr ⟨hpe, ?_⟩
    obtain ⟨q1, hw⟩ : ∃ q1, q.write cd ck x = .ok (e2, q1) := by
      unfold PQ.append at ha
      split at ha
      · cases ha
      · rename_i e3 q3 hw
        split at ha
        · cases ha
        · cases ha; exact ⟨q3, hw⟩
    obtain ⟨e0, q0, e1, outs, h1, h2, rfl⟩ := h
    have := Spec.History.crashWrite hh h1 h2 (ys := []) rfl hw hp hpe
    simp only [List.nil_append, List.append_nil, inserted_appends] at this
    rwa [List.append_assoc]

/-- The items can be written: each pickles to less than `2^64` bytes, and there are not too many. -/
def Spec.Fits (cd : Codec α) (ck : Nat) (d : Dir) (xs : List α) : Prop :=
  0 < ck ∧ ck < 2 ^ 64 ∧ (∀ x ∈ xs, (cd.dumps x).length < 2 ^ 64) ∧ d.bound + 1 + xs.length ≤ 2 ^ 64

theorem Spec.Fits.of_append {cd : Codec α} {ck : Nat} {d : Dir} {xs ys : List α} (h : Spec.Fits cd ck d (xs ++ ys)) :
    Spec.Fits cd ck d xs := by
  obtain ⟨h1, h2, h3, h4⟩ := h
  rw [List.length_append] at h4
  exact ⟨h1, h2, fun x hx => h3 x (by simp [hx]), by omega⟩

theorem session_appends {cd : Codec α} (hcd : cd.Lawful) {ck : Nat} {d : Dir} {all : List α} (hh : Spec.History cd ck d all)
    {cap : Option Nat} (hcap : ∀ m, cap = some m → 0 < m) {xs : List α} (hf : Spec.Fits cd ck d xs) :
    ∃ e q, Sess cd ck d cap e q xs ∧ q.iter = keep cap (all ++ xs) := by
  obtain ⟨hck, hck', hsize, hgens⟩ := hf
  obtain ⟨cs, c1, c2, c3⟩ := history_chunks hcd hck hh
  obtain ⟨e0, q0, g1, g2, _, _, ⟨cs', g5, _⟩, _, hgen⟩ := open_spec hcd hck c1 c3 hcap
  rw [c2] at g2
  have hc := c1.bound
  obtain ⟨e1, outs, q1, k1, _, k3⟩ := run_matches hck hck' (xs.map Op.append) g5 g2 (by
      intro op hop
      obtain ⟨x, _, rfl⟩ := List.mem_map.mp hop
      rfl) (by rw [inserted_appends]; exact hsize) (by rw [inserted_appends]; omega)
  refine ⟨e0 ++ e1, q1, ⟨e0, q0, e1, outs, g1, k1, rfl⟩, ?_⟩
  have := Queue.run_inserts cap (xs.map Op.append) (by
    intro op hop
    obtain ⟨x, _, rfl⟩ := List.mem_map.mp hop
    rfl) all
  rw [inserted_appends] at this
  rw [← this]
  exact k3.1

theorem Sess.det {cd : Codec α} {ck : Nat} {d : Dir} {cap : Option Nat} {e e' : List Eff} {q q' : PQ α} {xs : List α}
    (h : Sess cd ck d cap e q xs) (h' : Sess cd ck d cap e' q' xs) : e = e' ∧ q = q' := by
  obtain ⟨e0, q0, e1, o, h1, h2, rfl⟩ := h
  obtain ⟨e0', q0', e1', o', h1', h2', rfl⟩ := h'
  rw [h1] at h1'
  cases h1'
  rw [h2] at h2'
  cases h2'
  exact ⟨rfl, rfl⟩

theorem Sess.iter {cd : Codec α} (hcd : cd.Lawful) {ck : Nat} {d : Dir} {all : List α} (hh : Spec.History cd ck d all)
    {cap : Option Nat} (hcap : ∀ m, cap = some m → 0 < m) {xs : List α} (hf : Spec.Fits cd ck d xs) {e : List Eff} {q : PQ α}
    (h : Sess cd ck d cap e q xs) : q.iter = keep cap (all ++ xs) := by
  obtain ⟨e', q', h1, h2⟩ := session_appends hcd hh hcap hf
  rw [(h.det h1).2]
  exact h2

theorem Sess.next {cd : Codec α} (hcd : cd.Lawful) {ck : Nat} {d : Dir} {all : List α} (hh : Spec.History cd ck d all)
    {cap : Option Nat} (hcap : ∀ m, cap = some m → 0 < m) {xs : List α} {x : α} (hf : Spec.Fits cd ck d (xs ++ [x])) {e : List Eff}
    {q : PQ α} (h : Sess cd ck d cap e q xs) : ∃ e2 q2, q.append cd ck x = .ok (e2, q2) := by
  obtain ⟨e', q', ⟨e0', q0', e1', o', h1', h2', rfl⟩, _⟩ := session_appends hcd hh hcap hf
  obtain ⟨e0, q0, e1, o, h1, h2, rfl⟩ := h
  rw [h1] at h1'
  cases h1'
  rw [List.map_append, List.map_cons, List.map_nil, run_snoc _ h2] at h2'
  simp only [PQ.step] at h2'
  cases ha : q.append cd ck x with
  | error er => rw [ha] at h2'; cases h2'
  | ok r => exact ⟨r.1, r.2, rfl⟩

theorem reopen {cd : Codec α} (hcd : cd.Lawful) {ck : Nat} (hck : 0 < ck) {d : Dir} {all : List α} (hh : Spec.History cd ck d all)
    {cap : Option Nat} (hcap : ∀ m, cap = some m → 0 < m) :
    ∃ e q, PQ.open cd ck d (cap.map Int.ofNat) = .ok (e, q) ∧ q.iter = keep cap all := by
  obtain ⟨cs, c1, c2, c3⟩ := history_chunks hcd hck hh
  obtain ⟨e, q, g1, g2, _⟩ := open_spec hcd hck c1 c3 hcap
  rw [c2] at g2
  exact ⟨e, q, g1, g2.1⟩

/-! ## Lemmas: the replay buffer -/

/-- With `num_steps = 1`, `append` stores the transition at once and `stop_current_episode` stores nothing. -/
theorem append_one {M : Type _} (push : M → List (Tr π) → Except PyErr M) (b : RB ε π M) (h1 : b.numSteps = 1)
    (h2 : ∀ e, (b.last e).length ≤ 1) (env : ε) (t : Tr π) :
    match push b.memory [t] with
    | .error e => b.append push env t = .error e
    | .ok m => ∃ b', b.append push env t = .ok b' ∧ b'.memory = m ∧ b'.numSteps = 1 ∧ ∀ e, (b'.last e).length ≤ 1 := by
  have hw : Replay.dequeAppend b.numSteps (b.last env) t = [t] := by
    have := h2 env
    unfold Replay.dequeAppend
    rw [h1]
    match hl : b.last env with
    | [] => simp
    | [x] => simp
    | x :: y :: r => rw [hl] at this; simp at this
  have hlast : ∀ (l : List (Tr π)), l.length ≤ 1 → ∀ e, (Function.update b.last env l e).length ≤ 1 := by
    intro l hl e
    by_cases he : e = env
    · subst he
      simpa using hl
    · simpa [Function.update_of_ne he] using h2 e
  unfold RB.append
  simp only [hw]
  cases ht : t.terminal with
  | true =>
    simp only [if_true, Replay.drain]
    cases push b.memory [t] with
    | error e => rfl
    | ok m => exact ⟨_, rfl, rfl, h1, hlast [] (by simp)⟩
  | false =>
    simp only [h1, List.length_singleton, if_true, Bool.false_eq_true, if_false]
    cases push b.memory [t] with
    | error e => rfl
    | ok m => exact ⟨_, rfl, rfl, rfl, hlast [t] (by simp)⟩

theorem stop_one {M : Type _} (push : M → List (Tr π) → Except PyErr M) (b : RB ε π M) (h1 : b.numSteps = 1)
    (h2 : ∀ e, (b.last e).length ≤ 1) (env : ε) :
    ∃ b', b.stop push env = .ok b' ∧ b'.memory = b.memory ∧ b'.numSteps = 1 ∧ ∀ e, (b'.last e).length ≤ 1 := by
  have hle := h2 env
  have hlast : ∀ e, (Function.update b.last env [] e).length ≤ 1 := by
    intro e
    by_cases he : e = env
    · subst he
      simp
    · simpa [Function.update_of_ne he] using h2 e
  unfold RB.stop
  simp only
  rw [if_neg (by rw [h1]; omega)]
  have : (if 0 < (b.last env).length ∧ (b.last env).length ≤ b.numSteps then (b.last env).drop 1 else b.last env) = [] := by
    match hl : b.last env with
    | [] => simp
    | [x] => simp [h1]
    | x :: y :: r => rw [hl] at hle; simp at hle
  simp only [this, Replay.drain]
  exact ⟨_, rfl, rfl, h1, hlast⟩

/-- What is known about a persistent replay buffer after some transitions. -/
structure Running (cd : Codec (List (Tr π))) (ck : Nat) (d : Dir) (cap : Option Nat) (b : RB ε π (Mem (List (Tr π))))
    (xs : List (List (Tr π))) : Prop where
  one : b.numSteps = 1
  short : ∀ e, (b.last e).length ≤ 1
  sess : Sess cd ck d cap b.memory.effs b.memory.q xs

theorem Running.append {cd : Codec (List (Tr π))} {ck : Nat} {d : Dir} {cap : Option Nat} {b b' : RB ε π (Mem (List (Tr π)))}
    {xs : List (List (Tr π))} (h : Running cd ck d cap b xs) {env : ε} {t : Tr π}
    (ha : b.append (Mem.push cd ck) env t = .ok b') :
    Running cd ck d cap b' (xs ++ [[t]]) ∧ ∃ e q, b.memory.q.append cd ck [t] = .ok (e, q) ∧ b'.memory.effs = b.memory.effs ++ e := by
  have := append_one (Mem.push cd ck) b h.one h.short env t
  unfold Mem.push at this
  cases hq : b.memory.q.append cd ck [t] with
  | error e =>
    rw [hq] at this
    unfold Mem.push at ha
    rw [this] at ha
    cases ha
  | ok r =>
    rw [hq] at this
    obtain ⟨b'', h1, h2, h3, h4⟩ := this
    unfold Mem.push at ha
    rw [h1] at ha
    cases ha
    refine ⟨⟨h3, h4, ?_⟩, r.1, r.2, rfl, by rw [h2]⟩
    rw [h2]
    exact h.sess.append hq

theorem Running.stop {cd : Codec (List (Tr π))} {ck : Nat} {d : Dir} {cap : Option Nat} {b b' : RB ε π (Mem (List (Tr π)))}
    {xs : List (List (Tr π))} (h : Running cd ck d cap b xs) {env : ε} (ha : b.stop (Mem.push cd ck) env = .ok b') :
    Running cd ck d cap b' xs ∧ b'.memory.effs = b.memory.effs := by
  obtain ⟨b'', h1, h2, h3, h4⟩ := stop_one (Mem.push cd ck) b h.one h.short env
  rw [h1] at ha
  cases ha
  exact ⟨⟨h3, h4, by rw [h2]; exact h.sess⟩, by rw [h2]⟩

theorem Running.run {cd : Codec (List (Tr π))} {ck : Nat} {d : Dir} {cap : Option Nat} : ∀ (ops : List (Replay.Op ε π))
    {b b' : RB ε π (Mem (List (Tr π)))} {xs : List (List (Tr π))}, Running cd ck d cap b xs →
    b.run (Mem.push cd ck) ops = .ok b' → Running cd ck d cap b' (xs ++ Spec.appended ops)
  | [], b, b', xs, h, hr => by
    cases hr
    simpa [Spec.appended] using h
  | .append e t :: ops, b, b', xs, h, hr => by
    simp only [RB.run, RB.step] at hr
    cases ha : b.append (Mem.push cd ck) e t with
    | error er => rw [ha] at hr; cases hr
    | ok b1 =>
      rw [ha] at hr
      have := Running.run ops (h.append ha).1 hr
      simpa [Spec.appended] using this
  | .stop e :: ops, b, b', xs, h, hr => by
    simp only [RB.run, RB.step] at hr
    cases ha : b.stop (Mem.push cd ck) e with
    | error er => rw [ha] at hr; cases hr
    | ok b1 =>
      rw [ha] at hr
      have := Running.run ops (h.stop ha).1 hr
      simpa [Spec.appended] using this

theorem Running.run_ok {cd : Codec (List (Tr π))} (hcd : cd.Lawful) {ck : Nat} {d : Dir} {all : List (List (Tr π))}
    (hh : Spec.History cd ck d all) {cap : Option Nat} (hcap : ∀ m, cap = some m → 0 < m) : ∀ (ops : List (Replay.Op ε π))
    {b : RB ε π (Mem (List (Tr π)))} {xs : List (List (Tr π))}, Running cd ck d cap b xs →
    Spec.Fits cd ck d (xs ++ Spec.appended ops) → ∃ b', b.run (Mem.push cd ck) ops = .ok b'
  | [], b, xs, h, _ => ⟨b, rfl⟩
  | .append e t :: ops, b, xs, h, hf => by
    have hf' : Spec.Fits cd ck d ((xs ++ [[t]]) ++ Spec.appended ops) := by simpa [Spec.appended] using hf
    obtain ⟨e2, q2, ha⟩ := h.sess.next hcd hh hcap hf'.of_append
    have := append_one (Mem.push cd ck) b h.one h.short e t
    unfold Mem.push at this
    rw [ha] at this
    obtain ⟨b1, h1, _⟩ := this
    have h1 : b.append (Mem.push cd ck) e t = .ok b1 := h1
    obtain ⟨b2, h2⟩ := Running.run_ok hcd hh hcap ops (h.append h1).1 hf'
    exact ⟨b2, by simp only [RB.run, RB.step, h1, h2]⟩
  | .stop e :: ops, b, xs, h, hf => by
    obtain ⟨b1, h1, _⟩ := stop_one (Mem.push cd ck) b h.one h.short e
    obtain ⟨b2, h2⟩ := Running.run_ok hcd hh hcap ops (h.stop h1).1 hf
    exact ⟨b2, by simp only [RB.run, RB.step, h1, h2]⟩

omit [DecidableEq ε] in
theorem openReplay_running {cd : Codec (List (Tr π))} {ck : Nat} {d : Dir} {cap : Option Nat} {b : RB ε π (Mem (List (Tr π)))}
    (h : openReplay cd ck d (cap.map Int.ofNat) = .ok b) : Running cd ck d cap b [] := by
  unfold openReplay at h
  split at h
  · cases h
  · rename_i b0 hb0
    split at h
    · cases h
    · rename_i e q ho
      cases h
      obtain ⟨m, hm, _⟩ := RAQ.new_sim cap ([] : List (List (Tr π)))
      simp only [RB.new, hm] at hb0
      cases hb0
      exact ⟨rfl, by simp, e, q, [], [], ho, rfl, by simp⟩

omit [DecidableEq ε] in
theorem openReplay_ok {cd : Codec (List (Tr π))} (hcd : cd.Lawful) {ck : Nat} (hck : 0 < ck) {d : Dir} {all : List (List (Tr π))}
    (hh : Spec.History cd ck d all) {cap : Option Nat} (hcap : ∀ m, cap = some m → 0 < m) :
    ∃ b : RB ε π (Mem (List (Tr π))), openReplay cd ck d (cap.map Int.ofNat) = .ok b ∧ b.memory.q.iter = keep cap all := by
  obtain ⟨e, q, h1, h2⟩ := reopen hcd hck hh hcap
  obtain ⟨m, hm, _⟩ := RAQ.new_sim cap ([] : List (List (Tr π)))
  exact ⟨⟨1, ⟨e, q⟩, fun _ => []⟩, by simp [openReplay, RB.new, hm, h1], h2⟩

/-! ## C80 -/

/-- **C80 (in use).** Take a directory left by any history of sessions and crashes that holds the transitions `all` (C20), and open it
as a persistent replay buffer of any capacity.  No call of `append` or `stop_current_episode`, from any environments in any
order, fails, and the buffer then holds exactly the newest `capacity` of all transitions ever stored: those of earlier
sessions and those appended now, in the order of arrival, whether their episodes have ended or not. -/
theorem persistent_replay_contents {cd : Codec (List (Tr π))} (hcd : cd.Lawful) {ck : Nat} {d : Dir} {all : List (List (Tr π))}
    (hh : Spec.History cd ck d all) (cap : Option Nat) (hcap : ∀ m, cap = some m → 0 < m) (ops : List (Replay.Op ε π))
    (hf : Spec.Fits cd ck d (Spec.appended ops)) :
    ∃ b b' : RB ε π (Mem (List (Tr π))), openReplay cd ck d (cap.map Int.ofNat) = .ok b ∧ b.run (Mem.push cd ck) ops = .ok b' ∧
      b'.memory.q.iter = keep cap (all ++ Spec.appended ops) := by
  obtain ⟨b, h1, _⟩ := openReplay_ok (ε := ε) hcd hf.1 hh hcap
  have hr := openReplay_running h1
  obtain ⟨b', h2⟩ := hr.run_ok hcd hh hcap ops hf
  refine ⟨b, b', h1, h2, ?_⟩
  have := (hr.run ops h2).sess.iter hcd hh hcap hf
  simpa using this

/-- **C80 (crash).** Let the process die at any byte of any call.  Opening the directory again, with any capacity, succeeds, and the
buffer holds exactly the newest `capacity` of all transitions of earlier sessions and of the calls completed in this one,
followed by the transition of the interrupted call only if all of it had been written.  What has been stored stays stored,
even if its episode had not ended. -/
theorem persistent_replay_crash {cd : Codec (List (Tr π))} (hcd : cd.Lawful) {ck : Nat} {d : Dir} {all : List (List (Tr π))}
    (hh : Spec.History cd ck d all) (cap cap' : Option Nat) (hcap' : ∀ m, cap' = some m → 0 < m) (ops : List (Replay.Op ε π))
    (hck : 0 < ck) {b b1 b2 : RB ε π (Mem (List (Tr π)))} {op : Replay.Op ε π}
    (ho : openReplay cd ck d (cap.map Int.ofNat) = .ok b) (hr : b.run (Mem.push cd ck) ops = .ok b1)
    (hs : b1.step (Mem.push cd ck) op = .ok b2) (p : List Eff) (hp : b1.memory.effs ++ p <+: b2.memory.effs) :
    ∃ c : RB ε π (Mem (List (Tr π))),
      openReplay cd ck (d.applyAll (b1.memory.effs ++ p)) (cap'.map Int.ofNat) = .ok c ∧
      (c.memory.q.iter = keep cap' (all ++ Spec.appended ops) ∨
        (b1.memory.effs ++ p = b2.memory.effs ∧ c.memory.q.iter = keep cap' (all ++ Spec.appended (ops ++ [op])))) := by
  have happ : ∀ ops' : List (Replay.Op ε π), Spec.appended (ops ++ ops') = Spec.appended ops ++ Spec.appended ops' := by
    intro ops'
    clear hr
    induction ops with
    | nil => rfl
    | cons o ops ih => cases o <;> simp [Spec.appended, ih]
  have hrun := (openReplay_running ho).run ops hr
  rw [List.nil_append] at hrun
  cases op with
  | append e t =>
    obtain ⟨_, e2, q2, h1, h2⟩ := hrun.append (show b1.append (Mem.push cd ck) e t = .ok b2 from hs)
    rw [h2] at hp ⊢
    have hp' : p <+: e2 := (List.prefix_append_right_inj _).mp hp
    rcases hrun.sess.crash hh h1 hp' with ⟨h3, h4⟩ | ⟨_, h4⟩
    · obtain ⟨c, k1, k2⟩ := openReplay_ok (ε := ε) hcd hck h4 hcap'
      refine ⟨c, k1, Or.inr ⟨by rw [h3], ?_⟩⟩
      rw [k2, happ]
      simp [Spec.appended]
    · obtain ⟨c, k1, k2⟩ := openReplay_ok (ε := ε) hcd hck h4 hcap'
      exact ⟨c, k1, Or.inl k2⟩
  | stop e =>
    obtain ⟨_, h2⟩ := hrun.stop (show b1.stop (Mem.push cd ck) e = .ok b2 from hs)
    rw [h2] at hp
    have hp' : p = [] := by
      have := hp.length_le
      rw [List.length_append] at this
      exact List.length_eq_zero_iff.mp (by omega)
    subst hp'
    rw [List.append_nil]
    obtain ⟨c, k1, k2⟩ := openReplay_ok (ε := ε) hcd hck (hrun.sess.history hh) hcap'
    exact ⟨c, k1, Or.inl k2⟩

/-! ## Lemmas: two queues -/

/-- The items of one of the queues. -/
def items (W : List (Bool × α)) (side : Bool) : List α := (W.filter fun w => w.1 = side).map Prod.snd

theorem items_append (W W' : List (Bool × α)) (side : Bool) : items (W ++ W') side = items W side ++ items W' side := by
  simp [items]

theorem items_map (l : List (Tr π)) :
    items (l.map fun t => (true, [t])) false = [] ∧ items (l.map fun t => (true, [t])) true = l.map fun t => [t] := by
  induction l with
  | nil => exact ⟨rfl, rfl⟩
  | cons t l ih =>
    unfold items at ih ⊢
    rw [List.map_cons, List.filter_cons, List.filter_cons]
    exact ⟨ih.1, congrArg ([t] :: ·) ih.2⟩

theorem items_episode (ep : List (Tr π)) :
    items ((false, ep) :: ep.map fun t => (true, [t])) false = [ep] ∧
      items ((false, ep) :: ep.map fun t => (true, [t])) true = ep.map fun t => [t] := by
  have h : ∀ s, items ((false, ep) :: ep.map fun t => (true, [t])) s =
      items [(false, ep)] s ++ items (ep.map fun t => (true, [t])) s := fun s => items_append [(false, ep)] _ s
  rw [h, h, (items_map ep).1, (items_map ep).2]
  exact ⟨rfl, rfl⟩

/-- What was written to one of the directories. -/
def effsOf (effs : List (Bool × Eff)) (side : Bool) : List Eff := (effs.filter fun e => e.1 = side).map Prod.snd

theorem effsOf_append (e e' : List (Bool × Eff)) (side : Bool) : effsOf (e ++ e') side = effsOf e side ++ effsOf e' side := by
  simp [effsOf]

theorem effsOf_map (e : List Eff) (side side' : Bool) :
    effsOf (e.map (Prod.mk side)) side' = if side = side' then e else [] := by
  induction e with
  | nil => simp [effsOf]
  | cons x e ih =>
    unfold effsOf at ih ⊢
    rw [List.map_cons, List.filter_cons]
    by_cases h : side = side'
    · subst h
      rw [if_pos rfl] at ih ⊢
      simp [ih]
    · rw [if_neg h] at ih ⊢
      simp [h]

/-- Two queues were opened and `W` was appended to them. -/
def Both (cd : Codec α) (ck : Nat) (d : Bool → Dir) (cap : Option Nat) (m : Two α) (W : List (Bool × α)) : Prop :=
  ∀ side, Sess cd ck (d side) cap (effsOf m.effs side) (m.q side) (items W side)

theorem Both.push {cd : Codec α} {ck : Nat} {d : Bool → Dir} {cap : Option Nat} {m m' : Two α} {W : List (Bool × α)}
    (h : Both cd ck d cap m W) {side : Bool} {x : α} (hp : m.push cd ck side x = .ok m') :
    Both cd ck d cap m' (W ++ [(side, x)]) ∧
      ∃ e q, (m.q side).append cd ck x = .ok (e, q) ∧ m'.effs = m.effs ++ e.map (Prod.mk side) := by
  unfold Two.push at hp
  split at hp
  · cases hp
  · rename_i e q ha
    cases hp
    refine ⟨fun s => ?_, e, q, ha, rfl⟩
    simp only [effsOf_append, effsOf_map, items_append]
    by_cases hs : side = s
    · subst hs
      rw [if_pos rfl, Function.update_self]
      simpa [items] using (h side).append ha
    · rw [if_neg hs, Function.update_of_ne (Ne.symm hs)]
      simpa [items, hs] using h s

theorem Both.crashPush {cd : Codec α} {ck : Nat} {d : Bool → Dir} {cap : Option Nat} {m m' : Two α} {W : List (Bool × α)}
    {all : Bool → List α} (hh : ∀ s, Spec.History cd ck (d s) (all s)) (h : Both cd ck d cap m W) {side : Bool} {x : α}
    (hp : m.push cd ck side x = .ok m') {p : List (Bool × Eff)} (hpre : m.effs ++ p <+: m'.effs) (hne : m.effs ++ p ≠ m'.effs) (s : Bool) :
    Spec.History cd ck (applyTwo d (m.effs ++ p) s) (all s ++ items W s) := by
  obtain ⟨_, e, q, ha, he⟩ := h.push hp
  rw [he] at hpre hne
  have hpre' := (List.prefix_append_right_inj _).mp hpre
  obtain ⟨p', hp', rfl⟩ : ∃ p', p' <+: e ∧ p = p'.map (Prod.mk side) := by
    obtain ⟨t, ht⟩ := hpre'
    obtain ⟨a, b, h1, h2, h3⟩ := List.map_eq_append_iff.mp ht.symm
    exact ⟨a, ⟨b, h1.symm⟩, h2.symm⟩
  have hne' : p' ≠ e := fun h => hne (by rw [h])
  show Spec.History cd ck ((d s).applyAll (effsOf _ s)) _
  rw [effsOf_append, effsOf_map]
  by_cases hs : side = s
  · subst hs
    rw [if_pos rfl]
    rcases (h side).crash (hh side) ha hp' with ⟨h1, _⟩ | ⟨_, h1⟩
    · exact absurd h1 hne'
    · exact h1
  · rw [if_neg hs, List.append_nil]
    exact (h s).history (hh s)

theorem Both.pushAll {cd : Codec α} {ck : Nat} {d : Bool → Dir} {cap : Option Nat} : ∀ {ws : List (Bool × α)} {m m' : Two α}
    {W : List (Bool × α)}, Both cd ck d cap m W → m.pushAll cd ck ws = .ok m' →
    Both cd ck d cap m' (W ++ ws) ∧ m.effs <+: m'.effs
  | [], m, m', W, h, hp => by
    cases hp
    simpa using h
  | (side, x) :: ws, m, m', W, h, hp => by
    unfold Two.pushAll at hp
    cases h1 : m.push cd ck side x with
    | error e => rw [h1] at hp; cases hp
    | ok m1 =>
      rw [h1] at hp
      obtain ⟨h2, e, q, _, he⟩ := h.push h1
      obtain ⟨h3, h4⟩ := Both.pushAll h2 hp
      exact ⟨by simpa using h3, (by rw [he]; exact List.prefix_append _ _ : m.effs <+: m1.effs).trans h4⟩

theorem Both.crashPushAll {cd : Codec α} {ck : Nat} {d : Bool → Dir} {cap : Option Nat} {all : Bool → List α}
    (hh : ∀ s, Spec.History cd ck (d s) (all s)) : ∀ {ws : List (Bool × α)} {m m' : Two α} {W : List (Bool × α)},
    Both cd ck d cap m W → m.pushAll cd ck ws = .ok m' → ∀ {p : List (Bool × Eff)}, m.effs ++ p <+: m'.effs →
    ∃ n ≤ ws.length, ∀ s, Spec.History cd ck (applyTwo d (m.effs ++ p) s) (all s ++ items (W ++ ws.take n) s)
  | [], m, m', W, h, hp, p, hpre => by
    cases hp
    have : p = [] := by
      have := hpre.length_le
      rw [List.length_append] at this
      exact List.length_eq_zero_iff.mp (by omega)
    subst this
    refine ⟨0, Nat.le_refl _, fun s => ?_⟩
    rw [List.append_nil, List.take_zero, List.append_nil]
    exact (h s).history (hh s)
  | (side, x) :: ws, m, m', W, h, hp, p, hpre => by
    unfold Two.pushAll at hp
    cases h1 : m.push cd ck side x with
    | error e => rw [h1] at hp; cases hp
    | ok m1 =>
      rw [h1] at hp
      obtain ⟨h2, e, q, _, he⟩ := h.push h1
      obtain ⟨h3, h4⟩ := Both.pushAll h2 hp
      by_cases hin : m1.effs <+: m.effs ++ p
      · obtain ⟨p', hp'⟩ := hin
        rw [← hp'] at hpre ⊢
        obtain ⟨n, hn, h5⟩ := Both.crashPushAll hh h2 hp hpre
        exact ⟨n + 1, by simpa using hn, fun s => by simpa using h5 s⟩
      · have hlt : m.effs ++ p <+: m1.effs := (List.prefix_or_prefix_of_prefix hpre h4).resolve_right hin
        refine ⟨0, Nat.zero_le _, fun s => ?_⟩
        rw [List.take_zero, List.append_nil]
        exact h.crashPush hh h1 hlt (fun h => hin (by rw [h]; exact List.prefix_rfl)) s

theorem Both.pushAll_ok {cd : Codec α} (hcd : cd.Lawful) {ck : Nat} {d : Bool → Dir} {cap : Option Nat}
    (hcap : ∀ m, cap = some m → 0 < m) {all : Bool → List α}
    (hh : ∀ s, Spec.History cd ck (d s) (all s)) : ∀ {ws : List (Bool × α)} {m : Two α} {W : List (Bool × α)},
    Both cd ck d cap m W → (∀ s, Spec.Fits cd ck (d s) (items (W ++ ws) s)) → ∃ m', m.pushAll cd ck ws = .ok m'
  | [], m, W, h, _ => ⟨m, rfl⟩
  | (side, x) :: ws, m, W, h, hf => by
    have hf' : ∀ s, Spec.Fits cd ck (d s) (items (W ++ [(side, x)] ++ ws) s) := by simpa using hf
    have hx : Spec.Fits cd ck (d side) (items W side ++ [x]) := by
      have := hf' side
      rw [items_append] at this
      simpa [items] using this.of_append
    obtain ⟨e, q, ha⟩ := (h side).next hcd (hh side) hcap hx
    have h1 : m.push cd ck side x = .ok ⟨m.effs ++ e.map (Prod.mk side), Function.update m.q side q⟩ := by
      simp [Two.push, ha]
    obtain ⟨m', h2⟩ := Both.pushAll_ok hcd hcap hh (h.push h1).1 hf'
    exact ⟨m', by simp only [Two.pushAll, h1, h2]⟩

omit [DecidableEq ε] in
theorem openEpisodic_both {cd : Codec (List (Tr π))} {ck : Nat} {d : Bool → Dir} {cap : Option Nat} {b : EpBuf ε π}
    (h : openEpisodic cd ck d (cap.map Int.ofNat) = .ok b) :
    Both cd ck d cap b.mem [] ∧ b.capacity = cap.map Int.ofNat ∧ b.current = fun _ => [] := by
  unfold openEpisodic at h
  split at h
  · cases h
  · rename_i e q ho
    split at h
    · cases h
    · rename_i e' q' ho'
      cases h
      refine ⟨fun s => ?_, rfl, rfl⟩
      simp only [effsOf_append, effsOf_map]
      cases s with
      | true => exact ⟨e, q, [], [], ho, rfl, by simp⟩
      | false => exact ⟨e', q', [], [], ho', rfl, by simp⟩

omit [DecidableEq ε] in
theorem openEpisodic_ok {cd : Codec (List (Tr π))} (hcd : cd.Lawful) {ck : Nat} (hck : 0 < ck) {d : Bool → Dir}
    {all : Bool → List (List (Tr π))} (hh : ∀ s, Spec.History cd ck (d s) (all s)) {cap : Option Nat} (hcap : ∀ m, cap = some m → 0 < m) :
    ∃ b : EpBuf ε π, openEpisodic cd ck d (cap.map Int.ofNat) = .ok b ∧ ∀ s, (b.mem.q s).iter = keep cap (all s) := by
  obtain ⟨e, q, h1, h2⟩ := reopen hcd hck (hh true) hcap
  obtain ⟨e', q', h3, h4⟩ := reopen hcd hck (hh false) hcap
  refine ⟨_, by simp only [openEpisodic, h1, h3]; rfl, fun s => ?_⟩
  cases s with
  | true => exact h2
  | false => exact h4

/-! ## Lemmas: the episodic buffer -/

/-- What has been appended to the two queues for some finished episodes. -/
def written (eps : List (List (Tr π))) : List (Bool × List (Tr π)) :=
  eps.flatMap fun ep => (false, ep) :: ep.map fun t => (true, [t])

theorem items_written (eps : List (List (Tr π))) :
    items (written eps) false = eps ∧ items (written eps) true = Spec.transitions eps := by
  induction eps with
  | nil => exact ⟨rfl, rfl⟩
  | cons ep eps ih =>
    have h : written (ep :: eps) = ((false, ep) :: ep.map fun t => (true, [t])) ++ written eps := by simp [written]
    rw [h, items_append, items_append, (items_episode ep).1, (items_episode ep).2, ih.1, ih.2]
    exact ⟨rfl, by simp [Spec.transitions]⟩

/-- The unfinished episodes after some calls. -/
def unfinished (cur : ε → List (Tr π)) : List (Replay.Op ε π) → ε → List (Tr π)
  | [] => cur
  | .append e t :: ops =>
    if t.terminal then unfinished (Function.update cur e []) ops else unfinished (Function.update cur e (cur e ++ [t])) ops
  | .stop e :: ops => unfinished (Function.update cur e []) ops

theorem finished_append (ops ops' : List (Replay.Op ε π)) : ∀ cur : ε → List (Tr π),
    Spec.finished cur (ops ++ ops') = Spec.finished cur ops ++ Spec.finished (unfinished cur ops) ops' := by
  induction ops with
  | nil => intro cur; rfl
  | cons op ops ih =>
    intro cur
    cases op with
    | append e t =>
      by_cases ht : t.terminal
      · simp [Spec.finished, unfinished, ht, ih]
      · simp [Spec.finished, unfinished, ht, ih]
    | stop e =>
      by_cases hc : cur e = []
      · have : Function.update cur e [] = cur := by rw [← hc]; exact Function.update_eq_self _ _
        simp [Spec.finished, unfinished, hc, ih, this]
      · simp [Spec.finished, unfinished, hc, ih]

/-- What is known about a persistent episodic buffer after some calls. -/
structure Recording (cd : Codec (List (Tr π))) (ck : Nat) (d : Bool → Dir) (cap : Option Nat) (b : EpBuf ε π)
    (eps : List (List (Tr π))) : Prop where
  capacity : b.capacity = cap.map Int.ofNat
  both : Both cd ck d cap b.mem (written eps)

theorem written_snoc (eps : List (List (Tr π))) (ep : List (Tr π)) :
    written (eps ++ [ep]) = written eps ++ ((false, ep) :: ep.map fun t => (true, [t])) := by
  simp [written]

/-- `stop_current_episode` as writes. -/
theorem Recording.stop {cd : Codec (List (Tr π))} {ck : Nat} {d : Bool → Dir} {cap : Option Nat} {b b' : EpBuf ε π}
    {eps : List (List (Tr π))} (h : Recording cd ck d cap b eps) {env : ε} (hs : b.stop cd ck env = .ok b') :
    (b.current env = [] → b' = b) ∧
    (b.current env ≠ [] → Recording cd ck d cap b' (eps ++ [b.current env]) ∧ b'.current = Function.update b.current env [] ∧
      b.mem.pushAll cd ck ((false, b.current env) :: (b.current env).map fun t => (true, [t])) = .ok b'.mem) := by
  unfold EpBuf.stop at hs
  constructor
  · intro hc
    rw [if_pos hc] at hs
    cases hs
    rfl
  · intro hc
    rw [if_neg hc] at hs
    split at hs
    · cases hs
    · rename_i m hm
      split at hs
      · cases hs
      · cases hs
        refine ⟨⟨h.capacity, ?_⟩, rfl, hm⟩
        rw [written_snoc]
        exact (h.both.pushAll hm).1

theorem Recording.step {cd : Codec (List (Tr π))} {ck : Nat} {d : Bool → Dir} {cap : Option Nat} {b b' : EpBuf ε π}
    {eps : List (List (Tr π))} (h : Recording cd ck d cap b eps) {op : Replay.Op ε π} (hs : b.step cd ck op = .ok b') :
    Recording cd ck d cap b' (eps ++ Spec.finished b.current [op]) ∧ b'.current = unfinished b.current [op] ∧
      b.mem.pushAll cd ck (written (Spec.finished b.current [op])) = .ok b'.mem := by
  cases op with
  | append e t =>
    simp only [EpBuf.step, EpBuf.append] at hs
    by_cases ht : t.terminal
    · rw [if_pos ht] at hs
      have h' : Recording cd ck d cap { b with current := Function.update b.current e (b.current e ++ [t]) } eps :=
        ⟨h.capacity, h.both⟩
      have := (h'.stop hs).2 (by simp)
      simp only [Function.update_self, Function.update_idem] at this
      simp only [Spec.finished, unfinished, ht, if_true]
      simpa [written] using this
    · rw [if_neg ht] at hs
      cases hs
      simp only [Spec.finished, unfinished, ht, if_false, Bool.false_eq_true]
      refine ⟨?_, trivial, rfl⟩
      rw [List.append_nil]
      exact ⟨h.capacity, h.both⟩
  | stop e =>
    simp only [EpBuf.step] at hs
    have := h.stop hs
    by_cases hc : b.current e = []
    · have hb := this.1 hc
      subst hb
      have hu : Function.update b'.current e [] = b'.current := by rw [← hc]; exact Function.update_eq_self _ _
      simp only [Spec.finished, unfinished, hc, if_true, hu]
      refine ⟨?_, trivial, rfl⟩
      rw [List.append_nil]
      exact h
    · simp only [Spec.finished, unfinished, hc, if_false]
      simpa [written] using this.2 hc

theorem Recording.run {cd : Codec (List (Tr π))} {ck : Nat} {d : Bool → Dir} {cap : Option Nat} : ∀ (ops : List (Replay.Op ε π))
    {b b' : EpBuf ε π} {eps : List (List (Tr π))}, Recording cd ck d cap b eps → b.run cd ck ops = .ok b' →
    Recording cd ck d cap b' (eps ++ Spec.finished b.current ops) ∧ b'.current = unfinished b.current ops
  | [], b, b', eps, h, hr => by
    cases hr
    exact ⟨by simpa [Spec.finished] using h, rfl⟩
  | op :: ops, b, b', eps, h, hr => by
    unfold EpBuf.run at hr
    cases hs : b.step cd ck op with
    | error e => rw [hs] at hr; cases hr
    | ok b1 =>
      rw [hs] at hr
      obtain ⟨h1, h2, _⟩ := h.step hs
      obtain ⟨h3, h4⟩ := Recording.run ops h1 hr
      rw [h2] at h3 h4
      constructor
      · have := finished_append [op] ops b.current
        rw [List.singleton_append] at this
        rw [this, ← List.append_assoc]
        exact h3
      · rw [h4]
        cases op with
        | append e t => by_cases ht : t.terminal <;> simp [unfinished, ht]
        | stop e => rfl

/-- The eviction loop is never entered. -/
theorem Recording.not_tooLong {cd : Codec (List (Tr π))} (hcd : cd.Lawful) {ck : Nat} {d : Bool → Dir} {all : Bool → List (List (Tr π))}
    (hh : ∀ s, Spec.History cd ck (d s) (all s)) {cap : Option Nat} (hcap : ∀ m, cap = some m → 0 < m) {m : Two (List (Tr π))}
    {W : List (Bool × List (Tr π))} (hf : Spec.Fits cd ck (d true) (items W true)) (h : Both cd ck d cap m W) :
    EpBuf.tooLong (cap.map Int.ofNat) m = false := by
  cases cap with
  | none => rfl
  | some c =>
    have h1 := (h true).iter hcd (hh true) hcap hf
    have h2 : (m.q true).len ≤ c := by
      rw [PQ.len, ← Queue.RAQ.iter_length]
      show (m.q true).iter.length ≤ c
      rw [h1]
      exact Queue.keep_length_le _ _ c rfl
    simp only [EpBuf.tooLong, Option.map_some, decide_eq_false_iff_not]
    simp only [Int.ofNat_eq_natCast]
    omega

theorem Recording.stop_ok {cd : Codec (List (Tr π))} (hcd : cd.Lawful) {ck : Nat} {d : Bool → Dir} {all : Bool → List (List (Tr π))}
    (hh : ∀ s, Spec.History cd ck (d s) (all s)) {cap : Option Nat} (hcap : ∀ m, cap = some m → 0 < m) {b : EpBuf ε π}
    {eps : List (List (Tr π))} (h : Recording cd ck d cap b eps) (env : ε)
    (hf : ∀ s, Spec.Fits cd ck (d s) (items (written (eps ++ [b.current env])) s)) : ∃ b', b.stop cd ck env = .ok b' := by
  unfold EpBuf.stop
  by_cases hc : b.current env = []
  · exact ⟨b, if_pos hc⟩
  · rw [if_neg hc]
    rw [written_snoc] at hf
    obtain ⟨m', h1⟩ := h.both.pushAll_ok hcd hcap hh hf
    rw [h1]
    have := Recording.not_tooLong hcd hh hcap (hf true) (h.both.pushAll h1).1
    rw [h.capacity]
    simp only [this]
    exact ⟨_, rfl⟩

theorem Fits.of_finished {cd : Codec (List (Tr π))} {ck : Nat} {d : Bool → Dir} {eps eps' : List (List (Tr π))}
    (hf : ∀ s, Spec.Fits cd ck (d s) (items (written (eps ++ eps')) s)) : ∀ s, Spec.Fits cd ck (d s) (items (written eps) s) := by
  intro s
  have := hf s
  have h : written (eps ++ eps') = written eps ++ written eps' := by simp [written]
  rw [h, items_append] at this
  exact this.of_append

theorem Recording.run_ok {cd : Codec (List (Tr π))} (hcd : cd.Lawful) {ck : Nat} {d : Bool → Dir} {all : Bool → List (List (Tr π))}
    (hh : ∀ s, Spec.History cd ck (d s) (all s)) {cap : Option Nat} (hcap : ∀ m, cap = some m → 0 < m) : ∀ (ops : List (Replay.Op ε π))
    {b : EpBuf ε π} {eps : List (List (Tr π))}, Recording cd ck d cap b eps →
    (∀ s, Spec.Fits cd ck (d s) (items (written (eps ++ Spec.finished b.current ops)) s)) → ∃ b', b.run cd ck ops = .ok b'
  | [], b, eps, _, _ => ⟨b, rfl⟩
  | op :: ops, b, eps, h, hf => by
    have hfin := finished_append [op] ops b.current
    rw [List.singleton_append] at hfin
    rw [hfin, ← List.append_assoc] at hf
    have hf1 := Fits.of_finished hf
    obtain ⟨b1, h1⟩ : ∃ b1, b.step cd ck op = .ok b1 := by
      cases op with
      | append e t =>
        by_cases ht : t.terminal
        · simp only [EpBuf.step, EpBuf.append, ht, if_true]
          have h' : Recording cd ck d cap { b with current := Function.update b.current e (b.current e ++ [t]) } eps :=
            ⟨h.capacity, h.both⟩
          refine h'.stop_ok hcd hh hcap e ?_
          simpa [Spec.finished, ht] using hf1
        · exact ⟨_, by simp only [EpBuf.step, EpBuf.append, ht, if_false, Bool.false_eq_true]; rfl⟩
      | stop e =>
        by_cases hc : b.current e = []
        · exact ⟨b, by simp only [EpBuf.step, EpBuf.stop, hc, if_true]⟩
        · refine h.stop_ok hcd hh hcap e ?_
          simpa [Spec.finished, hc] using hf1
    obtain ⟨h2, h3, _⟩ := h.step h1
    rw [← h3] at hf
    obtain ⟨b2, h4⟩ := Recording.run_ok hcd hh hcap ops h2 hf
    exact ⟨b2, by simp only [EpBuf.run, h1, h4]⟩

/-! ## C81 -/

/-- **C81 (in use).** The two directories of a persistent episodic buffer may come from any history of sessions and crashes; the one of
episodes holds `eps`, the one of transitions `trs`.  After opening them and any calls of `append` and `stop_current_episode`
for any environments in any order, nothing has failed, `sample_episodes` draws from exactly the newest `capacity` finished
episodes, and `sample` from exactly the newest `capacity` transitions of finished episodes. -/
theorem persistent_episodic_contents {cd : Codec (List (Tr π))} (hcd : cd.Lawful) {ck : Nat} {d : Bool → Dir}
    {eps trs : List (List (Tr π))} (hep : Spec.History cd ck (d false) eps) (htr : Spec.History cd ck (d true) trs)
    (cap : Option Nat) (hcap : ∀ m, cap = some m → 0 < m) (ops : List (Replay.Op ε π))
    (hf : Spec.Fits cd ck (d false) (Spec.finished (fun _ => []) ops))
    (hf' : Spec.Fits cd ck (d true) (Spec.transitions (Spec.finished (fun _ => []) ops))) :
    ∃ b b' : EpBuf ε π, openEpisodic cd ck d (cap.map Int.ofNat) = .ok b ∧ b.run cd ck ops = .ok b' ∧
      (b'.mem.q false).iter = keep cap (eps ++ Spec.finished (fun _ => []) ops) ∧
      (b'.mem.q true).iter = keep cap (trs ++ Spec.transitions (Spec.finished (fun _ => []) ops)) := by
  have hh : ∀ s, Spec.History cd ck (d s) ((fun s : Bool => if s then trs else eps) s) := by
    intro s
    cases s with
    | true => exact htr
    | false => exact hep
  obtain ⟨b, h1, _⟩ := openEpisodic_ok (ε := ε) hcd hf.1 hh hcap
  obtain ⟨h2, h3, h4⟩ := openEpisodic_both h1
  have hr : Recording cd ck d cap b [] := ⟨h3, h2⟩
  have hfit : ∀ s, Spec.Fits cd ck (d s) (items (written ([] ++ Spec.finished b.current ops)) s) := by
    intro s
    rw [List.nil_append, h4]
    cases s with
    | true => rw [(items_written _).2]; exact hf'
    | false => rw [(items_written _).1]; exact hf
  obtain ⟨b', h5⟩ := hr.run_ok hcd hh hcap ops hfit
  have h6 := (hr.run ops h5).1
  rw [List.nil_append, h4] at h6
  rw [List.nil_append, h4] at hfit
  refine ⟨b, b', h1, h5, ?_, ?_⟩
  · have := (h6.both false).iter hcd (hh false) hcap (hfit false)
    rwa [(items_written _).1] at this
  · have := (h6.both true).iter hcd (hh true) hcap (hfit true)
    rwa [(items_written _).2] at this

/-- **C81 (crash).** Let the process die at any byte of any call.  Opening the directories again, with any capacity, succeeds.  Every
episode finished by the completed calls is there, with all of its transitions; of the episode that the interrupted call was
finishing, either nothing is there, or the episode is there as a whole and some first part of its transitions.  Episodes
not yet finished are lost. -/
theorem persistent_episodic_crash {cd : Codec (List (Tr π))} (hcd : cd.Lawful) {ck : Nat} {d : Bool → Dir}
    {eps trs : List (List (Tr π))} (hep : Spec.History cd ck (d false) eps) (htr : Spec.History cd ck (d true) trs)
    (cap cap' : Option Nat) (hcap' : ∀ m, cap' = some m → 0 < m) (hck : 0 < ck) (ops : List (Replay.Op ε π)) (op : Replay.Op ε π)
    {b b1 b2 : EpBuf ε π} (ho : openEpisodic cd ck d (cap.map Int.ofNat) = .ok b) (hr : b.run cd ck ops = .ok b1)
    (hs : b1.step cd ck op = .ok b2) (p : List (Bool × Eff)) (hp : b1.mem.effs ++ p <+: b2.mem.effs) :
    ∃ c : EpBuf ε π, openEpisodic cd ck (applyTwo d (b1.mem.effs ++ p)) (cap'.map Int.ofNat) = .ok c ∧
      (((c.mem.q false).iter = keep cap' (eps ++ Spec.finished (fun _ => []) ops) ∧
        (c.mem.q true).iter = keep cap' (trs ++ Spec.transitions (Spec.finished (fun _ => []) ops))) ∨
      ∃ ep part, Spec.finished (fun _ => []) (ops ++ [op]) = Spec.finished (fun _ => []) ops ++ [ep] ∧ part <+: ep ∧
        (c.mem.q false).iter = keep cap' (eps ++ Spec.finished (fun _ => []) ops ++ [ep]) ∧
        (c.mem.q true).iter =
          keep cap' (trs ++ Spec.transitions (Spec.finished (fun _ => []) ops) ++ part.map fun t => [t])) := by
  have hh : ∀ s, Spec.History cd ck (d s) ((fun s : Bool => if s then trs else eps) s) := by
    intro s
    cases s with
    | true => exact htr
    | false => exact hep
  obtain ⟨h2, h3, h4⟩ := openEpisodic_both ho
  have hrec : Recording cd ck d cap b [] := ⟨h3, h2⟩
  obtain ⟨hrec1, hcur⟩ := hrec.run ops hr
  rw [List.nil_append, h4] at hrec1
  rw [h4] at hcur
  obtain ⟨_, _, hpush⟩ := hrec1.step hs
  rw [hcur] at hpush
  obtain ⟨n, hn, hist⟩ := hrec1.both.crashPushAll hh hpush hp
  obtain ⟨c, k1, k2⟩ := openEpisodic_ok (ε := ε) hcd hck hist hcap'
  refine ⟨c, k1, ?_⟩
  have k3 := k2 false
  have k4 := k2 true
  simp only [items_append, (items_written _).1, (items_written _).2, if_true, Bool.false_eq_true, if_false] at k3 k4
  have hfa := finished_append ops [op] (fun _ => ([] : List (Tr π)))
  have hone : Spec.finished (unfinished (fun _ => []) ops) [op] = [] ∨
      ∃ ep, Spec.finished (unfinished (fun _ => []) ops) [op] = [ep] := by
    cases op with
    | append e t => by_cases ht : t.terminal <;> simp [Spec.finished, ht]
    | stop e =>
      by_cases hc : unfinished (fun _ => ([] : List (Tr π))) ops e = []
      · simp [Spec.finished, hc]
      · simp [Spec.finished, hc]
  rcases hone with hone | ⟨ep, hone⟩
  · rw [hone] at k3 k4
    left
    constructor
    · simpa [written, items] using k3
    · simpa [written, items] using k4
  · rw [hone] at k3 k4 hfa
    have hw : written [ep] = (false, ep) :: ep.map fun t => (true, [t]) := by simp [written]
    rw [hw] at k3 k4
    cases n with
    | zero =>
      left
      constructor
      · simpa [items] using k3
      · simpa [items] using k4
    | succ n =>
      right
      rw [List.take_succ_cons, ← List.map_take] at k3 k4
      refine ⟨ep, ep.take n, hfa, List.take_prefix _ _, ?_, ?_⟩
      · have h := items_append [(false, ep)] ((ep.take n).map fun t => (true, [t])) false
        rw [(items_map _).1] at h
        rw [List.singleton_append] at h
        rw [k3, h]
        simp [items]
      · have h := items_append [(false, ep)] ((ep.take n).map fun t => (true, [t])) true
        rw [(items_map _).2] at h
        rw [List.singleton_append] at h
        rw [k4, h]
        simp [items]

/-- **C81 (consistency).** With no capacity, `sample` draws from exactly the transitions of the episodes `sample_episodes` draws from, if
it was so at the start.  Missing: the same with a capacity, see `persistent_episodic_inconsistent`, and after a crash, see
`persistent_episodic_crash`. -/
theorem persistent_episodic_consistent_partial {cd : Codec (List (Tr π))} (hcd : cd.Lawful) {ck : Nat} {d : Bool → Dir}
    {eps : List (List (Tr π))} (hep : Spec.History cd ck (d false) eps) (htr : Spec.History cd ck (d true) (Spec.transitions eps))
    (ops : List (Replay.Op ε π)) (hf : Spec.Fits cd ck (d false) (Spec.finished (fun _ => []) ops))
    (hf' : Spec.Fits cd ck (d true) (Spec.transitions (Spec.finished (fun _ => []) ops))) :
    ∃ b b' : EpBuf ε π, openEpisodic cd ck d none = .ok b ∧ b.run cd ck ops = .ok b' ∧
      (b'.mem.q true).iter = Spec.transitions (b'.mem.q false).iter := by
  obtain ⟨b, b', h1, h2, h3, h4⟩ := persistent_episodic_contents hcd hep htr none (by simp) ops hf hf'
  refine ⟨b, b', h1, h2, ?_⟩
  rw [h3, h4]
  simp [keep, Spec.transitions]

/-! ## Concrete cases -/

/-- Read transitions, each written as a positive number, up to a zero. -/
def decTrs : Nat → Bytes → List (Tr Nat)
  | 0, _ => []
  | fuel + 1, b =>
    match decNat b with
    | (0, _) => []
    | (k + 1, r) => ⟨k / 2, k % 2 == 1⟩ :: decTrs fuel r

/-- Write transitions. -/
def encTrs (l : List (Tr Nat)) : Bytes :=
  l.flatMap (fun t => encNat (2 * t.payload + (if t.terminal then 1 else 0) + 1)) ++ encNat 0

theorem decTrs_encTrs : ∀ (l : List (Tr Nat)) (fuel : Nat), l.length < fuel → decTrs fuel (encTrs l) = l
  | [], fuel + 1, _ => by simp [encTrs, encNat, decTrs, decNat]
  | t :: l, fuel + 1, h => by
    have ih := decTrs_encTrs l fuel (by simpa using h)
    have : encTrs (t :: l) = encNat (2 * t.payload + (if t.terminal then 1 else 0) + 1) ++ encTrs l := by simp [encTrs]
    rw [this]
    simp only [decTrs, decNat_encNat, ih]
    congr 1
    rcases t with ⟨p, b⟩
    cases b
    · simp
    · simp only [if_true, Tr.mk.injEq]
      exact ⟨by omega, by simp only [beq_iff_eq]; omega⟩

theorem encTrs_length (l : List (Tr Nat)) : l.length < (encTrs l).length := by
  induction l with
  | nil => decide
  | cons t l ih =>
    have : encTrs (t :: l) = encNat (2 * t.payload + (if t.terminal then 1 else 0) + 1) ++ encTrs l := by simp [encTrs]
    rw [this, List.length_append, List.length_cons]
    simp only [encNat, List.length_append, List.length_replicate, List.length_singleton]
    omega

/-- A simple stand-in for `pickle` on lists of transitions. -/
def exTrCodec : Codec (List (Tr Nat)) where
  dumps := encTrs
  loads b := if b = [] then .error .eofError else .ok (decTrs b.length b)
  crc := exCodec.crc
  metaDumps := exCodec.metaDumps
  metaLoads := exCodec.metaLoads

theorem exTrCodec_lawful : exTrCodec.Lawful := by
  refine ⟨fun l => ?_, exCodec_lawful.2⟩
  have := encTrs_length l
  simp only [exTrCodec]
  rw [if_neg (fun h => by rw [h] at this; simp at this), decTrs_encTrs l _ this]

/-- Two environments; the one called 1 ends its episode first, the one called 0 is stopped. -/
def exOps : List (Replay.Op Nat Nat) :=
  [.append 0 ⟨1, false⟩, .append 1 ⟨5, false⟩, .append 1 ⟨6, true⟩, .append 0 ⟨2, false⟩, .stop 0, .append 0 ⟨3, false⟩]

theorem exOps_fits (d : Dir) (hd : d.bound = 0) : Spec.Fits exTrCodec 4 d (Spec.finished (fun _ => []) exOps) ∧
    Spec.Fits exTrCodec 4 d (Spec.transitions (Spec.finished (fun _ => []) exOps)) ∧
    Spec.Fits exTrCodec 4 d (Spec.appended exOps) := by
  unfold Spec.Fits
  rw [hd]
  decide

/-- The hypotheses of C80 can be met. -/
example : ∃ b b' : RB Nat Nat (Mem (List (Tr Nat))), openReplay exTrCodec 4 Dir.empty (some 3) = .ok b ∧
    b.run (Mem.push exTrCodec 4) exOps = .ok b' ∧ b'.memory.q.iter = [[⟨6, true⟩], [⟨2, false⟩], [⟨3, false⟩]] := by
  obtain ⟨b, b', h1, h2, h3⟩ := persistent_replay_contents (ε := Nat) exTrCodec_lawful Spec.History.fresh (some 3) (by simp) exOps
    (exOps_fits Dir.empty (by decide)).2.2
  exact ⟨b, b', h1, h2, h3⟩

/-- A crash in the middle of the third `append`, and what is there afterwards. -/
def exReplayCrash (n : Nat) : Except PyErr (List (List (Tr Nat))) := do
  let b ← (openReplay exTrCodec 4 Dir.empty (some 3) : Except PyErr (RB Nat Nat (Mem (List (Tr Nat)))))
  let b1 ← b.run (Mem.push exTrCodec 4) (exOps.take 2)
  let b2 ← b1.step (Mem.push exTrCodec 4) (.append 1 ⟨6, true⟩)
  let c ← (openReplay exTrCodec 4 (Dir.empty.applyAll (b2.memory.effs.take (b1.memory.effs.length + n))) (some 5) :
    Except PyErr (RB Nat Nat (Mem (List (Tr Nat)))))
  pure c.memory.q.iter

example : (exReplayCrash 10).toOption = some [[⟨1, false⟩], [⟨5, false⟩]] := by decide +kernel
example : (exReplayCrash 1000).toOption = some [[⟨1, false⟩], [⟨5, false⟩], [⟨6, true⟩]] := by decide +kernel

/-- A crash while the second episode is being written, and what is there afterwards. -/
def exEpisodicCrash (n : Nat) : Except PyErr (List (List (Tr Nat)) × List (List (Tr Nat))) := do
  let b ← (openEpisodic exTrCodec 4 (fun _ => Dir.empty) (some 5) : Except PyErr (EpBuf Nat Nat))
  let b1 ← b.run exTrCodec 4 (exOps.take 4)
  let b2 ← b1.step exTrCodec 4 (.stop 0)
  let c ← (openEpisodic exTrCodec 4 (applyTwo (fun _ => Dir.empty) (b2.mem.effs.take (b1.mem.effs.length + n))) (some 5) :
    Except PyErr (EpBuf Nat Nat))
  pure ((c.mem.q false).iter, (c.mem.q true).iter)

example : (exEpisodicCrash 100).toOption =
    some ([[⟨5, false⟩, ⟨6, true⟩], [⟨1, false⟩, ⟨2, false⟩]], [[⟨5, false⟩], [⟨6, true⟩], [⟨1, false⟩]]) := by decide +kernel

/-- The hypotheses of C81 can be met. -/
example : ∃ b b' : EpBuf Nat Nat, openEpisodic exTrCodec 4 (fun _ => Dir.empty) none = .ok b ∧ b.run exTrCodec 4 exOps = .ok b' ∧
    (b'.mem.q false).iter = [[⟨5, false⟩, ⟨6, true⟩], [⟨1, false⟩, ⟨2, false⟩]] ∧
    (b'.mem.q true).iter = [[⟨5, false⟩], [⟨6, true⟩], [⟨1, false⟩], [⟨2, false⟩]] := by
  obtain ⟨b, b', h1, h2, h3, h4⟩ := persistent_episodic_contents (ε := Nat) exTrCodec_lawful (d := fun _ => Dir.empty)
    Spec.History.fresh Spec.History.fresh none (by simp) exOps (exOps_fits Dir.empty (by decide)).1
    (exOps_fits Dir.empty (by decide)).2.1
  exact ⟨b, b', h1, h2, h3, h4⟩

/-- **C81 fails with a capacity.** With room for 2 transitions, after two episodes of 2 transitions each, the buffer reports 2
transitions, those of the second episode, but `sample_episodes` still draws from both episodes: 4 transitions.  (The buffer in
memory has evicted the first one, see C15.) -/
theorem persistent_episodic_inconsistent :
    ∃ b b' : EpBuf Nat Nat, openEpisodic exTrCodec 4 (fun _ => Dir.empty) (some 2) = .ok b ∧ b.run exTrCodec 4 exOps = .ok b' ∧
      (b'.mem.q true).iter = [[⟨1, false⟩], [⟨2, false⟩]] ∧
      (b'.mem.q false).iter = [[⟨5, false⟩, ⟨6, true⟩], [⟨1, false⟩, ⟨2, false⟩]] := by
  obtain ⟨b, b', h1, h2, h3, h4⟩ := persistent_episodic_contents (ε := Nat) exTrCodec_lawful (d := fun _ => Dir.empty)
    Spec.History.fresh Spec.History.fresh (some 2) (by simp) exOps (exOps_fits Dir.empty (by decide)).1
    (exOps_fits Dir.empty (by decide)).2.1
  exact ⟨b, b', h1, h2, h4, h3⟩

end Pfrl.Persist
