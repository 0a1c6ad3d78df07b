import Verif.Eval.Schedule
import Mathlib.Data.List.Perm.Basic
import Mathlib.Order.Monotone.Basic
import Mathlib.Tactic.Linarith
import Mathlib.Tactic.Ring

/-!
# `AsyncEvaluator`: evaluation shared by several processes (C41)

Processes interleave; the code between two lock operations of one process is one step of the model, because
what it touches outside its locks is private to the process (its environment and its agent) or an append to
`scores.txt`, which is one step of its own.
-/

namespace Pfrl.Eval.Async

variable {S : Type _} [LinearOrder S]

/-! ## Model -/

/-- Where a process is in `evaluate_if_necessary(t, …)`, `pfrl/experiments/evaluator.py:650-662`. -/
inductive Phase (S : Type _) where
  /-- not in a call, or in a call that found nothing to do -/
  | idle
  /-- has left the lock of `prev_eval_t` with `necessary = True` -/
  | claimed (t : Nat)
  /-- has left the lock of `wrote_header` and is running its evaluation -/
  | evaluating (t : Nat)
  /-- has appended its line to `scores.txt` and called the hooks -/
  | recorded (t : Nat) (mean : S)
  deriving DecidableEq, Repr

/-- A line of `scores.txt`. -/
inductive Line (S : Type _) where
  | header
  | row (t : Nat) (mean : S)
  deriving DecidableEq, Repr

/-- The shared values (`evaluator.py:570-575`), `scores.txt`, the processes, and a record of what happened:
`claims` are the pairs (process, step of the call, threshold), `scores` the results in the order in which
they reached the lock of `_max_score`, `saves` the steps at which an agent was saved as `best`. -/
structure Sys (S : Type _) where
  interval : Nat
  prevEvalT : Nat
  wroteHeader : Bool
  maxScore : S
  file : List (Line S)
  procs : List (Phase S)
  claims : List (Nat × Nat × Nat)
  scores : List (Nat × S)
  saves : List (Nat × S)
  deriving DecidableEq, Repr

/-- `AsyncEvaluator.__init__`, `evaluator.py:542-582`, shared by `n` processes.  An `eval_interval` of 0 raises
`ZeroDivisionError`; the interval is positive in what follows. -/
def Sys.init (floatMin : S) (offset interval n : Nat) : Sys S :=
  ⟨interval, offset - offset % interval, false, floatMin, [], List.replicate n .idle, [], [], []⟩

/-- One step of one process. -/
inductive Ev (S : Type _) where
  /-- process `p` calls `evaluate_if_necessary(t)` and passes the lock of `prev_eval_t` -/
  | call (p t : Nat)
  /-- process `p` passes the lock of `wrote_header` -/
  | header (p : Nat)
  /-- process `p` ends its evaluation with this mean and appends its line -/
  | record (p : Nat) (mean : S)
  /-- process `p` passes the lock of `_max_score` -/
  | best (p : Nat)
  deriving DecidableEq, Repr

/-- `with self.prev_eval_t.get_lock()`, `evaluator.py:652-655`. -/
def Sys.call (s : Sys S) (p t : Nat) : Sys S :=
  if t ≥ s.prevEvalT + s.interval then
    { s with
      prevEvalT := s.prevEvalT + s.interval
      procs := s.procs.set p (.claimed t)
      claims := s.claims ++ [(p, t, s.prevEvalT + s.interval)] }
  else s

/-- `with self.wrote_header.get_lock()`, `evaluator.py:657-660`; `write_header` opens the file with mode
`w`, so it replaces what is there (`evaluator.py:375-393`). -/
def Sys.header (s : Sys S) (p t : Nat) : Sys S :=
  let s := if s.wroteHeader = false then { s with file := [.header], wroteHeader := true } else s
  { s with procs := s.procs.set p (.evaluating t) }

/-- `eval_performance` and `record_stats`, `evaluator.py:590-637`. -/
def Sys.record (s : Sys S) (p t : Nat) (mean : S) : Sys S :=
  { s with file := s.file ++ [.row t mean], procs := s.procs.set p (.recorded t mean) }

/-- `with self._max_score.get_lock()`, `evaluator.py:640-647`.  `rnd` is the rounding to float32 of
`mp.Value("f")`. -/
def Sys.best (rnd : S → S) (s : Sys S) (p t : Nat) (mean : S) : Sys S :=
  let s := { s with scores := s.scores ++ [(t, mean)], procs := s.procs.set p .idle }
  if mean > s.maxScore then
    { s with maxScore := rnd mean, saves := s.saves ++ [(t, mean)] }
  else s

/-- A step of the system.  A process can only make the step it is at; another one is ignored. -/
def Sys.step (rnd : S → S) (s : Sys S) : Ev S → Sys S
  | .call p t => match s.procs[p]? with
    | some .idle => s.call p t
    | _ => s
  | .header p => match s.procs[p]? with
    | some (.claimed t) => s.header p t
    | _ => s
  | .record p mean => match s.procs[p]? with
    | some (.evaluating t) => s.record p t mean
    | _ => s
  | .best p => match s.procs[p]? with
    | some (.recorded t mean) => s.best rnd p t mean
    | _ => s

/-- Any interleaving. -/
def Sys.run (rnd : S → S) (s : Sys S) : List (Ev S) → Sys S
  | [] => s
  | e :: es => (s.step rnd e).run rnd es

/-! ## Specification -/

/-- The rows of the score file. -/
def Spec.rows : List (Line S) → List (Nat × S)
  | [] => []
  | .header :: l => Spec.rows l
  | .row t m :: l => (t, m) :: Spec.rows l

/-- The steps of the evaluations that are under way (claimed, and not yet in the score file). -/
def Spec.underWay : List (Phase S) → List Nat
  | [] => []
  | .claimed t :: l => t :: Spec.underWay l
  | .evaluating t :: l => t :: Spec.underWay l
  | _ :: l => Spec.underWay l

/-- The evaluations that are in the score file but have not been compared with the best score. -/
def Spec.uncompared : List (Phase S) → List (Nat × S)
  | [] => []
  | .recorded t m :: l => (t, m) :: Spec.uncompared l
  | _ :: l => Spec.uncompared l

/-! ## Lemmas -/

/-- What one phase contributes to `Spec.underWay`. -/
def uw : Phase S → List Nat
  | .claimed t => [t]
  | .evaluating t => [t]
  | _ => []

/-- What one phase contributes to `Spec.uncompared`. -/
def uc : Phase S → List (Nat × S)
  | .recorded t m => [(t, m)]
  | _ => []

omit [LinearOrder S] in
theorem underWay_flatMap (l : List (Phase S)) : Spec.underWay l = l.flatMap uw := by
  induction l with
  | nil => rfl
  | cons x l ih => cases x <;> simp [Spec.underWay, uw, ih]

omit [LinearOrder S] in
theorem uncompared_flatMap (l : List (Phase S)) : Spec.uncompared l = l.flatMap uc := by
  induction l with
  | nil => rfl
  | cons x l ih => cases x <;> simp [Spec.uncompared, uc, ih]

theorem flatMap_set_perm {α β : Type _} (f : α → List β) : ∀ (l : List α) (i : Nat) (x y : α),
    l[i]? = some x → (f x ++ (l.set i y).flatMap f).Perm (f y ++ l.flatMap f)
  | [], i, x, y, h => by simp at h
  | a :: l, 0, x, y, h => by
    simp only [List.getElem?_cons_zero, Option.some.injEq] at h
    subst h
    simp only [List.set_cons_zero, List.flatMap_cons]
    rw [← List.append_assoc, ← List.append_assoc]
    exact List.Perm.append_right _ List.perm_append_comm
  | a :: l, i + 1, x, y, h => by
    simp only [List.getElem?_cons_succ] at h
    simp only [List.set_cons_succ, List.flatMap_cons]
    have ih := flatMap_set_perm f l i x y h
    calc (f x ++ (f a ++ (l.set i y).flatMap f)).Perm (f a ++ (f x ++ (l.set i y).flatMap f)) := by
          rw [← List.append_assoc, ← List.append_assoc]
          exact List.Perm.append_right _ List.perm_append_comm
      _ |>.Perm (f a ++ (f y ++ l.flatMap f)) := List.Perm.append_left _ ih
      _ |>.Perm (f y ++ (f a ++ l.flatMap f)) := by
          rw [← List.append_assoc, ← List.append_assoc]
          exact List.Perm.append_right _ List.perm_append_comm

omit [LinearOrder S] in
theorem rows_append (l l' : List (Line S)) : Spec.rows (l ++ l') = Spec.rows l ++ Spec.rows l' := by
  induction l with
  | nil => rfl
  | cons x l ih => cases x <;> simp [Spec.rows, ih]

omit [LinearOrder S] in
theorem mem_of_underWay {l : List (Phase S)} {p t : Nat} (h : l[p]? = some (.claimed t)) :
    t ∈ Spec.underWay l := by
  rw [underWay_flatMap]
  exact List.mem_flatMap.mpr ⟨_, List.mem_of_getElem? h, by simp [uw]⟩

/-- The invariant. -/
structure Inv (rnd : S → S) (floatMin : S) (prev0 : Nat) (n : Nat) (s : Sys S) : Prop where
  prev : s.prevEvalT = prev0 + s.claims.length * s.interval
  thr : s.claims.map (fun c => c.2.2) =
    (List.range s.claims.length).map fun k => prev0 + (k + 1) * s.interval
  reached : ∀ c ∈ s.claims, c.2.2 ≤ c.2.1
  procs : s.procs.length = n
  caller : ∀ c ∈ s.claims, c.1 < n
  perm : (s.claims.map fun c => c.2.1).Perm ((Spec.rows s.file).map Prod.fst ++ Spec.underWay s.procs)
  perm2 : (Spec.rows s.file).Perm (s.scores ++ Spec.uncompared s.procs)
  noHeader : s.wroteHeader = false → s.file = [] ∧
    ∀ p ∈ s.procs, p = .idle ∨ ∃ t, p = .claimed t
  header : s.wroteHeader = true → ∃ rows, s.file = .header :: rows ∧ .header ∉ rows
  max : s.maxScore = (s.scores.map fun c => rnd c.2).foldl Max.max floatMin
  fixed : rnd s.maxScore = s.maxScore
  saved : match s.saves.getLast? with
    | none => s.maxScore = floatMin ∧ ∀ c ∈ s.scores, c.2 ≤ floatMin
    | some c => c ∈ s.scores ∧ rnd c.2 = s.maxScore

theorem Inv.init {rnd : S → S} {floatMin : S} (hf : rnd floatMin = floatMin) (offset interval n : Nat) :
    Inv rnd floatMin (offset - offset % interval) n (Sys.init floatMin offset interval n) := by
  refine ⟨by simp [Sys.init], by simp [Sys.init], by simp [Sys.init], by simp [Sys.init],
    by simp [Sys.init], ?_, ?_, ?_, by simp [Sys.init], by simp [Sys.init], hf, by simp [Sys.init]⟩
  · have : Spec.underWay (List.replicate n (Phase.idle : Phase S)) = [] := by
      rw [underWay_flatMap]; simp [uw]
    simp [Sys.init, Spec.rows, this]
  · have : Spec.uncompared (List.replicate n (Phase.idle : Phase S)) = [] := by
      rw [uncompared_flatMap]; simp [uc]
    simp [Sys.init, Spec.rows, this]
  · intro _
    refine ⟨rfl, fun p hp => .inl ?_⟩
    exact List.eq_of_mem_replicate hp

omit [LinearOrder S] in
theorem underWay_set {l : List (Phase S)} {p : Nat} {x : Phase S} (y : Phase S) (h : l[p]? = some x) :
    (uw x ++ Spec.underWay (l.set p y)).Perm (uw y ++ Spec.underWay l) := by
  rw [underWay_flatMap, underWay_flatMap]; exact flatMap_set_perm uw l p x y h

omit [LinearOrder S] in
theorem uncompared_set {l : List (Phase S)} {p : Nat} {x : Phase S} (y : Phase S) (h : l[p]? = some x) :
    (uc x ++ Spec.uncompared (l.set p y)).Perm (uc y ++ Spec.uncompared l) := by
  rw [uncompared_flatMap, uncompared_flatMap]; exact flatMap_set_perm uc l p x y h

theorem Inv.call {rnd : S → S} {floatMin : S} {prev0 n : Nat} {s : Sys S} (h : Inv rnd floatMin prev0 n s)
    {p : Nat} (t : Nat) (hp : s.procs[p]? = some .idle) : Inv rnd floatMin prev0 n (s.call p t) := by
  unfold Sys.call
  split
  · next ht =>
    have hu := underWay_set (.claimed t) hp
    have hc := uncompared_set (.claimed t) hp
    simp only [uw, uc, List.nil_append] at hu hc
    have hprev := h.prev
    refine ⟨?_, ?_, ?_, ?_, ?_, ?_, ?_, ?_, h.header, h.max, h.fixed, h.saved⟩
    · simp only [List.length_append, List.length_singleton, hprev]; ring
    · simp only [List.map_append, List.map_cons, List.map_nil, List.length_append, List.length_singleton,
        List.range_succ, h.thr, hprev]
      congr 2
      ring
    · intro c hc
      rcases List.mem_append.mp hc with hc | hc
      · exact h.reached c hc
      · rw [List.mem_singleton.mp hc]; exact ht
    · simp only [List.length_set]; exact h.procs
    · intro c hc
      rcases List.mem_append.mp hc with hc | hc
      · exact h.caller c hc
      · rw [List.mem_singleton.mp hc, ← h.procs]
        exact (List.getElem?_eq_some_iff.mp hp).1
    · simp only [List.map_append, List.map_cons, List.map_nil]
      refine (List.Perm.append_right _ h.perm).trans ?_
      rw [List.append_assoc]
      refine List.Perm.append_left _ ?_
      exact List.perm_append_comm.trans hu.symm
    · exact h.perm2.trans (List.Perm.append_left _ hc.symm)
    · intro hw
      refine ⟨(h.noHeader hw).1, fun q hq => ?_⟩
      rcases List.mem_or_eq_of_mem_set hq with hq | hq
      · exact (h.noHeader hw).2 q hq
      · exact .inr ⟨t, hq⟩
  · exact h

theorem Inv.header' {rnd : S → S} {floatMin : S} {prev0 n : Nat} {s : Sys S}
    (h : Inv rnd floatMin prev0 n s) {p t : Nat} (hp : s.procs[p]? = some (.claimed t)) :
    Inv rnd floatMin prev0 n (s.header p t) := by
  have hu := underWay_set (.evaluating t) hp
  have hc := uncompared_set (.evaluating t) hp
  simp only [uw, uc, List.nil_append] at hu hc
  have hu' := (List.perm_append_left_iff [t]).mp hu
  unfold Sys.header
  by_cases hw : s.wroteHeader = false
  · simp only [hw, if_true]
    have hfile := (h.noHeader hw).1
    refine ⟨h.prev, h.thr, h.reached, by simpa using h.procs, h.caller, ?_, ?_, by simp, ?_, h.max,
      h.fixed, h.saved⟩
    · have := h.perm
      rw [hfile] at this
      exact this.trans (List.Perm.append_left _ hu'.symm)
    · have := h.perm2
      rw [hfile] at this
      exact this.trans (List.Perm.append_left _ hc.symm)
    · intro _; exact ⟨[], rfl, by simp⟩
  · simp only [hw]
    refine ⟨h.prev, h.thr, h.reached, by simpa using h.procs, h.caller, ?_, ?_, ?_, h.header, h.max,
      h.fixed, h.saved⟩
    · exact h.perm.trans (List.Perm.append_left _ hu'.symm)
    · exact h.perm2.trans (List.Perm.append_left _ hc.symm)
    · intro hw'; exact absurd hw' hw

theorem Inv.record {rnd : S → S} {floatMin : S} {prev0 n : Nat} {s : Sys S}
    (h : Inv rnd floatMin prev0 n s) {p t : Nat} (m : S) (hp : s.procs[p]? = some (.evaluating t)) :
    Inv rnd floatMin prev0 n (s.record p t m) := by
  have hu := underWay_set (.recorded t m) hp
  have hc := uncompared_set (.recorded t m) hp
  simp only [uw, uc, List.nil_append] at hu hc
  have hw : s.wroteHeader = true := by
    by_contra hw
    rcases (h.noHeader (by simpa using hw)).2 _ (List.mem_of_getElem? hp) with h | ⟨_, h⟩ <;> cases h
  unfold Sys.record
  refine ⟨h.prev, h.thr, h.reached, by simpa using h.procs, h.caller, ?_, ?_, ?_, ?_, h.max,
    h.fixed, h.saved⟩
  · simp only [rows_append, Spec.rows, List.map_append, List.map_cons, List.map_nil]
    refine h.perm.trans ?_
    rw [List.append_assoc]
    exact List.Perm.append_left _ hu.symm
  · simp only [rows_append, Spec.rows]
    refine (List.Perm.append_right _ h.perm2).trans ?_
    rw [List.append_assoc]
    refine List.Perm.append_left _ ?_
    exact List.perm_append_comm.trans hc.symm
  · intro hw'; rw [hw] at hw'; cases hw'
  · intro _
    obtain ⟨rows, h1, h2⟩ := h.header hw
    exact ⟨rows ++ [.row t m], by simp only [h1, List.cons_append], by simpa using h2⟩

theorem Inv.best {rnd : S → S} (hmono : Monotone rnd) (hidem : ∀ x, rnd (rnd x) = rnd x)
    {floatMin : S} {prev0 n : Nat} {s : Sys S}
    (h : Inv rnd floatMin prev0 n s) {p t : Nat} {m : S} (hp : s.procs[p]? = some (.recorded t m)) :
    Inv rnd floatMin prev0 n (s.best rnd p t m) := by
  have hu := underWay_set .idle hp
  have hc := uncompared_set .idle hp
  simp only [uw, uc, List.nil_append] at hu hc
  have hw : s.wroteHeader = true := by
    by_contra hw
    rcases (h.noHeader (by simpa using hw)).2 _ (List.mem_of_getElem? hp) with h | ⟨_, h⟩ <;> cases h
  have hperm2 : (Spec.rows s.file).Perm
      ((s.scores ++ [(t, m)]) ++ Spec.uncompared (s.procs.set p .idle)) := by
    refine h.perm2.trans ?_
    rw [List.append_assoc]
    exact List.Perm.append_left _ hc.symm
  have hno : s.wroteHeader = false → s.file = [] ∧
      ∀ q ∈ s.procs.set p .idle, q = .idle ∨ ∃ t, q = Phase.claimed t := by
    intro hw'; rw [hw] at hw'; cases hw'
  have hmax : ((s.scores ++ [(t, m)]).map fun c => rnd c.2).foldl Max.max floatMin
      = Max.max s.maxScore (rnd m) := by
    rw [List.map_append, List.foldl_append, ← h.max]; rfl
  unfold Sys.best
  simp only
  by_cases hm : m > s.maxScore
  · rw [if_pos hm]
    have hle : s.maxScore ≤ rnd m := by rw [← h.fixed]; exact hmono hm.le
    refine ⟨h.prev, h.thr, h.reached, by simpa using h.procs, h.caller,
      h.perm.trans (List.Perm.append_left _ hu.symm), hperm2, hno, h.header, ?_, hidem m, ?_⟩
    · exact (hmax.trans (max_eq_right hle)).symm
    · simp
  · rw [if_neg hm]
    have hle : rnd m ≤ s.maxScore := by rw [← h.fixed]; exact hmono (not_lt.mp hm)
    refine ⟨h.prev, h.thr, h.reached, by simpa using h.procs, h.caller,
      h.perm.trans (List.Perm.append_left _ hu.symm), hperm2, hno, h.header, ?_, h.fixed, ?_⟩
    · exact (hmax.trans (max_eq_left hle)).symm
    · have hs := h.saved
      cases hl : s.saves.getLast? with
      | none =>
        rw [hl] at hs
        refine ⟨hs.1, fun c hc => ?_⟩
        rcases List.mem_append.mp hc with hc | hc
        · exact hs.2 c hc
        · rw [List.mem_singleton.mp hc, ← hs.1]; exact not_lt.mp hm
      | some c =>
        rw [hl] at hs
        exact ⟨List.mem_append.mpr (.inl hs.1), hs.2⟩

theorem Inv.step {rnd : S → S} (hmono : Monotone rnd) (hidem : ∀ x, rnd (rnd x) = rnd x)
    {floatMin : S} {prev0 n : Nat} {s : Sys S} (h : Inv rnd floatMin prev0 n s) (e : Ev S) :
    Inv rnd floatMin prev0 n (s.step rnd e) := by
  cases e with
  | call p t =>
    simp only [Sys.step]
    split
    · next hp => exact h.call t hp
    · exact h
  | header p =>
    simp only [Sys.step]
    split
    · next hp => exact h.header' hp
    · exact h
  | record p m =>
    simp only [Sys.step]
    split
    · next hp => exact h.record m hp
    · exact h
  | best p =>
    simp only [Sys.step]
    split
    · next hp => exact h.best hmono hidem hp
    · exact h

theorem Inv.run {rnd : S → S} (hmono : Monotone rnd) (hidem : ∀ x, rnd (rnd x) = rnd x)
    {floatMin : S} {prev0 n : Nat} : ∀ (es : List (Ev S)) (s : Sys S), Inv rnd floatMin prev0 n s →
    Inv rnd floatMin prev0 n (s.run rnd es)
  | [], _, h => h
  | e :: es, _, h => Inv.run hmono hidem es _ (h.step hmono hidem e)

omit [LinearOrder S] in
theorem underWay_idle {l : List (Phase S)} (h : ∀ p ∈ l, p = .idle) : Spec.underWay l = [] := by
  rw [underWay_flatMap, List.flatMap_eq_nil_iff]
  intro p hp; rw [h p hp]; rfl

omit [LinearOrder S] in
theorem uncompared_idle {l : List (Phase S)} (h : ∀ p ∈ l, p = .idle) : Spec.uncompared l = [] := by
  rw [uncompared_flatMap, List.flatMap_eq_nil_iff]
  intro p hp; rw [h p hp]; rfl

theorem step_interval (rnd : S → S) (s : Sys S) (e : Ev S) : (s.step rnd e).interval = s.interval := by
  cases e <;> simp only [Sys.step] <;> split <;> try rfl
  · unfold Sys.call; split <;> rfl
  · unfold Sys.header; simp only; split <;> rfl
  · unfold Sys.best; simp only; split <;> rfl

theorem run_interval (rnd : S → S) : ∀ (es : List (Ev S)) (s : Sys S),
    (s.run rnd es).interval = s.interval
  | [], _ => rfl
  | e :: es, s => by rw [Sys.run, run_interval, step_interval]

/-! ## C41 -/

/-- **C41 (claims).** Under every interleaving of any number of processes sharing the evaluator, the
`k`-th claim is of the threshold `⌊offset/interval⌋·interval + (k+1)·interval`: no threshold is claimed
twice and none is skipped.  It is claimed by one of the processes, in a call whose step has reached it.  The
evaluations claimed are exactly those in the score file and those under way; so when no process is in a
call, there is exactly one row in the score file for each claim. -/
theorem thresholds_claimed_once {rnd : S → S} (hmono : Monotone rnd) (hidem : ∀ x, rnd (rnd x) = rnd x)
    {floatMin : S} (hf : rnd floatMin = floatMin) (offset interval n : Nat) (es : List (Ev S)) :
    let s := (Sys.init floatMin offset interval n).run rnd es
    (s.claims.map fun c => c.2.2) =
        (List.range s.claims.length).map (fun k => offset / interval * interval + (k + 1) * interval) ∧
      (∀ c ∈ s.claims, c.1 < n ∧ c.2.2 ≤ c.2.1) ∧
      (s.claims.map fun c => c.2.1).Perm ((Spec.rows s.file).map Prod.fst ++ Spec.underWay s.procs) ∧
      ((∀ p ∈ s.procs, p = .idle) →
        (s.claims.map fun c => c.2.1).Perm ((Spec.rows s.file).map Prod.fst) ∧
        (Spec.rows s.file).length = s.claims.length) := by
  intro s
  have h : Inv rnd floatMin (offset - offset % interval) n s := Inv.run hmono hidem es _ (Inv.init hf _ _ _)
  have hI : s.interval = interval := run_interval rnd es _
  refine ⟨?_, fun c hc => ⟨h.caller c hc, h.reached c hc⟩, h.perm, ?_⟩
  · rw [h.thr, hI, sub_mod_eq]
  · intro hid
    have hp := h.perm
    rw [underWay_idle hid, List.append_nil] at hp
    exact ⟨hp, by simpa using hp.length_eq.symm⟩

/-- **C41 (calls).** A call of an idle process claims a threshold exactly if its step has reached the next
unclaimed one; then nobody else can claim it. -/
theorem call_claims_iff {rnd : S → S} (s : Sys S) {p : Nat} (hp : s.procs[p]? = some .idle) (t : Nat) :
    (s.step rnd (.call p t)).claims =
      (if t ≥ s.prevEvalT + s.interval then s.claims ++ [(p, t, s.prevEvalT + s.interval)] else s.claims) ∧
    (s.step rnd (.call p t)).prevEvalT =
      (if t ≥ s.prevEvalT + s.interval then s.prevEvalT + s.interval else s.prevEvalT) := by
  simp only [Sys.step, hp, Sys.call]
  split <;> exact ⟨rfl, rfl⟩

/-- **C41 (header).** Under every interleaving the score file is empty, or its first line is the header and no
other line is.  No row is ever written before the header, nor lost. -/
theorem header_written_once {rnd : S → S} (hmono : Monotone rnd) (hidem : ∀ x, rnd (rnd x) = rnd x)
    {floatMin : S} (hf : rnd floatMin = floatMin) (offset interval n : Nat) (es : List (Ev S)) :
    let s := (Sys.init floatMin offset interval n).run rnd es
    (s.file = [] ∨ ∃ rows, s.file = .header :: rows ∧ .header ∉ rows) ∧
      (Spec.rows s.file).Perm (s.scores ++ Spec.uncompared s.procs) := by
  intro s
  have h : Inv rnd floatMin (offset - offset % interval) n s := Inv.run hmono hidem es _ (Inv.init hf _ _ _)
  refine ⟨?_, h.perm2⟩
  by_cases hw : s.wroteHeader = true
  · exact .inr (h.header hw)
  · exact .inl (h.noHeader (by simpa using hw)).1

/-- **C41 (best).** Under every interleaving the shared best score is the largest of the float32 minimum and of
the scores compared so far, each rounded to float32 as the shared value is; when no process is in a call
these are the scores in the file.  The agent last saved as `best` has a score that rounds to it, and if none
is saved no score exceeds the float32 minimum. -/
theorem shared_best_is_max {rnd : S → S} (hmono : Monotone rnd) (hidem : ∀ x, rnd (rnd x) = rnd x)
    {floatMin : S} (hf : rnd floatMin = floatMin) (offset interval n : Nat) (es : List (Ev S)) :
    let s := (Sys.init floatMin offset interval n).run rnd es
    (floatMin ≤ s.maxScore ∧ (∀ c ∈ s.scores, rnd c.2 ≤ s.maxScore) ∧
      (s.maxScore = floatMin ∨ ∃ c ∈ s.scores, rnd c.2 = s.maxScore)) ∧
    ((∀ p ∈ s.procs, p = .idle) → (Spec.rows s.file).Perm s.scores) ∧
    match s.saves.getLast? with
    | none => s.maxScore = floatMin ∧ ∀ c ∈ s.scores, c.2 ≤ floatMin
    | some c => c ∈ s.scores ∧ rnd c.2 = s.maxScore := by
  intro s
  have h : Inv rnd floatMin (offset - offset % interval) n s := Inv.run hmono hidem es _ (Inv.init hf _ _ _)
  refine ⟨?_, ?_, h.saved⟩
  · have := foldl_max_le (s.scores.map fun c => rnd c.2) floatMin
    have hm := foldl_max_mem (s.scores.map fun c => rnd c.2) floatMin
    rw [← h.max] at this hm
    refine ⟨this.1, fun c hc => this.2 _ (List.mem_map.mpr ⟨c, hc, rfl⟩), ?_⟩
    rcases hm with hm | hm
    · exact .inl hm
    · obtain ⟨c, hc, he⟩ := List.mem_map.mp hm
      exact .inr ⟨c, hc, he⟩
  · intro hid
    have := h.perm2
    rwa [uncompared_idle hid, List.append_nil] at this

/-- A rounding: down to a multiple of ten. -/
def tens (x : Int) : Int := x / 10 * 10

theorem tens_mono : Monotone tens := by
  intro a b h
  unfold tens
  have : a / 10 ≤ b / 10 := Int.ediv_le_ediv (by decide) h
  linarith

theorem tens_idem (x : Int) : tens (tens x) = tens x := by
  unfold tens
  rw [Int.mul_ediv_cancel _ (by decide)]

/-- Two processes; both see step 9 pass the threshold 5, only one claims it. -/
def exampleRun : Sys Int :=
  (Sys.init (-1000) 0 5 2).run tens
    [.call 0 9, .call 1 8, .header 0, .call 1 10, .record 0 27, .header 1, .record 1 25, .best 1, .best 0]

example : exampleRun.claims = [(0, 9, 5), (1, 10, 10)] ∧
    exampleRun.file = [.header, .row 9 27, .row 10 25] ∧ exampleRun.maxScore = 20 := by decide

/-- Because the shared value is a float32 and the scores are not, the agent saved as `best` can be worse
than one saved before: here 25 replaces 27, as the stored 27 was rounded down to 20. -/
theorem best_can_be_replaced_by_worse :
    ((Sys.init (-1000) 0 5 2).run tens
      [.call 0 9, .call 1 10, .header 0, .record 0 27, .header 1, .record 1 25, .best 0, .best 1]).saves
    = [(9, 27), (10, 25)] := by decide

end Pfrl.Eval.Async
