import Mathlib.Data.List.Nodup
import Mathlib.Data.List.Perm.Basic
import Mathlib.Data.List.Perm.Subperm
import Mathlib.Data.List.Range

/-!
# `train_agent_async` (C44)

Processes run `train_loop` (`pfrl/experiments/train_agent_async.py:27-143`) on a shared counter.  A run is a
schedule: a list of events, each of which lets one process go on to its next access to shared state.  An event that is
not enabled is ignored, so that every interleaving is a schedule.  The outcomes that depend on the environment, the
agent and the evaluation (did the episode end, was the score high enough, does something raise) are part of the
events.
-/

namespace Pfrl.Train.Async

/-! ## Model -/

/-- Where a process is in `train_loop`, `train_agent_async.py:56-143`. -/
inductive Phase where
  /-- before `agent.act` (line 67) up to the lock of the counter (line 77) -/
  | stepping
  /-- after the counter was incremented (line 80), before the hooks -/
  | counted
  /-- after the hooks (line 83) -/
  | hooked
  /-- in the body of the `if` (line 85), before the evaluation -/
  | ending
  /-- after the evaluation (line 111) -/
  | evaluated
  /-- after `episodes_counter` was incremented (line 115) -/
  | episodeCounted
  /-- after the loop (line 132) -/
  | finishing
  /-- returned -/
  | returned
  /-- ended by an exception or killed -/
  | dead
  deriving DecidableEq, Repr

/-- The local variables of a process: `global_t` and `successful`. -/
structure Proc where
  phase : Phase
  globalT : Nat
  successful : Bool
  deriving DecidableEq, Repr

/-- What a process saves: the directory name, and (first) which process saves it. -/
inductive Save where
  /-- `{steps}_finish` -/
  | finish (p n : Nat)
  /-- `{global_t}_except` -/
  | except (p n : Nat)
  /-- `successful` -/
  | successful (p : Nat)
  deriving DecidableEq, Repr

/-- The shared state, with a record of what happened: the numbers handed out by the counter, in order, with the
process that got them; the calls of the global step hooks (process, step); and the saves. -/
structure State where
  counter : Nat
  episodes : Nat
  stop : Bool
  proc : Nat → Proc
  handed : List (Nat × Nat)
  hooks : List (Nat × Nat)
  saves : List Save

/-- What can happen next. -/
inductive Event where
  /-- process `p` acts, steps, observes, and increments the counter under its lock (lines 67-79) -/
  | count (p : Nat)
  /-- process `p` calls the global step hooks (lines 81-82) -/
  | hook (p : Nat)
  /-- process `p` evaluates the condition of line 84; `ended` is `done or reset` -/
  | check (p : Nat) (ended : Bool)
  /-- process `p` evaluates (lines 96-110); `success`: there is a score and it is at least `successful_score` -/
  | evaluate (p : Nat) (success : Bool)
  /-- process `p` increments the episodes counter under its lock (lines 112-114) -/
  | countEpisode (p : Nat)
  /-- process `p` evaluates the condition of line 116 -/
  | check2 (p : Nat)
  /-- process `p` does what follows the loop (lines 133-143) -/
  | finish (p : Nat)
  /-- something raises in process `p` -/
  | fail (p : Nat)
  /-- the user's `stop_event` is set from outside -/
  | stop
  /-- process 0 finds `exception_event` set (lines 124-127): it saves, and all processes are killed -/
  | abort
  deriving DecidableEq, Repr

/-- Changing the local state of process `p`. -/
def upd (f : Nat → Proc) (p : Nat) (x : Proc) : Nat → Proc := fun q => if q = p then x else f q

/-- One event, `train_agent_async.py:56-143`.  Process 0 saves `_except` when something raises inside the `try`
(line 130), i.e. before the loop is left. -/
def step (P steps : Nat) (s : State) : Event → State
  | .count p =>
    if p < P ∧ (s.proc p).phase = .stepping then
      { s with counter := s.counter + 1, handed := s.handed ++ [(p, s.counter + 1)],
               proc := upd s.proc p ⟨.counted, s.counter + 1, (s.proc p).successful⟩ }
    else s
  | .hook p =>
    if p < P ∧ (s.proc p).phase = .counted then
      { s with hooks := s.hooks ++ [(p, (s.proc p).globalT)],
               proc := upd s.proc p ⟨.hooked, (s.proc p).globalT, (s.proc p).successful⟩ }
    else s
  | .check p ended =>
    if p < P ∧ (s.proc p).phase = .hooked then
      if ended = true ∨ (s.proc p).globalT ≥ steps ∨ s.stop = true then
        { s with proc := upd s.proc p ⟨.ending, (s.proc p).globalT, (s.proc p).successful⟩ }
      else { s with proc := upd s.proc p ⟨.stepping, (s.proc p).globalT, (s.proc p).successful⟩ }
    else s
  | .evaluate p success =>
    if p < P ∧ (s.proc p).phase = .ending then
      if success = true then
        { s with stop := true, proc := upd s.proc p ⟨.finishing, (s.proc p).globalT, true⟩ }
      else { s with proc := upd s.proc p ⟨.evaluated, (s.proc p).globalT, (s.proc p).successful⟩ }
    else s
  | .countEpisode p =>
    if p < P ∧ (s.proc p).phase = .evaluated then
      { s with episodes := s.episodes + 1,
               proc := upd s.proc p ⟨.episodeCounted, (s.proc p).globalT, (s.proc p).successful⟩ }
    else s
  | .check2 p =>
    if p < P ∧ (s.proc p).phase = .episodeCounted then
      if (s.proc p).globalT ≥ steps ∨ s.stop = true then
        { s with proc := upd s.proc p ⟨.finishing, (s.proc p).globalT, (s.proc p).successful⟩ }
      else { s with proc := upd s.proc p ⟨.stepping, (s.proc p).globalT, (s.proc p).successful⟩ }
    else s
  | .finish p =>
    if p < P ∧ (s.proc p).phase = .finishing then
      { s with saves := s.saves ++ (if (s.proc p).globalT = steps then [Save.finish p steps] else []) ++
                 (if (s.proc p).successful then [Save.successful p] else []),
               proc := upd s.proc p ⟨.returned, (s.proc p).globalT, (s.proc p).successful⟩ }
    else s
  | .fail p =>
    if p < P ∧ (s.proc p).phase ≠ .returned ∧ (s.proc p).phase ≠ .dead then
      { s with saves := s.saves ++
                 (if p = 0 ∧ (s.proc p).phase ≠ .finishing then [Save.except p (s.proc p).globalT] else []),
               proc := upd s.proc p ⟨.dead, (s.proc p).globalT, (s.proc p).successful⟩ }
    else s
  | .stop => { s with stop := true }
  | .abort =>
    if 0 < P ∧ (s.proc 0).phase = .stepping then
      { s with saves := s.saves ++ [Save.except 0 (s.proc 0).globalT],
               proc := fun q => if (s.proc q).phase = .returned then s.proc q
                 else ⟨.dead, (s.proc q).globalT, (s.proc q).successful⟩ }
    else s

/-- The start, `train_agent_async.py:225-232` and `57-63`. -/
def init : State := ⟨0, 0, false, fun _ => ⟨.stepping, 0, false⟩, [], [], []⟩

/-- A run of `P` processes with `steps` under a schedule. -/
def run (P steps : Nat) (sched : List Event) : State := sched.foldl (step P steps) init

/-! ## Specification -/

/-- Have all processes returned from `train_loop`, without exceptions? -/
def Spec.AllReturned (P : Nat) (s : State) : Prop := ∀ p, p < P → (s.proc p).phase = .returned

/-- Is this a save of the final model? -/
def Spec.isFinish : Save → Bool
  | .finish _ _ => true
  | _ => false

/-- Is this a save on an exception? -/
def Spec.isExcept : Save → Bool
  | .except _ _ => true
  | _ => false

/-! ## Lemmas -/

theorem upd_self (f : Nat → Proc) (p : Nat) (x : Proc) : upd f p x p = x := by simp [upd]

theorem upd_of_ne (f : Nat → Proc) {p q : Nat} (x : Proc) (h : q ≠ p) : upd f p x q = f q := by simp [upd, h]

structure Inv (P steps : Nat) (s : State) : Prop where
  numbers : s.handed.map Prod.snd = List.range' 1 s.counter
  bound : ∀ e ∈ s.handed, e.1 < P
  last : ∀ p, (s.proc p).phase ≠ .stepping → (s.proc p).phase ≠ .dead → (p, (s.proc p).globalT) ∈ s.handed
  below : ∀ p, (s.proc p).phase = .stepping → (s.proc p).globalT < steps
  beyond : ∀ e ∈ s.handed, steps ≤ e.2 → (s.proc e.1).phase ≠ .stepping ∧ (s.proc e.1).globalT = e.2
  left : ∀ p, (s.proc p).phase = .finishing ∨ (s.proc p).phase = .returned →
    steps ≤ (s.proc p).globalT ∨ s.stop = true
  finishes : ∀ p n, s.saves.count (.finish p n) =
    if n = steps ∧ (s.proc p).phase = .returned ∧ (s.proc p).globalT = steps then 1 else 0
  excepts : (∃ n, s.saves.filter Spec.isExcept = [.except 0 n] ∧ (s.proc 0).phase = .dead) ∨
    s.saves.filter Spec.isExcept = []
  hookNodup : s.hooks.Nodup
  hookHanded : ∀ e ∈ s.hooks, e ∈ s.handed
  hookPending : ∀ p, (s.proc p).phase = .counted → (p, (s.proc p).globalT) ∉ s.hooks
  hookDone : ∀ e ∈ s.handed, (s.proc e.1).phase ≠ .dead →
    ((s.proc e.1).phase = .counted ∧ (s.proc e.1).globalT = e.2) ∨ e ∈ s.hooks

theorem handed_nodup {P steps : Nat} {s : State} (h : Inv P steps s) : s.handed.Nodup := by
  have : (s.handed.map Prod.snd).Nodup := by rw [h.numbers]; exact List.nodup_range'
  exact this.of_map

theorem handed_le {P steps : Nat} {s : State} (h : Inv P steps s) {e : Nat × Nat} (he : e ∈ s.handed) :
    1 ≤ e.2 ∧ e.2 ≤ s.counter := by
  have : e.2 ∈ s.handed.map Prod.snd := List.mem_map.mpr ⟨e, he, rfl⟩
  rw [h.numbers, List.mem_range'_1] at this
  omega

theorem init_inv (P : Nat) {steps : Nat} (h : 0 < steps) : Inv P steps init := by
  constructor <;> simp [init, h]

/-- A process moves on without counting: everything but its phase and the saves and hooks stays. -/
theorem move_inv {P steps : Nat} {s : State} (h : Inv P steps s) {p : Nat} {ph : Phase} {ok stop : Bool} {ep : Nat}
    (hp1 : (s.proc p).phase ≠ .stepping) (hp2 : (s.proc p).phase ≠ .dead) (hp3 : (s.proc p).phase ≠ .counted)
    (hp4 : (s.proc p).phase ≠ .returned)
    (hstop : s.stop = true → stop = true)
    (hph1 : ph ≠ .counted) (hph2 : ph ≠ .returned)
    (hstep : ph = .stepping → (s.proc p).globalT < steps)
    (hfin : ph = .finishing → steps ≤ (s.proc p).globalT ∨ stop = true) :
    Inv P steps { s with stop := stop, episodes := ep, proc := upd s.proc p ⟨ph, (s.proc p).globalT, ok⟩ } := by
  constructor
  · exact h.numbers
  · exact h.bound
  · intro q hq1 hq2
    rcases eq_or_ne q p with rfl | hqp
    · simp only [upd_self] at hq1 hq2 ⊢
      exact h.last q hp1 hp2
    · simp only [upd_of_ne _ _ hqp] at hq1 hq2 ⊢
      exact h.last q hq1 hq2
  · intro q hq
    rcases eq_or_ne q p with rfl | hqp
    · simp only [upd_self] at hq ⊢
      exact hstep hq
    · simp only [upd_of_ne _ _ hqp] at hq ⊢
      exact h.below q hq
  · intro e he hle
    have := h.beyond e he hle
    rcases eq_or_ne e.1 p with hep | hep
    · rw [hep] at this ⊢
      simp only [upd_self]
      refine ⟨fun hst => ?_, this.2⟩
      have := hstep hst
      omega
    · simp only [upd_of_ne _ _ hep]
      exact this
  · intro q hq
    rcases eq_or_ne q p with rfl | hqp
    · simp only [upd_self] at hq ⊢
      exact hfin (hq.resolve_right hph2)
    · simp only [upd_of_ne _ _ hqp] at hq ⊢
      exact (h.left q hq).imp id hstop
  · intro q n
    rcases eq_or_ne q p with rfl | hqp
    · simp only [upd_self]
      have := h.finishes q n
      rw [if_neg (fun hh => hp4 hh.2.1)] at this
      rw [this, if_neg (fun hh => hph2 hh.2.1)]
    · simp only [upd_of_ne _ _ hqp]
      exact h.finishes q n
  · refine h.excepts.imp (fun hh => ?_) id
    obtain ⟨n, hn, hd⟩ := hh
    refine ⟨n, hn, ?_⟩
    rcases eq_or_ne 0 p with h0 | h0
    · subst h0; exact absurd hd hp2
    · simp only [upd_of_ne _ _ h0]; exact hd
  · exact h.hookNodup
  · exact h.hookHanded
  · intro q hq
    rcases eq_or_ne q p with rfl | hqp
    · simp only [upd_self] at hq
      exact absurd hq hph1
    · simp only [upd_of_ne _ _ hqp] at hq ⊢
      exact h.hookPending q hq
  · intro e he hd
    rcases eq_or_ne e.1 p with hep | hep
    · right
      have := h.hookDone e he (by rw [hep]; exact hp2)
      rcases this with hh | hh
      · rw [hep] at hh; exact absurd hh.1 hp3
      · exact hh
    · simp only [upd_of_ne _ _ hep] at hd ⊢
      exact h.hookDone e he hd

theorem count_inv {P steps : Nat} {s : State} (h : Inv P steps s) {p : Nat} (hP : p < P)
    (hp : (s.proc p).phase = .stepping) {ok : Bool} :
    Inv P steps { s with counter := s.counter + 1, handed := s.handed ++ [(p, s.counter + 1)],
                         proc := upd s.proc p ⟨.counted, s.counter + 1, ok⟩ } := by
  have hnew : ∀ q, (q, s.counter + 1) ∉ s.handed := fun q hq => by
    have := (handed_le h hq).2; simp only at this; omega
  constructor
  · simp only [List.map_append, h.numbers, List.map_cons, List.map_nil]
    rw [List.range'_1_concat, Nat.add_comm 1]
  · intro e he
    rcases List.mem_append.mp he with he | he
    · exact h.bound e he
    · rw [List.mem_singleton.mp he]; exact hP
  · intro q hq1 hq2
    rcases eq_or_ne q p with rfl | hqp
    · simp only [upd_self]; simp
    · simp only [upd_of_ne _ _ hqp] at hq1 hq2 ⊢
      exact List.mem_append_left _ (h.last q hq1 hq2)
  · intro q hq
    rcases eq_or_ne q p with rfl | hqp
    · simp only [upd_self] at hq; cases hq
    · simp only [upd_of_ne _ _ hqp] at hq ⊢
      exact h.below q hq
  · intro e he hle
    rcases List.mem_append.mp he with he | he
    · have := h.beyond e he hle
      rcases eq_or_ne e.1 p with hep | hep
      · rw [hep] at this; exact absurd hp this.1
      · simp only [upd_of_ne _ _ hep]; exact this
    · rw [List.mem_singleton.mp he]
      simp only [upd_self]
      exact ⟨by simp, trivial⟩
  · intro q hq
    rcases eq_or_ne q p with rfl | hqp
    · simp only [upd_self] at hq; rcases hq with hq | hq <;> cases hq
    · simp only [upd_of_ne _ _ hqp] at hq ⊢
      exact h.left q hq
  · intro q n
    rcases eq_or_ne q p with rfl | hqp
    · simp only [upd_self]
      have := h.finishes q n
      rw [if_neg (fun hh => by rw [hp] at hh; cases hh.2.1)] at this
      rw [this, if_neg (fun hh => by cases hh.2.1)]
    · simp only [upd_of_ne _ _ hqp]
      exact h.finishes q n
  · refine h.excepts.imp (fun hh => ?_) id
    obtain ⟨n, hn, hd⟩ := hh
    refine ⟨n, hn, ?_⟩
    rcases eq_or_ne 0 p with h0 | h0
    · subst h0; rw [hd] at hp; cases hp
    · simp only [upd_of_ne _ _ h0]; exact hd
  · exact h.hookNodup
  · exact fun e he => List.mem_append_left _ (h.hookHanded e he)
  · intro q hq
    rcases eq_or_ne q p with rfl | hqp
    · simp only [upd_self]
      exact fun hh => hnew q (h.hookHanded _ hh)
    · simp only [upd_of_ne _ _ hqp] at hq ⊢
      exact h.hookPending q hq
  · intro e he hd
    rcases List.mem_append.mp he with he | he
    · rcases eq_or_ne e.1 p with hep | hep
      · right
        have := h.hookDone e he (by rw [hep, hp]; simp)
        rcases this with hh | hh
        · rw [hep, hp] at hh; cases hh.1
        · exact hh
      · simp only [upd_of_ne _ _ hep] at hd ⊢
        exact h.hookDone e he hd
    · left
      rw [List.mem_singleton.mp he]
      simp only [upd_self]
      exact ⟨trivial, trivial⟩

theorem hook_inv {P steps : Nat} {s : State} (h : Inv P steps s) {p : Nat}
    (hp : (s.proc p).phase = .counted) {ok : Bool} :
    Inv P steps { s with hooks := s.hooks ++ [(p, (s.proc p).globalT)],
                         proc := upd s.proc p ⟨.hooked, (s.proc p).globalT, ok⟩ } := by
  have hin : (p, (s.proc p).globalT) ∈ s.handed := h.last p (by rw [hp]; simp) (by rw [hp]; simp)
  constructor
  · exact h.numbers
  · exact h.bound
  · intro q hq1 hq2
    rcases eq_or_ne q p with rfl | hqp
    · simp only [upd_self]; exact hin
    · simp only [upd_of_ne _ _ hqp] at hq1 hq2 ⊢
      exact h.last q hq1 hq2
  · intro q hq
    rcases eq_or_ne q p with rfl | hqp
    · simp only [upd_self] at hq; cases hq
    · simp only [upd_of_ne _ _ hqp] at hq ⊢
      exact h.below q hq
  · intro e he hle
    have := h.beyond e he hle
    rcases eq_or_ne e.1 p with hep | hep
    · rw [hep] at this ⊢
      simp only [upd_self]
      exact ⟨by simp, this.2⟩
    · simp only [upd_of_ne _ _ hep]; exact this
  · intro q hq
    rcases eq_or_ne q p with rfl | hqp
    · simp only [upd_self] at hq; rcases hq with hq | hq <;> cases hq
    · simp only [upd_of_ne _ _ hqp] at hq ⊢
      exact h.left q hq
  · intro q n
    rcases eq_or_ne q p with rfl | hqp
    · simp only [upd_self]
      have := h.finishes q n
      rw [if_neg (fun hh => by rw [hp] at hh; cases hh.2.1)] at this
      rw [this, if_neg (fun hh => by cases hh.2.1)]
    · simp only [upd_of_ne _ _ hqp]
      exact h.finishes q n
  · refine h.excepts.imp (fun hh => ?_) id
    obtain ⟨n, hn, hd⟩ := hh
    refine ⟨n, hn, ?_⟩
    rcases eq_or_ne 0 p with h0 | h0
    · subst h0; rw [hd] at hp; cases hp
    · simp only [upd_of_ne _ _ h0]; exact hd
  · simp only
    rw [List.nodup_append]
    refine ⟨h.hookNodup, by simp, ?_⟩
    intro a ha b hb hab
    rw [List.mem_singleton.mp hb] at hab
    exact h.hookPending p hp (hab ▸ ha)
  · intro e he
    rcases List.mem_append.mp he with he | he
    · exact h.hookHanded e he
    · rw [List.mem_singleton.mp he]; exact hin
  · intro q hq
    rcases eq_or_ne q p with rfl | hqp
    · simp only [upd_self] at hq; cases hq
    · simp only [upd_of_ne _ _ hqp] at hq ⊢
      intro hh
      rcases List.mem_append.mp hh with hh | hh
      · exact h.hookPending q hq hh
      · exact hqp (congrArg Prod.fst (List.mem_singleton.mp hh))
  · intro e he hd
    rcases eq_or_ne e.1 p with hep | hep
    · right
      rcases h.hookDone e he (by rw [hep, hp]; simp) with hh | hh
      · refine List.mem_append_right _ (List.mem_singleton.mpr ?_)
        rw [hep] at hh
        exact Prod.ext hep hh.2.symm
      · exact List.mem_append_left _ hh
    · simp only [upd_of_ne _ _ hep] at hd ⊢
      exact (h.hookDone e he hd).imp id (fun hh => List.mem_append_left _ hh)

theorem finish_inv {P steps : Nat} {s : State} (h : Inv P steps s) {p : Nat}
    (hp : (s.proc p).phase = .finishing) {ok b : Bool} :
    Inv P steps { s with saves := s.saves ++ (if (s.proc p).globalT = steps then [Save.finish p steps] else []) ++
                           (if b then [Save.successful p] else []),
                         proc := upd s.proc p ⟨.returned, (s.proc p).globalT, ok⟩ } := by
  have hin : (p, (s.proc p).globalT) ∈ s.handed := h.last p (by rw [hp]; simp) (by rw [hp]; simp)
  constructor
  · exact h.numbers
  · exact h.bound
  · intro q hq1 hq2
    rcases eq_or_ne q p with rfl | hqp
    · simp only [upd_self]; exact hin
    · simp only [upd_of_ne _ _ hqp] at hq1 hq2 ⊢
      exact h.last q hq1 hq2
  · intro q hq
    rcases eq_or_ne q p with rfl | hqp
    · simp only [upd_self] at hq; cases hq
    · simp only [upd_of_ne _ _ hqp] at hq ⊢
      exact h.below q hq
  · intro e he hle
    have := h.beyond e he hle
    rcases eq_or_ne e.1 p with hep | hep
    · rw [hep] at this ⊢
      simp only [upd_self]
      exact ⟨by simp, this.2⟩
    · simp only [upd_of_ne _ _ hep]; exact this
  · intro q hq
    rcases eq_or_ne q p with rfl | hqp
    · simp only [upd_self]; exact h.left q (.inl hp)
    · simp only [upd_of_ne _ _ hqp] at hq ⊢
      exact h.left q hq
  · intro q n
    simp only [List.count_append]
    have e2 : List.count (Save.finish q n) (if b then [Save.successful p] else []) = 0 := by
      rw [List.count_eq_zero]; split <;> simp
    rw [e2, h.finishes]
    rcases eq_or_ne q p with rfl | hqp
    · simp only [upd_self]
      rw [if_neg (fun hh => by rw [hp] at hh; cases hh.2.1)]
      by_cases hg : (s.proc q).globalT = steps
      · rw [if_pos hg]
        by_cases hn : n = steps
        · subst hn; simp [hg]
        · rw [if_neg (fun hh => hn hh.1), List.count_eq_zero.mpr]
          intro hh
          exact hn (by have := List.mem_singleton.mp hh; injection this)
      · rw [if_neg hg, if_neg (fun hh => hg hh.2.2)]; rfl
    · simp only [upd_of_ne _ _ hqp]
      have e1 : List.count (Save.finish q n)
          (if (s.proc p).globalT = steps then [Save.finish p steps] else []) = 0 := by
        rw [List.count_eq_zero]; split <;> simp [hqp]
      rw [e1]; rfl
  · have hf : List.filter Spec.isExcept (s.saves ++
        (if (s.proc p).globalT = steps then [Save.finish p steps] else []) ++
        (if b then [Save.successful p] else [])) = s.saves.filter Spec.isExcept := by
      simp only [List.filter_append]
      split <;> split <;> simp [Spec.isExcept]
    simp only [hf]
    refine h.excepts.imp (fun hh => ?_) id
    obtain ⟨n, hn, hd⟩ := hh
    refine ⟨n, hn, ?_⟩
    rcases eq_or_ne 0 p with h0 | h0
    · subst h0; rw [hd] at hp; cases hp
    · simp only [upd_of_ne _ _ h0]; exact hd
  · exact h.hookNodup
  · exact h.hookHanded
  · intro q hq
    rcases eq_or_ne q p with rfl | hqp
    · simp only [upd_self] at hq; cases hq
    · simp only [upd_of_ne _ _ hqp] at hq ⊢
      exact h.hookPending q hq
  · intro e he hd
    rcases eq_or_ne e.1 p with hep | hep
    · right
      rcases h.hookDone e he (by rw [hep, hp]; simp) with hh | hh
      · rw [hep, hp] at hh; cases hh.1
      · exact hh
    · simp only [upd_of_ne _ _ hep] at hd ⊢
      exact h.hookDone e he hd

/-- Some processes die; if process 0 does, it may save. -/
theorem die_inv {P steps : Nat} {s : State} (h : Inv P steps s) {f : Nat → Proc} {l : List Save}
    (hf : ∀ q, f q = s.proc q ∨ ((s.proc q).phase ≠ .returned ∧ (f q).phase = .dead ∧
      (f q).globalT = (s.proc q).globalT))
    (hl : l = [] ∨ ((s.proc 0).phase ≠ .dead ∧ (f 0).phase = .dead ∧ ∃ n, l = [.except 0 n])) :
    Inv P steps { s with saves := s.saves ++ l, proc := f } := by
  constructor
  · exact h.numbers
  · exact h.bound
  · intro q hq1 hq2
    rcases hf q with hq | hq
    · simp only [hq] at hq1 hq2 ⊢; exact h.last q hq1 hq2
    · exact absurd hq.2.1 hq2
  · intro q hq'
    rcases hf q with hq | hq
    · simp only [hq] at hq' ⊢; exact h.below q hq'
    · have := hq.2.1
      simp only at hq'
      rw [this] at hq'; cases hq'
  · intro e he hle
    have := h.beyond e he hle
    rcases hf e.1 with hq | hq
    · simp only [hq]; exact this
    · simp only
      rw [hq.2.1, hq.2.2]
      exact ⟨by simp, this.2⟩
  · intro q hq'
    rcases hf q with hq | hq
    · simp only [hq] at hq' ⊢; exact h.left q hq'
    · simp only at hq'
      rw [hq.2.1] at hq'
      rcases hq' with hq' | hq' <;> cases hq'
  · intro q n
    have e : List.count (Save.finish q n) l = 0 := by
      rcases hl with hl | ⟨_, _, m, hl⟩
      · rw [hl]; rfl
      · rw [hl, List.count_eq_zero]; simp
    simp only [List.count_append, e, Nat.add_zero, h.finishes]
    rcases hf q with hq | hq
    · simp only [hq]
    · rw [if_neg (fun hh => hq.1 hh.2.1), if_neg (fun hh => by rw [hq.2.1] at hh; cases hh.2.1)]
  · rcases hl with hl | ⟨h1, h2, m, hl⟩
    · subst hl
      simp only [List.append_nil]
      refine h.excepts.imp (fun hh => ?_) id
      obtain ⟨n, hn, hd⟩ := hh
      refine ⟨n, hn, ?_⟩
      rcases hf 0 with hq | hq
      · rw [hq]; exact hd
      · exact hq.2.1
    · left
      refine ⟨m, ?_, h2⟩
      rcases h.excepts with ⟨n, hn, hd⟩ | hn
      · exact absurd hd h1
      · simp only [List.filter_append, hn, hl]; rfl
  · exact h.hookNodup
  · exact h.hookHanded
  · intro q hq'
    rcases hf q with hq | hq
    · simp only [hq] at hq' ⊢; exact h.hookPending q hq'
    · simp only at hq'
      rw [hq.2.1] at hq'; cases hq'
  · intro e he hd
    rcases hf e.1 with hq | hq
    · simp only [hq] at hd ⊢; exact h.hookDone e he hd
    · exact absurd hq.2.1 hd

theorem step_inv {P steps : Nat} {s : State} (h : Inv P steps s) (ev : Event) :
    Inv P steps (step P steps s ev) := by
  cases ev with
  | count p =>
    simp only [step]; split
    · rename_i hc; exact count_inv h hc.1 hc.2
    · exact h
  | hook p =>
    simp only [step]; split
    · rename_i hc; exact hook_inv h hc.2
    · exact h
  | check p ended =>
    simp only [step]; split
    · rename_i hc
      split
      · exact move_inv h (ep := s.episodes) (stop := s.stop) (by rw [hc.2]; simp) (by rw [hc.2]; simp)
          (by rw [hc.2]; simp) (by rw [hc.2]; simp) id (by simp) (by simp) (by simp) (by simp)
      · rename_i hn
        exact move_inv h (ep := s.episodes) (stop := s.stop) (by rw [hc.2]; simp) (by rw [hc.2]; simp)
          (by rw [hc.2]; simp) (by rw [hc.2]; simp) id (by simp) (by simp)
          (fun _ => by by_contra hge; exact hn (.inr (.inl (by omega)))) (by simp)
    · exact h
  | evaluate p success =>
    simp only [step]; split
    · rename_i hc
      split
      · exact move_inv h (ep := s.episodes) (stop := true) (by rw [hc.2]; simp) (by rw [hc.2]; simp)
          (by rw [hc.2]; simp) (by rw [hc.2]; simp) (fun _ => rfl) (by simp) (by simp) (by simp)
          (fun _ => .inr rfl)
      · exact move_inv h (ep := s.episodes) (stop := s.stop) (by rw [hc.2]; simp) (by rw [hc.2]; simp)
          (by rw [hc.2]; simp) (by rw [hc.2]; simp) id (by simp) (by simp) (by simp) (by simp)
    · exact h
  | countEpisode p =>
    simp only [step]; split
    · rename_i hc
      exact move_inv h (ep := s.episodes + 1) (stop := s.stop) (by rw [hc.2]; simp) (by rw [hc.2]; simp)
          (by rw [hc.2]; simp) (by rw [hc.2]; simp) id (by simp) (by simp) (by simp) (by simp)
    · exact h
  | check2 p =>
    simp only [step]; split
    · rename_i hc
      split
      · rename_i hf
        exact move_inv h (ep := s.episodes) (stop := s.stop) (by rw [hc.2]; simp) (by rw [hc.2]; simp)
          (by rw [hc.2]; simp) (by rw [hc.2]; simp) id (by simp) (by simp) (by simp) (fun _ => hf)
      · rename_i hn
        exact move_inv h (ep := s.episodes) (stop := s.stop) (by rw [hc.2]; simp) (by rw [hc.2]; simp)
          (by rw [hc.2]; simp) (by rw [hc.2]; simp) id (by simp) (by simp)
          (fun _ => by by_contra hge; exact hn (.inl (by omega))) (by simp)
    · exact h
  | finish p =>
    simp only [step]; split
    · rename_i hc; exact finish_inv h hc.2
    · exact h
  | fail p =>
    simp only [step]; split
    · rename_i hc
      apply die_inv h
      · intro q
        rcases eq_or_ne q p with rfl | hqp
        · right; rw [upd_self]; exact ⟨hc.2.1, rfl, rfl⟩
        · left; rw [upd_of_ne _ _ hqp]
      · split
        · rename_i h0
          right
          obtain ⟨h0, _⟩ := h0
          subst h0
          exact ⟨hc.2.2, by rw [upd_self], _, rfl⟩
        · exact .inl rfl
    · exact h
  | stop =>
    simp only [step]
    exact ⟨h.numbers, h.bound, h.last, h.below, h.beyond, fun _ _ => .inr rfl, h.finishes, h.excepts,
      h.hookNodup, h.hookHanded, h.hookPending, h.hookDone⟩
  | abort =>
    simp only [step]; split
    · rename_i hc
      apply die_inv h
      · intro q
        split
        · exact .inl rfl
        · rename_i hr; exact .inr ⟨hr, rfl, rfl⟩
      · right
        refine ⟨by rw [hc.2]; simp, ?_, _, rfl⟩
        rw [hc.2]; simp
    · exact h

theorem run_inv (P : Nat) {steps : Nat} (hs : 0 < steps) (sched : List Event) :
    Inv P steps (run P steps sched) := by
  unfold run
  have : ∀ (l : List Event) (s : State), Inv P steps s → Inv P steps (l.foldl (step P steps) s) := by
    intro l
    induction l with
    | nil => exact fun s h => h
    | cons e l ih => exact fun s h => ih _ (step_inv h e)
  exact this sched init (init_inv P hs)

theorem eq_singleton_of_count {α : Type _} [DecidableEq α] {l : List α} {a : α} (h1 : l.count a = 1)
    (h2 : ∀ b ∈ l, b = a) : l = [a] := by
  have : l = List.replicate l.length a := List.eq_replicate_iff.mpr ⟨rfl, h2⟩
  rw [this, List.count_replicate_self] at h1
  rw [this, h1]; rfl

theorem overshoot_of_inv {P steps : Nat} (hP : 0 < P) (hs : 0 < steps) {s : State} (h : Inv P steps s) :
    s.counter ≤ steps + (P - 1) := by
  let late := s.handed.filter fun e => decide (steps ≤ e.2)
  have hmem : ∀ e, e ∈ late ↔ e ∈ s.handed ∧ steps ≤ e.2 := fun e => by simp [late]
  have hnd : (late.map Prod.fst).Nodup := by
    refine List.Nodup.map_on ?_ ((handed_nodup h).filter _)
    intro a ha b hb hab
    have ha := (hmem a).mp ha
    have hb := (hmem b).mp hb
    have h1 := (h.beyond a ha.1 ha.2).2
    have h2 := (h.beyond b hb.1 hb.2).2
    rw [hab] at h1
    exact Prod.ext hab (h1.symm.trans h2)
  have hsub : late.map Prod.fst ⊆ List.range P := by
    intro p hp
    obtain ⟨e, he, rfl⟩ := List.mem_map.mp hp
    exact List.mem_range.mpr (h.bound e ((hmem e).mp he).1)
  have hlen := (hnd.subperm hsub).length_le
  rw [List.length_map, List.length_range] at hlen
  by_contra hlt
  have hsub2 : List.range' steps P.succ ⊆ late.map Prod.snd := by
    intro n hn
    rw [List.mem_range'_1] at hn
    have : n ∈ s.handed.map Prod.snd := by rw [h.numbers, List.mem_range'_1]; omega
    obtain ⟨e, he, rfl⟩ := List.mem_map.mp this
    exact List.mem_map.mpr ⟨e, (hmem e).mpr ⟨he, hn.1⟩, rfl⟩
  have hlen2 := ((List.nodup_range' (s := steps) (n := P.succ)).subperm hsub2).length_le
  rw [List.length_map, List.length_range'] at hlen2
  omega

/-! ## C44 -/

/-- **C44 (numbers).** Under every interleaving of any number of processes, with exceptions anywhere, the step
numbers handed to the processes are, in order, 1, 2, 3, ... up to the value of the counter: no gap, no repeat. -/
theorem step_numbers (P : Nat) {steps : Nat} (hs : 0 < steps) (sched : List Event) :
    (run P steps sched).handed.map Prod.snd = List.range' 1 (run P steps sched).counter :=
  (run_inv P hs sched).numbers

/-- **C44 (overshoot).** At no time have more than `processes - 1` steps been made beyond `steps`. -/
theorem overshoot {P steps : Nat} (hP : 0 < P) (hs : 0 < steps) (sched : List Event) :
    (run P steps sched).counter ≤ steps + (P - 1) :=
  overshoot_of_inv hP hs (run_inv P hs sched)

/-- **C44 (final model).** If all processes return without exceptions, then if the counter has reached `steps`, the
final model was saved exactly once, as `{steps}_finish`, by the process that made the step number `steps`;
otherwise it was not saved, and the stop event was set. -/
theorem final_model_saved_once {P steps : Nat} (hP : 0 < P) (hs : 0 < steps) (sched : List Event)
    (hall : Spec.AllReturned P (run P steps sched)) :
    (steps ≤ (run P steps sched).counter → ∃ p, p < P ∧ (p, steps) ∈ (run P steps sched).handed ∧
      (run P steps sched).saves.filter Spec.isFinish = [.finish p steps]) ∧
    ((run P steps sched).counter < steps →
      (run P steps sched).saves.filter Spec.isFinish = [] ∧ (run P steps sched).stop = true) := by
  have h := run_inv P hs sched
  generalize run P steps sched = s at h hall
  have huniq : ∀ p n, (Save.finish p n) ∈ s.saves → n = steps ∧ (p, steps) ∈ s.handed ∧
      (s.proc p).phase = .returned := by
    intro p n hm
    have := List.count_pos_iff.mpr hm
    rw [h.finishes] at this
    split at this
    · rename_i hc
      refine ⟨hc.1, ?_, hc.2.1⟩
      have := h.last p (by rw [hc.2.1]; simp) (by rw [hc.2.1]; simp)
      rwa [hc.2.2] at this
    · omega
  constructor
  · intro hle
    have : steps ∈ s.handed.map Prod.snd := by rw [h.numbers, List.mem_range'_1]; omega
    obtain ⟨⟨p, n⟩, he, hn⟩ := List.mem_map.mp this
    simp only at hn
    subst hn
    have hpP := h.bound _ he
    refine ⟨p, hpP, he, ?_⟩
    have hret := hall p hpP
    have hg := (h.beyond _ he (Nat.le_refl _)).2
    simp only at hg
    apply eq_singleton_of_count
    · rw [List.count_filter (by rfl), h.finishes, if_pos ⟨rfl, hret, hg⟩]
    · intro b hb
      obtain ⟨hb1, hb2⟩ := List.mem_filter.mp hb
      cases b with
      | finish q m =>
        obtain ⟨hm, hq, _⟩ := huniq q m hb1
        subst hm
        have hnd : (s.handed.map Prod.snd).Nodup := by rw [h.numbers]; exact List.nodup_range'
        have := List.inj_on_of_nodup_map hnd hq he rfl
        have hqp : q = p := congrArg Prod.fst this
        rw [hqp]
      | _ => simp [Spec.isFinish] at hb2
  · intro hlt
    constructor
    · rw [List.filter_eq_nil_iff]
      intro b hb
      cases b with
      | finish q m =>
        have := handed_le h (huniq q m hb).2.1
        simp only at this
        omega
      | _ => simp [Spec.isFinish]
    · have hret := hall 0 hP
      rcases h.left 0 (.inr hret) with hh | hh
      · have := handed_le h (h.last 0 (by rw [hret]; simp) (by rw [hret]; simp))
        simp only at this
        omega
      · exact hh

/-- **C44 (final model, with exceptions).** Whatever processes fail and whenever, the final model is saved at most
once, and the model is saved at most once because of an exception, by process 0. -/
theorem saves_at_most_once (P : Nat) {steps : Nat} (hs : 0 < steps) (sched : List Event) :
    ((run P steps sched).saves.filter Spec.isFinish).length ≤ 1 ∧
    ((run P steps sched).saves.filter Spec.isExcept = [] ∨
      ∃ n, (run P steps sched).saves.filter Spec.isExcept = [.except 0 n]) := by
  have h := run_inv P hs sched
  generalize run P steps sched = s at h
  constructor
  · by_contra hlen
    have huniq : ∀ p n, (Save.finish p n) ∈ s.saves → n = steps ∧ (p, steps) ∈ s.handed ∧
        s.saves.count (.finish p n) = 1 := by
      intro p n hm
      have := List.count_pos_iff.mpr hm
      rw [h.finishes] at this
      split at this
      · rename_i hc
        refine ⟨hc.1, ?_, by rw [h.finishes, if_pos hc]⟩
        have := h.last p (by rw [hc.2.1]; simp) (by rw [hc.2.1]; simp)
        rwa [hc.2.2] at this
      · omega
    have hne : s.saves.filter Spec.isFinish ≠ [] := by
      intro h0; rw [h0] at hlen; simp at hlen
    obtain ⟨a, ha⟩ := List.exists_mem_of_ne_nil _ hne
    obtain ⟨ha1, ha2⟩ := List.mem_filter.mp ha
    cases a with
    | finish p n =>
      obtain ⟨hn, hp, hcount⟩ := huniq p n ha1
      have : s.saves.filter Spec.isFinish = [.finish p n] := by
        apply eq_singleton_of_count
        · rw [List.count_filter (by rfl), hcount]
        · intro b hb
          obtain ⟨hb1, hb2⟩ := List.mem_filter.mp hb
          cases b with
          | finish q m =>
            obtain ⟨hm, hq, _⟩ := huniq q m hb1
            have hnd : (s.handed.map Prod.snd).Nodup := by rw [h.numbers]; exact List.nodup_range'
            have := List.inj_on_of_nodup_map hnd hq hp rfl
            have hqp : q = p := congrArg Prod.fst this
            rw [hqp, hm, hn]
          | _ => simp [Spec.isFinish] at hb2
      rw [this] at hlen
      simp at hlen
    | _ => simp [Spec.isFinish] at ha2
  · rcases h.excepts with ⟨n, hn, _⟩ | hn
    · exact .inr ⟨n, hn⟩
    · exact .inl hn

/-- **C44 (hooks).** The global step hooks are called at most once for each step number, by the process that made
the step, and if all processes return without exceptions, exactly once for each. -/
theorem hooks_called_once {P steps : Nat} (hs : 0 < steps) (sched : List Event) :
    (run P steps sched).hooks.Nodup ∧
    (∀ e ∈ (run P steps sched).hooks, e ∈ (run P steps sched).handed) ∧
    (Spec.AllReturned P (run P steps sched) →
      (run P steps sched).hooks.Perm (run P steps sched).handed) := by
  have h := run_inv P hs sched
  generalize run P steps sched = s at h
  refine ⟨h.hookNodup, h.hookHanded, fun hall => ?_⟩
  rw [List.perm_ext_iff_of_nodup h.hookNodup (handed_nodup h)]
  intro e
  refine ⟨h.hookHanded e, fun he => ?_⟩
  have hr := hall e.1 (h.bound e he)
  rcases h.hookDone e he (by rw [hr]; simp) with hh | hh
  · rw [hr] at hh; cases hh.1
  · exact hh

/-- Two processes, two steps: while process 0 makes the second step, process 1 makes a third. -/
def exampleSchedule : List Event :=
  [.count 0, .hook 0, .check 0 false, .count 0, .count 1, .hook 1, .hook 0, .check 1 false, .check 0 true,
    .evaluate 0 false, .countEpisode 0, .check2 0, .evaluate 1 false, .finish 0, .countEpisode 1, .check2 1,
    .finish 1]

example : Spec.AllReturned 2 (run 2 2 exampleSchedule) := by
  intro p hp
  have : p = 0 ∨ p = 1 := by omega
  rcases this with rfl | rfl <;> decide

example : (run 2 2 exampleSchedule).handed = [(0, 1), (0, 2), (1, 3)] := by decide

example : (run 2 2 exampleSchedule).saves = [.finish 0 2] := by decide

/-- A successful evaluation stops the others before `steps`: nothing is saved as `_finish`. -/
example : (run 2 5 [.count 0, .count 1, .hook 0, .check 0 true, .evaluate 0 true, .finish 0, .hook 1,
    .check 1 false, .evaluate 1 false, .countEpisode 1, .check2 1, .finish 1]).saves = [.successful 0] := by decide

end Pfrl.Train.Async
