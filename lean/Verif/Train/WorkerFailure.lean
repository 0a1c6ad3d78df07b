import Mathlib.Algebra.BigOperators.Group.Finset.Basic
import Mathlib.Algebra.Order.BigOperators.Group.Finset
import Mathlib.Data.List.Range
import Verif.Train.Async

/-!
# Failing workers of `train_agent_async` (C148)

The processes of `Verif.Train.Async` together with the main process, which waits for them in `run_async`
(`pfrl/utils/async_.py:12-43`).  A worker can fail in every way: something raises inside `train_loop`, something raises
before or after it (`make_env`, `make_agent`, `env.close`), or the operating system kills it.  A process killed while it
holds the lock of a counter is not modelled: it would keep the lock.
-/

namespace Pfrl.Train.WorkerFailure

open Pfrl.Train.Async

/-! ## Model -/

/-- The warnings of `run_async`, `async_.py:31-43`: process `p` exited with a status, or was terminated by a signal. -/
inductive Warning where
  | status (p : Nat) (n : Int)
  | signal (p : Nat) (n : Int)
  deriving DecidableEq, Repr

/-- The workers, their exit codes (`None` while they run), and the main process: how many workers it has joined, what
it has warned about, whether `train_agent_async` has returned, whether `kill_all` has killed it. -/
structure Sys where
  s : State
  code : Nat → Option Int
  joined : Nat
  warned : List Warning
  returned : Bool
  killed : Bool

/-- What can happen next. -/
inductive Ev where
  /-- what happens in `train_loop` -/
  | work (e : Event)
  /-- process `p` closes its environments after `train_loop` and exits, `train_agent_async.py:317-319` -/
  | exit (p : Nat)
  /-- process `p` ends with exit code `c` other than by an exception in `train_loop`: something raises outside of it, or
  it is killed -/
  | lost (p : Nat) (c : Int)
  /-- the main process joins the next worker, `async_.py:28-43` -/
  | join
  /-- the main process has joined all workers: `stop_event.set()`, and it returns, `train_agent_async.py:323-328` -/
  | ret
  deriving DecidableEq, Repr

/-- What `run_async` warns about process `p` with exit code `c`, `async_.py:30-43`. -/
def warn (p : Nat) (c : Int) : List Warning :=
  if c > 0 then [.status p c] else if c < 0 then [.signal p (-c)] else []

/-- Does the event make process 0 kill the process group (`kill_all`, `train_agent_async.py:16-24, 124-127`)? -/
def kills (P : Nat) (s : State) (e : Event) : Bool := decide (e = .abort ∧ 0 < P ∧ (s.proc 0).phase = .stepping)

/-- Process `p` ends without running any more Python; if its `train_loop` has not returned it never will. -/
def die (s : State) (p : Nat) : Nat → Proc :=
  if (s.proc p).phase = .returned then s.proc
  else upd s.proc p ⟨.dead, (s.proc p).globalT, (s.proc p).successful⟩

/-- One event.  Python exits with code 1 on an exception; `kill_all` sends SIGTERM (15) to the process group, to which
the main process belongs. -/
def step (P steps : Nat) (x : Sys) : Ev → Sys
  | .work e =>
    if x.killed = true then x
    else
      { x with
        s := Async.step P steps x.s e
        code := fun q => if q < P ∧ x.code q = none ∧ ((Async.step P steps x.s e).proc q).phase = .dead then
          some (if kills P x.s e then -15 else 1) else x.code q
        killed := kills P x.s e }
  | .exit p =>
    if p < P ∧ (x.s.proc p).phase = .returned ∧ x.code p = none then
      { x with code := fun q => if q = p then some 0 else x.code q }
    else x
  | .lost p c =>
    if p < P ∧ x.code p = none ∧ c ≠ 0 then
      { x with
        s := { x.s with proc := die x.s p }
        code := fun q => if q = p then some c else x.code q }
    else x
  | .join =>
    if x.killed = false ∧ x.joined < P then
      match x.code x.joined with
      | some c => { x with joined := x.joined + 1, warned := x.warned ++ warn x.joined c }
      | none => x
    else x
  | .ret =>
    if x.killed = false ∧ x.joined = P ∧ x.returned = false then
      { x with s := { x.s with stop := true }, returned := true }
    else x

/-- All processes have been started, `async_.py:22-26`. -/
def init : Sys := ⟨Async.init, fun _ => none, 0, [], false, false⟩

/-- A run of `train_agent_async` with `P` processes under a schedule. -/
def run (P steps : Nat) (sched : List Ev) : Sys := sched.foldl (step P steps) init

/-! ## Specification -/

/-- A schedule of which every event does something. -/
def Spec.Busy (P steps : Nat) : Sys → List Ev → Prop
  | _, [] => True
  | x, e :: l => step P steps x e ≠ x ∧ Spec.Busy P steps (step P steps x e) l

/-- The event is not a failure and not a request to stop. -/
def Spec.Harmless : Ev → Prop
  | .work (.fail _) => False
  | .work .stop => False
  | .work .abort => False
  | .lost _ _ => False
  | _ => True

/-- Nobody asks to stop early: no `stop_event` from outside, no evaluation reaching `successful_score`. -/
def Spec.NoStop (sched : List Ev) : Prop :=
  ∀ e ∈ sched, e ≠ .work .stop ∧ ∀ p, e ≠ .work (.evaluate p true)

/-- Worker `p` went through the whole training: its `train_loop` returned. -/
def Spec.Survived (x : Sys) (p : Nat) : Prop := (x.s.proc p).phase = .returned

/-- The event is a failure of worker `p`. -/
def Spec.FailureOf (p : Nat) : Ev → Prop
  | .work (.fail q) => q = p
  | .work .abort => True
  | .lost q _ => q = p
  | _ => False

/-! ## Lemmas -/

/-- A process that ended stays as it is. -/
theorem ended_stays {P steps : Nat} {s : State} (e : Event) {q : Nat}
    (h : (s.proc q).phase = .returned ∨ (s.proc q).phase = .dead) :
    (Async.step P steps s e).proc q = s.proc q := by
  cases e with
  | stop => rfl
  | abort =>
    simp only [Async.step]; split
    · simp only; split
      · rfl
      · rename_i h2; rcases h with h | h
        · exact absurd h h2
        · rw [← h]
    · rfl
  | _ =>
    simp only [Async.step]
    repeat' split
    all_goals first
      | rfl
      | (rename_i hc
         simp only [upd]
         split
         · rename_i hq; subst hq
           rcases h with h | h <;> simp [h] at *
         · rfl)

/-- The invariant. -/
structure SInv (P steps : Nat) (x : Sys) : Prop where
  inv : Inv P steps x.s
  seen : ∀ p, (x.s.proc p).globalT ≤ x.s.counter
  deadCode : ∀ p, p < P → (x.s.proc p).phase = .dead → ∃ c, x.code p = some c ∧ c ≠ 0
  codeEnd : ∀ p, x.code p ≠ none → p < P ∧ ((x.s.proc p).phase = .returned ∨ (x.s.proc p).phase = .dead)
  joinedLe : x.joined ≤ P
  joinedCode : ∀ p, p < x.joined → x.code p ≠ none
  warned : x.warned = (List.range x.joined).flatMap fun p => warn p ((x.code p).getD 0)
  ret : x.returned = true → x.joined = P

theorem init_sinv (P : Nat) {steps : Nat} (h : 0 < steps) : SInv P steps init := by
  refine ⟨init_inv P h, ?_, ?_, ?_, ?_, ?_, ?_, ?_⟩ <;> simp [init, Async.init]

theorem seen_step {P steps : Nat} {s : State} (h : ∀ p, (s.proc p).globalT ≤ s.counter) (e : Event) (p : Nat) :
    ((Async.step P steps s e).proc p).globalT ≤ (Async.step P steps s e).counter := by
  cases e with
  | stop => exact h p
  | abort =>
    simp only [Async.step]; split
    · simp only; split <;> exact h p
    · exact h p
  | _ q =>
    simp only [Async.step]
    repeat' split
    all_goals first
      | exact h p
      | (simp only [upd]; have := h p; have := h q; split <;> (try dsimp only) <;> omega)

theorem warned_congr {n : Nat} {f g : Nat → Option Int} (h : ∀ p, p < n → f p = g p) :
    ((List.range n).flatMap fun p => warn p ((f p).getD 0)) =
      (List.range n).flatMap fun p => warn p ((g p).getD 0) := by
  apply List.flatMap_congr
  intro p hp
  rw [h p (List.mem_range.mp hp)]

theorem step_sinv {P steps : Nat} {x : Sys} (h : SInv P steps x) (e : Ev) : SInv P steps (step P steps x e) := by
  cases e with
  | work e =>
    simp only [step]
    split
    · exact h
    · have hcode : ∀ p, x.code p ≠ none → (if p < P ∧ x.code p = none ∧
          ((Async.step P steps x.s e).proc p).phase = .dead then
          some (if kills P x.s e then (-15 : Int) else 1) else x.code p) = x.code p := by
        intro p hp; rw [if_neg]; rintro ⟨_, h0, _⟩; exact hp h0
      refine ⟨step_inv h.inv e, seen_step h.seen e, ?_, ?_, h.joinedLe, ?_, ?_, h.ret⟩
      · intro p hp hd
        simp only
        cases hc : x.code p with
        | none =>
          rw [if_pos ⟨hp, rfl, hd⟩]
          refine ⟨_, rfl, ?_⟩
          split <;> decide
        | some c =>
          refine ⟨c, by rw [if_neg (by simp)], ?_⟩
          have hend := (h.codeEnd p (by rw [hc]; simp)).2
          rw [ended_stays e hend] at hd
          obtain ⟨c', h1, h2⟩ := h.deadCode p hp hd
          rw [hc] at h1; cases h1; exact h2
      · intro p hp
        simp only at hp ⊢
        by_cases hn : x.code p = none
        · split at hp
          · rename_i hc; exact ⟨hc.1, .inr hc.2.2⟩
          · exact absurd hn hp
        · have := h.codeEnd p hn
          rw [ended_stays e this.2]; exact this
      · intro p hp
        simp only
        rw [hcode p (h.joinedCode p hp)]; exact h.joinedCode p hp
      · simp only
        rw [h.warned]
        exact warned_congr fun p hp => (hcode p (h.joinedCode p hp)).symm
  | exit p =>
    simp only [step]
    split
    · rename_i hc
      have hj : ∀ q, q < x.joined → q ≠ p := fun q hq hqp => h.joinedCode q hq (hqp ▸ hc.2.2)
      refine ⟨h.inv, h.seen, ?_, ?_, h.joinedLe, ?_, ?_, h.ret⟩
      · intro q hq hd
        simp only at hd ⊢
        split
        · rename_i hqp; subst hqp; rw [hc.2.1] at hd; cases hd
        · exact h.deadCode q hq hd
      · intro q hq
        simp only at hq ⊢
        split at hq
        · rename_i hqp; subst hqp; exact ⟨hc.1, .inl hc.2.1⟩
        · exact h.codeEnd q hq
      · intro q hq
        simp only
        rw [if_neg (hj q hq)]; exact h.joinedCode q hq
      · simp only
        rw [h.warned]
        exact warned_congr fun q hq => by rw [if_neg (hj q hq)]
    · exact h
  | lost p c =>
    simp only [step]
    split
    · rename_i hc
      have hj : ∀ q, q < x.joined → q ≠ p := fun q hq hqp => h.joinedCode q hq (hqp ▸ hc.2.1)
      refine ⟨?_, ?_, ?_, ?_, h.joinedLe, ?_, ?_, h.ret⟩
      · have := die_inv h.inv (l := []) (f := die x.s p) (by
            intro q
            unfold die
            split
            · exact .inl rfl
            · rename_i hr
              by_cases hq : q = p
              · subst hq; right; rw [upd_self]; exact ⟨hr, rfl, rfl⟩
              · left; rw [upd_of_ne _ _ hq]) (.inl rfl)
        simpa using this
      · intro q
        simp only [die]
        split
        · exact h.seen q
        · simp only [upd]; split
          · exact h.seen p
          · exact h.seen q
      · intro q hq hd
        simp only at hd ⊢
        split
        · exact ⟨c, rfl, hc.2.2⟩
        · rename_i hqp
          refine h.deadCode q hq ?_
          unfold die at hd
          split at hd
          · exact hd
          · rwa [upd_of_ne _ _ hqp] at hd
      · intro q hq
        simp only at hq ⊢
        split at hq
        · rename_i hqp; subst hqp
          refine ⟨hc.1, ?_⟩
          unfold die
          split
          · rename_i hr; exact .inl hr
          · rw [upd_self]; exact .inr rfl
        · rename_i hqp
          have := h.codeEnd q hq
          unfold die
          split
          · exact this
          · rw [upd_of_ne _ _ hqp]; exact this
      · intro q hq
        simp only
        rw [if_neg (hj q hq)]; exact h.joinedCode q hq
      · simp only
        rw [h.warned]
        exact warned_congr fun q hq => by rw [if_neg (hj q hq)]
    · exact h
  | join =>
    simp only [step]
    split
    · rename_i hc
      split
      · rename_i c hcode
        refine ⟨h.inv, h.seen, h.deadCode, h.codeEnd, hc.2, ?_, ?_, ?_⟩
        · intro q hq
          simp only at hq ⊢
          rcases Nat.lt_succ_iff_lt_or_eq.mp hq with hq | hq
          · exact h.joinedCode q hq
          · rw [hq, hcode]; simp
        · simp only
          rw [List.range_succ, List.flatMap_append, h.warned]
          simp [hcode]
        · intro hr
          have := h.ret hr
          omega
      · exact h
    · exact h
  | ret =>
    simp only [step]
    split
    · rename_i hc
      exact ⟨step_inv h.inv .stop, h.seen, h.deadCode, h.codeEnd, h.joinedLe, h.joinedCode, h.warned,
        fun _ => hc.2.1⟩
    · exact h

theorem run_sinv (P : Nat) {steps : Nat} (hs : 0 < steps) (sched : List Ev) : SInv P steps (run P steps sched) := by
  unfold run
  have : ∀ (l : List Ev) (x : Sys), SInv P steps x → SInv P steps (l.foldl (step P steps) x) := by
    intro l
    induction l with
    | nil => exact fun x h => h
    | cons e l ih => exact fun x h => ih _ (step_sinv h e)
  exact this sched init (init_sinv P hs)

/-- How much a process can still do. -/
def left (steps : Nat) (pr : Proc) : Nat :=
  match pr.phase with
  | .stepping => 3 + 6 * (steps - pr.globalT)
  | .counted => 8 + 6 * (steps - pr.globalT)
  | .hooked => 7 + 6 * (steps - pr.globalT)
  | .ending => 6 + 6 * (steps - pr.globalT)
  | .evaluated => 5 + 6 * (steps - pr.globalT)
  | .episodeCounted => 4 + 6 * (steps - pr.globalT)
  | .finishing => 2
  | .returned => 1
  | .dead => 0

/-- The same, for a process that may have ended. -/
def leftOf (steps : Nat) (x : Sys) (p : Nat) : Nat := if x.code p = none then left steps (x.s.proc p) else 0

/-- How much can still happen. -/
def total (P steps : Nat) (x : Sys) : Nat :=
  (∑ p ∈ Finset.range P, leftOf steps x p) + (P - x.joined) + (if x.returned then 0 else 1) +
    (if x.s.stop then 0 else 1)

/-- An event in `train_loop` changes nothing, or sets the stop event only, or lets one process go on, or kills all. -/
theorem work_cases {P steps : Nat} {s : State} (h : Inv P steps s) (hseen : ∀ p, (s.proc p).globalT ≤ s.counter)
    (e : Event) :
    Async.step P steps s e = s ∨
    (Async.step P steps s e = { s with stop := true } ∧ s.stop = false) ∨
    ((s.stop = true → (Async.step P steps s e).stop = true) ∧
      (∀ q, left steps ((Async.step P steps s e).proc q) ≤ left steps (s.proc q)) ∧
      ∃ p, p < P ∧ (s.proc p).phase ≠ .returned ∧ (s.proc p).phase ≠ .dead ∧
        left steps ((Async.step P steps s e).proc p) < left steps (s.proc p)) := by
  have key : ∀ (p : Nat) (s' : State) (pr : Proc), s'.proc = upd s.proc p pr → p < P →
      (s.stop = true → s'.stop = true) → (s.proc p).phase ≠ .returned → (s.proc p).phase ≠ .dead →
      left steps pr < left steps (s.proc p) →
      ((s.stop = true → s'.stop = true) ∧ (∀ q, left steps (s'.proc q) ≤ left steps (s.proc q)) ∧
        ∃ p, p < P ∧ (s.proc p).phase ≠ .returned ∧ (s.proc p).phase ≠ .dead ∧
          left steps (s'.proc p) < left steps (s.proc p)) := by
    intro p s' pr hproc hp hst h1 h2 hlt
    refine ⟨hst, fun q => ?_, p, hp, h1, h2, ?_⟩
    · rw [hproc]; simp only [upd]; split
      · rename_i hq; subst hq; exact hlt.le
      · exact le_refl _
    · rw [hproc, upd_self]; exact hlt
  cases e with
  | count p =>
    simp only [Async.step]; split
    · rename_i hc
      right; right
      refine key p _ _ rfl hc.1 id (by rw [hc.2]; simp) (by rw [hc.2]; simp) ?_
      have h1 := h.below p hc.2
      have h2 := hseen p
      simp only [left, hc.2]
      omega
    · exact .inl rfl
  | hook p =>
    simp only [Async.step]; split
    · rename_i hc
      right; right
      refine key p _ _ rfl hc.1 id (by rw [hc.2]; simp) (by rw [hc.2]; simp) ?_
      simp only [left, hc.2]
      omega
    · exact .inl rfl
  | check p ended =>
    simp only [Async.step]; split
    · rename_i hc
      right; right
      split
      all_goals
        refine key p _ _ rfl hc.1 id (by rw [hc.2]; simp) (by rw [hc.2]; simp) ?_
        simp only [left, hc.2]
        omega
    · exact .inl rfl
  | evaluate p ok =>
    simp only [Async.step]; split
    · rename_i hc
      right; right
      split
      · refine key p _ _ rfl hc.1 (fun _ => rfl) (by rw [hc.2]; simp) (by rw [hc.2]; simp) ?_
        simp only [left, hc.2]
        omega
      · refine key p _ _ rfl hc.1 id (by rw [hc.2]; simp) (by rw [hc.2]; simp) ?_
        simp only [left, hc.2]
        omega
    · exact .inl rfl
  | countEpisode p =>
    simp only [Async.step]; split
    · rename_i hc
      right; right
      refine key p _ _ rfl hc.1 id (by rw [hc.2]; simp) (by rw [hc.2]; simp) ?_
      simp only [left, hc.2]
      omega
    · exact .inl rfl
  | check2 p =>
    simp only [Async.step]; split
    · rename_i hc
      right; right
      split
      all_goals
        refine key p _ _ rfl hc.1 id (by rw [hc.2]; simp) (by rw [hc.2]; simp) ?_
        simp only [left, hc.2]
        omega
    · exact .inl rfl
  | finish p =>
    simp only [Async.step]; split
    · rename_i hc
      right; right
      refine key p _ _ rfl hc.1 id (by rw [hc.2]; simp) (by rw [hc.2]; simp) ?_
      simp only [left, hc.2]
      omega
    · exact .inl rfl
  | fail p =>
    simp only [Async.step]; split
    · rename_i hc
      right; right
      refine key p _ _ rfl hc.1 id hc.2.1 hc.2.2 ?_
      simp only [left]
      split <;> first | omega | (rename_i hd; exact absurd hd hc.2.2)
    · exact .inl rfl
  | stop =>
    by_cases hst : s.stop = true
    · left
      simp only [Async.step]
      cases s; simp only at hst; rw [hst]
    · right; left; exact ⟨rfl, by simpa using hst⟩
  | abort =>
    simp only [Async.step]; split
    · rename_i hc
      right; right
      refine ⟨id, fun q => ?_, 0, hc.1, by rw [hc.2]; simp, by rw [hc.2]; simp, ?_⟩
      · simp only; split
        · exact le_refl _
        · simp [left]
      · simp only [hc.2]
        simp [left, hc.2]
    · exact .inl rfl

/-- If every process can do at most what it could, and one of them less, less can happen. -/
theorem total_lt {P steps : Nat} {x y : Sys} (hj : y.joined = x.joined) (hr : y.returned = x.returned)
    (hst : x.s.stop = true → y.s.stop = true) (hle : ∀ q, q < P → leftOf steps y q ≤ leftOf steps x q)
    (hlt : ∃ p, p < P ∧ leftOf steps y p < leftOf steps x p) : total P steps y < total P steps x := by
  have h1 : (∑ p ∈ Finset.range P, leftOf steps y p) < ∑ p ∈ Finset.range P, leftOf steps x p := by
    obtain ⟨p, hp, h⟩ := hlt
    exact Finset.sum_lt_sum (fun q hq => hle q (Finset.mem_range.mp hq)) ⟨p, Finset.mem_range.mpr hp, h⟩
  have h2 : (if y.s.stop then 0 else 1) ≤ (if x.s.stop then 0 else 1) := by
    cases hx : x.s.stop
    · split <;> simp
    · rw [hst hx]
  unfold total
  rw [hj, hr]
  omega

theorem left_pos {steps : Nat} {pr : Proc} (h : pr.phase ≠ .dead) : 0 < left steps pr := by
  unfold left
  split <;> first | omega | (rename_i hd; exact absurd hd h)

/-- Every event changes nothing or leaves less to happen. -/
theorem step_total {P steps : Nat} {x : Sys} (h : SInv P steps x) (e : Ev) (hne : step P steps x e ≠ x) :
    total P steps (step P steps x e) < total P steps x := by
  have hdead : ∀ p, p < P → x.code p = none → (x.s.proc p).phase ≠ .dead := by
    intro p hp hn hd
    obtain ⟨c, hc, _⟩ := h.deadCode p hp hd
    rw [hn] at hc; cases hc
  cases e with
  | work e =>
    simp only [step] at hne ⊢
    split
    · rename_i hk; rw [if_pos hk] at hne; exact absurd rfl hne
    · rename_i hk
      rw [if_neg hk] at hne
      have hk : x.killed = false := by simpa using hk
      rcases work_cases h.inv h.seen e with hs | ⟨hs, hst⟩ | ⟨hst, hle, p, hp, h1, h2, hlt⟩
      · exfalso
        apply hne
        have hkill : kills P x.s e = false := by
          by_contra hkk
          have hkk : kills P x.s e = true := by simpa using hkk
          simp only [kills, decide_eq_true_eq] at hkk
          obtain ⟨rfl, hP, hph⟩ := hkk
          have := congrArg (fun t : State => (t.proc 0).phase) hs
          simp [Async.step, hP, hph] at this
        have hcode : (fun q => if q < P ∧ x.code q = none ∧ ((Async.step P steps x.s e).proc q).phase = .dead then
            some (if kills P x.s e then (-15 : Int) else 1) else x.code q) = x.code := by
          funext q
          rw [if_neg]
          rintro ⟨hq, hn, hd⟩
          rw [hs] at hd
          exact hdead q hq hn hd
        rw [hcode, hs, hkill]
        cases x
        simp only at hk
        rw [hk]
      · have hsum : ∀ q, q < P → leftOf steps { x with
            s := Async.step P steps x.s e
            code := fun q => if q < P ∧ x.code q = none ∧ ((Async.step P steps x.s e).proc q).phase = .dead then
              some (if kills P x.s e then -15 else 1) else x.code q
            killed := kills P x.s e } q = leftOf steps x q := by
          intro q hq
          have hn : ¬ (q < P ∧ x.code q = none ∧ ((Async.step P steps x.s e).proc q).phase = .dead) := by
            rintro ⟨hq, hn, hd⟩
            rw [hs] at hd
            exact hdead q hq hn hd
          simp only [leftOf, hn, if_false]
          rw [hs]
        unfold total
        rw [Finset.sum_congr rfl fun q hq => hsum q (Finset.mem_range.mp hq)]
        simp only [hs, hst]
        simp
      · refine total_lt rfl rfl hst (fun q hq => ?_) ⟨p, hp, ?_⟩
        · simp only [leftOf]
          by_cases hn : x.code q = none
          · simp only [hn, if_true]
            split
            · rw [if_neg (by simp)]; exact Nat.zero_le _
            · rw [if_pos rfl]; exact hle q
          · simp [hn]
        · have hn : x.code p = none := by
            by_contra hn
            rcases (h.codeEnd p hn).2 with h' | h'
            · exact h1 h'
            · exact h2 h'
          simp only [leftOf, hn, if_true]
          split
          · rw [if_neg (by simp)]; exact Nat.lt_of_le_of_lt (Nat.zero_le _) hlt
          · rw [if_pos rfl]; exact hlt
  | exit p =>
    simp only [step] at hne ⊢
    split
    · rename_i hc
      refine total_lt rfl rfl id (fun q hq => ?_) ⟨p, hc.1, ?_⟩
      · simp only [leftOf]
        split
        · simp
        · exact le_refl _
      · simp only [leftOf, if_true, hc.2.2]
        exact left_pos (hdead p hc.1 hc.2.2)
    · rename_i hc; rw [if_neg hc] at hne; exact absurd rfl hne
  | lost p c =>
    simp only [step] at hne ⊢
    split
    · rename_i hc
      refine total_lt rfl rfl id (fun q hq => ?_) ⟨p, hc.1, ?_⟩
      · simp only [leftOf]
        by_cases hqp : q = p
        · subst hqp; simp
        · rw [if_neg hqp]
          have : die x.s p q = x.s.proc q := by
            unfold die; split
            · rfl
            · rw [upd_of_ne _ _ hqp]
          rw [this]
      · simp only [leftOf, if_true, hc.2.1]
        exact left_pos (hdead p hc.1 hc.2.1)
    · rename_i hc; rw [if_neg hc] at hne; exact absurd rfl hne
  | join =>
    simp only [step] at hne ⊢
    split
    · rename_i hc
      rw [if_pos hc] at hne
      split
      · have : (∑ p ∈ Finset.range P, leftOf steps
            { x with joined := x.joined + 1, warned := x.warned ++ warn x.joined ‹Int› } p) =
            ∑ p ∈ Finset.range P, leftOf steps x p := rfl
        unfold total
        rw [this]
        have := hc.2
        simp only
        omega
      · rename_i hcode; rw [hcode] at hne; exact absurd rfl hne
    · rename_i hc; rw [if_neg hc] at hne; exact absurd rfl hne
  | ret =>
    simp only [step] at hne ⊢
    split
    · rename_i hc
      have : (∑ p ∈ Finset.range P, leftOf steps { x with s := { x.s with stop := true }, returned := true } p) =
            ∑ p ∈ Finset.range P, leftOf steps x p := rfl
      unfold total
      rw [this]
      simp only [hc.2.2]
      simp only [if_true, Bool.false_eq_true, if_false]
      omega
    · rename_i hc; rw [if_neg hc] at hne; exact absurd rfl hne

/-- While the main process waits, some process can go on. -/
theorem progress {P steps : Nat} {x : Sys} (h : SInv P steps x) (hr : x.returned = false) (hk : x.killed = false) :
    ∃ e, Spec.Harmless e ∧ step P steps x e ≠ x := by
  rcases Nat.lt_or_ge x.joined P with hj | hj
  · cases hc : x.code x.joined with
    | some c =>
      refine ⟨.join, trivial, fun he => ?_⟩
      have := congrArg Sys.joined he
      simp [step, hk, hj, hc] at this
    | none =>
      have hph : ∀ e : Event, ((Async.step P steps x.s e).proc x.joined).phase ≠ (x.s.proc x.joined).phase →
          step P steps x (.work e) ≠ x := by
        intro e hne he
        apply hne
        have := congrArg (fun t : Sys => (t.s.proc x.joined).phase) he
        simpa [step, hk] using this
      cases hp : (x.s.proc x.joined).phase with
      | stepping => exact ⟨.work (.count x.joined), trivial, hph _ (by simp [Async.step, hj, hp, upd])⟩
      | counted => exact ⟨.work (.hook x.joined), trivial, hph _ (by simp [Async.step, hj, hp, upd])⟩
      | hooked =>
        refine ⟨.work (.check x.joined true), trivial, hph _ ?_⟩
        simp [Async.step, hj, hp, upd]
      | ending => exact ⟨.work (.evaluate x.joined false), trivial, hph _ (by simp [Async.step, hj, hp, upd])⟩
      | evaluated => exact ⟨.work (.countEpisode x.joined), trivial, hph _ (by simp [Async.step, hj, hp, upd])⟩
      | episodeCounted =>
        refine ⟨.work (.check2 x.joined), trivial, hph _ ?_⟩
        simp only [Async.step, hj, hp, true_and, if_true]
        split <;> simp [upd]
      | finishing => exact ⟨.work (.finish x.joined), trivial, hph _ (by simp [Async.step, hj, hp, upd])⟩
      | returned =>
        refine ⟨.exit x.joined, trivial, fun he => ?_⟩
        have := congrArg (fun t : Sys => t.code x.joined) he
        simp [step, hj, hp, hc] at this
      | dead =>
        obtain ⟨c, h1, _⟩ := h.deadCode _ hj hp
        rw [hc] at h1; cases h1
  · refine ⟨.ret, trivial, fun he => ?_⟩
    have := congrArg Sys.returned he
    have hj' : x.joined = P := Nat.le_antisymm h.joinedLe hj
    simp [step, hk, hj', hr] at this

theorem busy_length {P steps : Nat} : ∀ (l : List Ev) (x : Sys), SInv P steps x → Spec.Busy P steps x l →
    l.length ≤ total P steps x := by
  intro l
  induction l with
  | nil => intros; exact Nat.zero_le _
  | cons e l ih =>
    intro x h hb
    have h1 := ih _ (step_sinv h e) hb.2
    have h2 := step_total h e hb.1
    simp only [List.length_cons]
    omega

theorem total_init (P steps : Nat) : total P steps init = P * (6 * steps + 4) + 2 := by
  simp [total, leftOf, left, init, Async.init, Nat.mul_add]
  omega

/-- Harmless events do not kill the main process. -/
theorem harmless_killed {P steps : Nat} {x : Sys} {e : Ev} (he : Spec.Harmless e) (hk : x.killed = false) :
    (step P steps x e).killed = false := by
  cases e with
  | work e =>
    simp only [step, hk]
    cases e <;> first | exact he.elim | simp [kills]
  | lost p c => exact he.elim
  | exit p => simp only [step]; split <;> exact hk
  | join => simp only [step]; repeat' split
            all_goals exact hk
  | ret => simp only [step]; split <;> exact hk

theorem run_append (P steps : Nat) (l m : List Ev) :
    run P steps (l ++ m) = m.foldl (step P steps) (run P steps l) := by
  simp [run, List.foldl_append]

/-- From every state in which the main process lives, it returns if nothing else fails. -/
theorem can_return {P steps : Nat} : ∀ (n : Nat) (x : Sys), SInv P steps x → x.killed = false → total P steps x ≤ n →
    ∃ rest : List Ev, (∀ e ∈ rest, Spec.Harmless e) ∧ (rest.foldl (step P steps) x).returned = true := by
  intro n
  induction n with
  | zero =>
    intro x h hk hn
    by_cases hr : x.returned = true
    · exact ⟨[], by simp, hr⟩
    · obtain ⟨e, _, hne⟩ := progress h (by simpa using hr) hk
      have := step_total h e hne
      omega
  | succ n ih =>
    intro x h hk hn
    by_cases hr : x.returned = true
    · exact ⟨[], by simp, hr⟩
    · obtain ⟨e, he, hne⟩ := progress h (by simpa using hr) hk
      have := step_total h e hne
      obtain ⟨rest, h1, h2⟩ := ih _ (step_sinv h e) (harmless_killed he hk) (by omega)
      refine ⟨e :: rest, ?_, h2⟩
      intro e' he'
      rcases List.mem_cons.mp he' with rfl | he'
      · exact he
      · exact h1 e' he'

/-- What holds at first and is kept by the events of a schedule holds at its end. -/
theorem run_induction {P steps : Nat} (hs : 0 < steps) {C : Ev → Prop} {Q : Sys → Prop} (h0 : Q init)
    (hstep : ∀ x e, SInv P steps x → Q x → C e → Q (step P steps x e)) (sched : List Ev) (hC : ∀ e ∈ sched, C e) :
    Q (run P steps sched) := by
  have : ∀ (l : List Ev) (x : Sys), SInv P steps x → Q x → (∀ e ∈ l, C e) → Q (l.foldl (step P steps) x) := by
    intro l
    induction l with
    | nil => exact fun x _ h _ => h
    | cons e l ih =>
      intro x h hq hc
      exact ih _ (step_sinv h e) (hstep x e h hq (hc e (by simp))) fun e' he' => hc e' (by simp [he'])
  exact this sched init (init_sinv P hs) h0 hC

theorem alive_step {P steps : Nat} {s : State} {p : Nat} {e : Event} (hd : (s.proc p).phase ≠ .dead)
    (hf : ¬ Spec.FailureOf p (.work e)) : ((Async.step P steps s e).proc p).phase ≠ .dead := by
  cases e with
  | stop => exact hd
  | abort => exact absurd trivial hf
  | fail q =>
    simp only [Async.step]; split
    · have hqp : p ≠ q := fun h => hf h.symm
      simp only [upd, if_neg hqp]; exact hd
    · exact hd
  | _ q =>
    simp only [Async.step]
    repeat' split
    all_goals first
      | exact hd
      | (simp only [upd]; split <;> first | exact hd | simp)

/-- A worker that does not fail is not dead, and has no exit code but 0. -/
theorem alive {P steps : Nat} (hs : 0 < steps) {p : Nat} (sched : List Ev)
    (hf : ∀ e ∈ sched, ¬ Spec.FailureOf p e) :
    ((run P steps sched).s.proc p).phase ≠ .dead ∧
      ((run P steps sched).code p = none ∨ (run P steps sched).code p = some 0) := by
  refine run_induction (C := fun e => ¬ Spec.FailureOf p e)
    (Q := fun x => (x.s.proc p).phase ≠ .dead ∧ (x.code p = none ∨ x.code p = some 0)) hs ?_ ?_ sched hf
  · simp [init, Async.init]
  · intro x e h hq he
    cases e with
    | work e =>
      simp only [step]; split
      · exact hq
      · have := alive_step (P := P) (steps := steps) hq.1 he
        refine ⟨this, ?_⟩
        simp only
        rw [if_neg (fun hh => this hh.2.2)]
        exact hq.2
    | exit q =>
      simp only [step]; split
      · refine ⟨hq.1, ?_⟩
        simp only
        split
        · exact .inr rfl
        · exact hq.2
      · exact hq
    | lost q c =>
      have hqp : p ≠ q := fun h => he h.symm
      simp only [step]; split
      · refine ⟨?_, ?_⟩
        · simp only [die]; split
          · exact hq.1
          · rw [upd_of_ne _ _ hqp]; exact hq.1
        · simp only [if_neg hqp]; exact hq.2
      · exact hq
    | join => simp only [step]; repeat' split
              all_goals exact hq
    | ret => simp only [step]; split <;> exact hq

theorem stop_step {P steps : Nat} {s : State} {e : Event} (h : s.stop = false) (h1 : e ≠ .stop)
    (h2 : ∀ p, e ≠ .evaluate p true) : (Async.step P steps s e).stop = false := by
  cases e with
  | stop => exact absurd rfl h1
  | evaluate p ok =>
    have : ok = false := by
      cases ok
      · rfl
      · exact absurd rfl (h2 p)
    subst this
    simp only [Async.step]; split
    · simpa using h
    · exact h
  | _ =>
    simp only [Async.step]
    repeat' split
    all_goals exact h

/-- When the main process has returned, every worker has ended. -/
theorem all_ended {P steps : Nat} {x : Sys} (h : SInv P steps x) (hr : x.returned = true) {p : Nat} (hp : p < P) :
    x.code p ≠ none ∧ ((x.s.proc p).phase = .returned ∨ (x.s.proc p).phase = .dead) := by
  have := h.joinedCode p (by rw [h.ret hr]; exact hp)
  exact ⟨this, (h.codeEnd p this).2⟩

/-- If nobody asks to stop, a worker leaves the loop with a step number that is at least `steps`. -/
theorem complete {P steps : Nat} (hs : 0 < steps) (sched : List Ev) (hn : Spec.NoStop sched) :
    ∀ p, p < P → ((run P steps sched).s.proc p).phase = .returned →
      steps ≤ ((run P steps sched).s.proc p).globalT := by
  have := run_induction (P := P) (C := fun e => e ≠ .work .stop ∧ ∀ p, e ≠ .work (.evaluate p true))
    (Q := fun x => (x.returned = false → x.s.stop = false) ∧
      ∀ p, p < P → (x.s.proc p).phase = .returned → steps ≤ (x.s.proc p).globalT) hs
      (by simp [init, Async.init]) ?_ sched hn
  · exact this.2
  · intro x e h hq he
    cases e with
    | work e =>
      have he1 : e ≠ .stop := fun hh => he.1 (by rw [hh])
      have he2 : ∀ p, e ≠ .evaluate p true := fun p hh => he.2 p (by rw [hh])
      have hinv := (step_sinv h (.work e)).inv
      simp only [step] at hinv ⊢; split
      · exact hq
      · rename_i hk
        rw [if_neg hk] at hinv
        refine ⟨fun hr => stop_step (hq.1 hr) he1 he2, ?_⟩
        intro p hp hret
        simp only at hret ⊢
        by_cases hr : x.returned = true
        · rw [ended_stays e (all_ended h hr hp).2] at hret ⊢
          exact hq.2 p hp hret
        · have hst := stop_step (P := P) (steps := steps) (hq.1 (by simpa using hr)) he1 he2
          rcases hinv.left p (.inr hret) with hh | hh
          · exact hh
          · simp only at hh; rw [hst] at hh; cases hh
    | exit q => simp only [step]; split <;> exact hq
    | lost q c =>
      simp only [step]; split
      · refine ⟨hq.1, ?_⟩
        intro p hp hret
        simp only [die] at hret ⊢
        split at hret
        · rename_i hr; rw [if_pos hr]; exact hq.2 p hp hret
        · rename_i hr
          rw [if_neg hr]
          by_cases hpq : p = q
          · subst hpq; rw [upd_self] at hret; cases hret
          · rw [upd_of_ne _ _ hpq] at hret ⊢; exact hq.2 p hp hret
      · exact hq
    | join => simp only [step]; repeat' split
              all_goals exact hq
    | ret =>
      simp only [step]; split
      · refine ⟨?_, hq.2⟩
        intro hh; cases hh
      · exact hq

/-! ## C148 -/

/-- Which process a warning names. -/
def Spec.about : Warning → Nat
  | .status p _ => p
  | .signal p _ => p

/-- The exit code a warning tells. -/
def Spec.code : Warning → Int
  | .status _ n => n
  | .signal _ n => -n

/-- **C148 (it ends).** Whatever workers fail, and however, training ends: every schedule of which each event does
something has at most `processes * (6 * steps + 4) + 2` events; when nothing can happen any more, `train_agent_async` has
returned, unless the process group was killed because `exception_event` was set; and after everything that has happened
it still returns if nothing else fails. -/
theorem training_ends (P : Nat) {steps : Nat} (hs : 0 < steps) (sched : List Ev) :
    (Spec.Busy P steps init sched → sched.length ≤ P * (6 * steps + 4) + 2) ∧
    ((∀ e, Spec.Harmless e → step P steps (run P steps sched) e = run P steps sched) →
      (run P steps sched).returned = true ∨ (run P steps sched).killed = true) ∧
    ((run P steps sched).killed = false → ∃ rest : List Ev, (∀ e ∈ rest, Spec.Harmless e) ∧
      (run P steps (sched ++ rest)).returned = true) := by
  have h := run_sinv P hs sched
  refine ⟨fun hb => ?_, fun hstuck => ?_, fun hk => ?_⟩
  · rw [← total_init]; exact busy_length sched init (init_sinv P hs) hb
  · by_contra hno
    rw [not_or] at hno
    obtain ⟨e, he, hne⟩ := progress h (by simpa using hno.1) (by simpa using hno.2)
    exact hne (hstuck e he)
  · obtain ⟨rest, h1, h2⟩ := can_return _ _ h hk (le_refl _)
    exact ⟨rest, h1, by rw [run_append]; exact h2⟩

/-- **C148 (the others complete the training).** When `train_agent_async` has returned, every worker that did not fail
has gone through the whole training; and if there is such a worker and nobody asked to stop early, all steps that were
asked for have been made, each by exactly one worker, and at most `processes - 1` more. -/
theorem survivors_complete {P steps : Nat} (hs : 0 < steps) (sched : List Ev)
    (hret : (run P steps sched).returned = true) :
    (∀ p, p < P → (∀ e ∈ sched, ¬ Spec.FailureOf p e) → Spec.Survived (run P steps sched) p) ∧
    (Spec.NoStop sched → (∃ p, p < P ∧ Spec.Survived (run P steps sched) p) →
      (∀ n, 1 ≤ n → n ≤ steps → ∃! p, p < P ∧ (p, n) ∈ (run P steps sched).s.handed) ∧
      steps ≤ (run P steps sched).s.handed.length ∧ (run P steps sched).s.handed.length ≤ steps + (P - 1)) := by
  have h := run_sinv P hs sched
  constructor
  · intro p hp hf
    rcases (all_ended h hret hp).2 with hh | hh
    · exact hh
    · exact absurd hh (alive hs sched hf).1
  · rintro hn ⟨p, hp, hsv⟩
    have h1 := complete hs sched hn p hp hsv
    have h2 := h.seen p
    have hlen : (run P steps sched).s.handed.length = (run P steps sched).s.counter := by
      have := congrArg List.length h.inv.numbers
      simpa using this
    have h3 := overshoot_of_inv (Nat.lt_of_le_of_lt (Nat.zero_le p) hp) hs h.inv
    refine ⟨?_, by omega, by omega⟩
    intro n hn1 hn2
    have : n ∈ (run P steps sched).s.handed.map Prod.snd := by rw [h.inv.numbers, List.mem_range'_1]; omega
    obtain ⟨⟨q, m⟩, he, hm⟩ := List.mem_map.mp this
    simp only at hm
    subst hm
    refine ⟨q, ⟨h.inv.bound _ he, he⟩, ?_⟩
    rintro q' ⟨_, he'⟩
    have hnd : ((run P steps sched).s.handed.map Prod.snd).Nodup := by
      rw [h.inv.numbers]; exact List.nodup_range'
    exact congrArg Prod.fst (List.inj_on_of_nodup_map hnd he' he rfl)

theorem about_warn (p : Nat) (c : Int) : (warn p c).map Spec.about = if c ≠ 0 then [p] else [] := by
  unfold warn
  split
  · rename_i h; rw [if_pos (by omega)]; rfl
  · split
    · rename_i h; rw [if_pos (by omega)]; rfl
    · rw [if_neg (by omega)]; rfl

theorem map_about (l : List Nat) (f : Nat → Int) :
    (l.flatMap fun p => warn p (f p)).map Spec.about = l.filter fun p => f p ≠ 0 := by
  induction l with
  | nil => rfl
  | cons a l ih =>
    rw [List.flatMap_cons, List.map_append, ih, about_warn, List.filter_cons]
    by_cases h : f a = 0 <;> simp [h]

/-- **C148 (warnings).** When `train_agent_async` has returned, it has warned, in the order of the processes and once
each, about exactly the workers whose exit code is not zero, with that code; a worker that did not fail is not among
them, and one that did not go through the whole training is. -/
theorem warnings_exact {P steps : Nat} (hs : 0 < steps) (sched : List Ev)
    (hret : (run P steps sched).returned = true) :
    ((run P steps sched).warned.map Spec.about).Pairwise (· < ·) ∧
    (∀ p, p < P → ∃ c, (run P steps sched).code p = some c ∧
      (p ∈ (run P steps sched).warned.map Spec.about ↔ c ≠ 0)) ∧
    (∀ w ∈ (run P steps sched).warned, Spec.about w < P ∧
      (run P steps sched).code (Spec.about w) = some (Spec.code w)) ∧
    (∀ p, p < P → (∀ e ∈ sched, ¬ Spec.FailureOf p e) → p ∉ (run P steps sched).warned.map Spec.about) ∧
    (∀ p, p < P → ¬ Spec.Survived (run P steps sched) p → p ∈ (run P steps sched).warned.map Spec.about) := by
  have h := run_sinv P hs sched
  have hw := h.warned
  rw [h.ret hret] at hw
  have hmap : (run P steps sched).warned.map Spec.about =
      (List.range P).filter fun p => ((run P steps sched).code p).getD 0 ≠ 0 := by
    rw [hw, map_about]
  have hcodes : ∀ p, p < P → ∃ c, (run P steps sched).code p = some c ∧
      (p ∈ (run P steps sched).warned.map Spec.about ↔ c ≠ 0) := by
    intro p hp
    obtain ⟨c, hc⟩ := Option.ne_none_iff_exists'.mp (all_ended h hret hp).1
    refine ⟨c, hc, ?_⟩
    rw [hmap, List.mem_filter]
    simp [hp, hc]
  refine ⟨?_, hcodes, ?_, ?_, ?_⟩
  · rw [hmap]
    exact List.Pairwise.filter _ List.pairwise_lt_range
  · intro w hwm
    rw [hw, List.mem_flatMap] at hwm
    obtain ⟨p, hp, hwp⟩ := hwm
    have hp := List.mem_range.mp hp
    obtain ⟨c, hc, _⟩ := hcodes p hp
    rw [hc] at hwp
    simp only [Option.getD_some, warn] at hwp
    split at hwp
    · rw [List.mem_singleton] at hwp; subst hwp; exact ⟨hp, hc⟩
    · split at hwp
      · rw [List.mem_singleton] at hwp; subst hwp
        refine ⟨hp, ?_⟩
        simp only [Spec.about, Spec.code, neg_neg]; exact hc
      · cases hwp
  · intro p hp hf hm
    obtain ⟨c, hc, hiff⟩ := hcodes p hp
    rcases (alive (P := P) hs sched hf).2 with h0 | h0
    · rw [hc] at h0; cases h0
    · rw [hc] at h0; cases h0; exact hiff.mp hm rfl
  · intro p hp hns
    rcases (all_ended h hret hp).2 with hh | hh
    · exact absurd hh hns
    · obtain ⟨c, hc, hne⟩ := h.deadCode p hp hh
      obtain ⟨c', hc', hiff⟩ := hcodes p hp
      rw [hc] at hc'; cases hc'
      exact hiff.mpr hne

/-- **C148 (final model), partial.** If some worker went through the whole training and nobody asked to stop, then the
final model was saved, once, if and only if the one worker that made step number `steps` went through the whole
training.  What is missing: the final model is saved whenever a worker survives, which is false of the code, see
`final_model_lost`. -/
theorem final_model_partial {P steps : Nat} (hs : 0 < steps) (sched : List Ev) (hn : Spec.NoStop sched)
    (hret : (run P steps sched).returned = true) (hsv : ∃ p, p < P ∧ Spec.Survived (run P steps sched) p) :
    ∃ p, p < P ∧ (p, steps) ∈ (run P steps sched).s.handed ∧
      (Spec.Survived (run P steps sched) p →
        (run P steps sched).s.saves.filter Async.Spec.isFinish = [.finish p steps]) ∧
      (¬ Spec.Survived (run P steps sched) p →
        (run P steps sched).s.saves.filter Async.Spec.isFinish = []) := by
  have h := run_sinv P hs sched
  obtain ⟨p, ⟨hp, he⟩, _⟩ := ((survivors_complete hs sched hret).2 hn hsv).1 steps hs (le_refl _)
  have hg : ((run P steps sched).s.proc p).globalT = steps := (h.inv.beyond _ he (le_refl _)).2
  have huniq : ∀ q n, (Save.finish q n) ∈ (run P steps sched).s.saves → n = steps ∧ q = p ∧
      Spec.Survived (run P steps sched) p := by
    intro q n hm
    have := List.count_pos_iff.mpr hm
    rw [h.inv.finishes] at this
    split at this
    · rename_i hc
      have hq := h.inv.last q (by rw [hc.2.1]; simp) (by rw [hc.2.1]; simp)
      rw [hc.2.2] at hq
      have hnd : ((run P steps sched).s.handed.map Prod.snd).Nodup := by
        rw [h.inv.numbers]; exact List.nodup_range'
      have hqp : q = p := congrArg Prod.fst (List.inj_on_of_nodup_map hnd hq he rfl)
      exact ⟨hc.1, hqp, hqp ▸ hc.2.1⟩
    · omega
  refine ⟨p, hp, he, fun hsp => ?_, fun hsp => ?_⟩
  · apply eq_singleton_of_count
    · rw [List.count_filter (by rfl), h.inv.finishes, if_pos ⟨rfl, hsp, hg⟩]
    · intro b hb
      obtain ⟨hb1, hb2⟩ := List.mem_filter.mp hb
      cases b with
      | finish q m =>
        obtain ⟨hm, hq, _⟩ := huniq q m hb1
        rw [hm, hq]
      | _ => simp [Async.Spec.isFinish] at hb2
  · rw [List.filter_eq_nil_iff]
    intro b hb
    cases b with
    | finish q m => exact absurd (huniq q m hb).2.2 hsp
    | _ => simp [Async.Spec.isFinish]

/-- **C148 (saving on failure).** The model is not saved because of a failure unless worker 0 fails: whatever happens to
the other workers, there is no `_except` directory. -/
theorem others_save_nothing {P steps : Nat} (hs : 0 < steps) (sched : List Ev)
    (hf : ∀ e ∈ sched, ¬ Spec.FailureOf 0 e) :
    (run P steps sched).s.saves.filter Async.Spec.isExcept = [] := by
  rcases (run_sinv P hs sched).inv.excepts with ⟨n, _, hd⟩ | hh
  · exact absurd hd (alive hs sched hf).1
  · exact hh

/-! ## Limits -/

/-- Two workers, two steps: worker 1 makes step 2 and fails in the evaluation after it; worker 0 completes. -/
def lostSchedule : List Ev :=
  [.work (.count 0), .work (.count 1), .work (.hook 0), .work (.check 0 false), .work (.hook 1),
    .work (.check 1 false), .work (.fail 1), .work (.count 0), .work (.hook 0), .work (.check 0 false),
    .work (.evaluate 0 false), .work (.countEpisode 0), .work (.check2 0), .work (.finish 0), .exit 0, .join, .join,
    .ret]

/-- The final model can be lost: all steps were made, worker 0 went through the training, `train_agent_async` returned
with a warning, and no model was saved at all. -/
theorem final_model_lost : (run 2 2 lostSchedule).returned = true ∧ Spec.Survived (run 2 2 lostSchedule) 0 ∧
    (run 2 2 lostSchedule).s.counter = 3 ∧ (run 2 2 lostSchedule).s.saves = [] ∧
    (run 2 2 lostSchedule).warned = [.status 1 1] := by
  refine ⟨by decide, by rw [Spec.Survived]; decide, by decide, by decide, by decide⟩

/-- If all workers fail at once, `train_agent_async` returns as if the training had been done; only the warnings tell. -/
theorem all_failed_returns : (run 2 5 [.work (.fail 1), .lost 0 (-9), .join, .join, .ret]).returned = true ∧
    (run 2 5 [.work (.fail 1), .lost 0 (-9), .join, .join, .ret]).s.counter = 0 ∧
    (run 2 5 [.work (.fail 1), .lost 0 (-9), .join, .join, .ret]).s.saves = [] ∧
    (run 2 5 [.work (.fail 1), .lost 0 (-9), .join, .join, .ret]).warned = [.signal 0 9, .status 1 1] := by
  decide

/-! ## Non-vacuity -/

/-- Worker 1 is killed after its first step; worker 0 makes the other two. -/
def killedSchedule : List Ev :=
  [.work (.count 1), .lost 1 (-9), .work (.count 0), .work (.hook 0), .work (.check 0 false), .work (.count 0),
    .work (.hook 0), .work (.check 0 false), .work (.evaluate 0 false), .work (.countEpisode 0), .work (.check2 0),
    .work (.finish 0), .exit 0, .join, .join, .ret]

example : (run 2 3 killedSchedule).returned = true ∧ Spec.Survived (run 2 3 killedSchedule) 0 ∧
    (run 2 3 killedSchedule).s.handed = [(1, 1), (0, 2), (0, 3)] ∧
    (run 2 3 killedSchedule).s.saves = [.finish 0 3] ∧ (run 2 3 killedSchedule).warned = [.signal 1 9] := by
  refine ⟨by decide, by rw [Spec.Survived]; decide, by decide, by decide, by decide⟩

example : Spec.NoStop killedSchedule := by
  intro e he
  simp only [killedSchedule, List.mem_cons, List.not_mem_nil, or_false] at he
  rcases he with rfl | rfl | rfl | rfl | rfl | rfl | rfl | rfl | rfl | rfl | rfl | rfl | rfl | rfl | rfl | rfl <;>
    simp

example : ∀ e ∈ killedSchedule, ¬ Spec.FailureOf 0 e := by
  intro e he
  simp only [killedSchedule, List.mem_cons, List.not_mem_nil, or_false] at he
  rcases he with rfl | rfl | rfl | rfl | rfl | rfl | rfl | rfl | rfl | rfl | rfl | rfl | rfl | rfl | rfl | rfl <;>
    simp [Spec.FailureOf]

/-- A worker whose `env.close` raises after the training went through it all, and is warned about. -/
example : (run 1 1 [.work (.count 0), .work (.hook 0), .work (.check 0 false), .work (.evaluate 0 false),
    .work (.countEpisode 0), .work (.check2 0), .work (.finish 0), .lost 0 1, .join, .ret]).s.saves = [.finish 0 1] ∧
    (run 1 1 [.work (.count 0), .work (.hook 0), .work (.check 0 false), .work (.evaluate 0 false),
    .work (.countEpisode 0), .work (.check2 0), .work (.finish 0), .lost 0 1, .join, .ret]).warned = [.status 0 1] := by
  decide

/-- The learner's failure kills everything: worker 0 saves first. -/
example : (run 2 5 [.work (.count 0), .work (.hook 0), .work (.check 0 false), .work .abort, .join]).killed = true ∧
    (run 2 5 [.work (.count 0), .work (.hook 0), .work (.check 0 false), .work .abort, .join]).s.saves =
      [.except 0 1] := by decide

end Pfrl.Train.WorkerFailure
