import Verif.Basic
import Mathlib.Algebra.Group.Basic
import Mathlib.Algebra.BigOperators.Group.List.Basic

/-!
# Serial evaluation episodes (C45)

What the environment and the agent do is a stream of step outcomes: the `k`-th outcome is that of the
`k`-th call of `env.step` in this run.  As the loop looks at nothing else, every behaviour of an environment
and an agent is such a stream.
-/

namespace Pfrl.Eval

variable {R : Type _} [AddCommMonoid R]

/-! ## Model -/

/-- What one `env.step` returns, as far as the loops look at it. -/
structure Out (R : Type _) where
  reward : R
  done : Bool
  needsReset : Bool
  deriving DecidableEq, Repr

/-- A call made by the loop on the environment or the agent. -/
inductive Call where
  | reset
  | act
  | step
  | observe (done reset : Bool)
  deriving DecidableEq, Repr

/-- Local variables of `_run_episodes`, `pfrl/experiments/evaluator.py:20-30`; `calls` records the calls
made. -/
structure Loop (R : Type _) where
  scores : List R
  lengths : List Nat
  timestep : Nat
  reset : Bool
  testR : R
  episodeLen : Nat
  calls : List Call
  deriving DecidableEq, Repr

def Loop.init : Loop R := ⟨[], [], 0, true, 0, 0, []⟩

/-- How much to run: `n_steps` or `n_episodes`, exactly one of which is given (`evaluator.py:21`). -/
inductive Goal where
  | steps (n : Nat)
  | episodes (n : Nat)
  deriving DecidableEq, Repr

/-- `if n_steps is None: … else: …`, `evaluator.py:52-55`. -/
def Goal.reached (g : Goal) (l : Loop R) : Bool :=
  match g with
  | .steps n => decide (l.timestep ≥ n)
  | .episodes n => decide (l.scores.length ≥ n)

/-- The body of the loop, `evaluator.py:31-51`. -/
def Loop.body (maxLen : Option Nat) (l : Loop R) (o : Out R) : Loop R :=
  let l := if l.reset then { l with testR := 0, episodeLen := 0, calls := l.calls ++ [.reset] } else l
  let testR := l.testR + o.reward
  let len := l.episodeLen + 1
  let reset := o.done || some len == maxLen || o.needsReset
  let l := { l with
    testR := testR, episodeLen := len, timestep := l.timestep + 1, reset := reset,
    calls := l.calls ++ [.act, .step, .observe o.done reset] }
  if reset then { l with scores := l.scores ++ [testR], lengths := l.lengths ++ [len] } else l

/-- `while not terminate`, `evaluator.py:31-55`; `none` if the loop has not ended within `fuel` steps. -/
def Loop.run (maxLen : Option Nat) (g : Goal) (out : Nat → Out R) : Nat → Loop R → Option (Loop R)
  | 0, _ => none
  | fuel + 1, l =>
    let l := l.body maxLen (out l.timestep)
    if g.reached l then some l else l.run maxLen g out fuel

/-- `if len(scores) == 0`, `evaluator.py:56-62`. -/
def Loop.finish (l : Loop R) : Loop R :=
  if l.scores.length = 0 then { l with scores := [l.testR], lengths := [l.episodeLen] } else l

/-- `_run_episodes`, `evaluator.py:12-63`. -/
def runEpisodes (maxLen : Option Nat) (g : Goal) (out : Nat → Out R) (fuel : Nat) : Option (Loop R) :=
  (Loop.run maxLen g out fuel Loop.init).map Loop.finish

/-! ## Specification -/

/-- Does a run of steps end an episode, if it is the whole of the episode so far? -/
def Spec.ends (maxLen : Option Nat) (seg : List (Out R)) : Prop :=
  ∃ o, seg.getLast? = some o ∧ (o.done = true ∨ o.needsReset = true ∨ maxLen = some seg.length)

/-- A complete episode: it has ended, and no shorter part of it had. -/
def Spec.IsEpisode (maxLen : Option Nat) (seg : List (Out R)) : Prop :=
  Spec.ends maxLen seg ∧ ∀ k, k < seg.length → ¬ Spec.ends maxLen (seg.take k)

/-- The steps taken so far of an episode that has not ended. -/
def Spec.Unfinished (maxLen : Option Nat) (seg : List (Out R)) : Prop :=
  ∀ k, k ≤ seg.length → ¬ Spec.ends maxLen (seg.take k)

/-- The return of an episode. -/
def Spec.ret (seg : List (Out R)) : R := (seg.map Out.reward).sum

/-- The calls that run an episode: reset the environment, and act, step and observe until its end. -/
def Spec.episodeCalls (maxLen : Option Nat) (seg : List (Out R)) : List Call :=
  .reset :: (List.range seg.length).flatMap fun k =>
    match seg[k]? with
    | none => []
    | some o => [.act, .step,
        .observe o.done (o.done || decide (maxLen = some (k + 1)) || o.needsReset)]

/-! ## Lemmas -/

omit [AddCommMonoid R] in
/-- The calls of a (partial) episode. -/
theorem episodeCalls_snoc (maxLen : Option Nat) (seg : List (Out R)) (o : Out R) :
    Spec.episodeCalls maxLen (seg ++ [o]) = Spec.episodeCalls maxLen seg ++
      [.act, .step, .observe o.done (o.done || decide (maxLen = some (seg.length + 1)) || o.needsReset)] := by
  unfold Spec.episodeCalls
  simp only [List.length_append, List.length_singleton, List.range_succ, List.flatMap_append,
    List.flatMap_singleton, List.getElem?_concat_length, List.cons_append, List.cons.injEq, true_and]
  congr 1
  apply List.flatMap_congr
  intro k hk
  rw [List.getElem?_append_left (List.mem_range.mp hk)]

/-- The state of the loop after a number of steps: the steps split into complete episodes and a rest. -/
structure LoopInv (maxLen : Option Nat) (out : Nat → Out R) (l : Loop R)
    (segs : List (List (Out R))) (rest : List (Out R)) : Prop where
  steps : segs.flatten ++ rest = (List.range l.timestep).map out
  complete : ∀ seg ∈ segs, Spec.IsEpisode maxLen seg
  unfinished : Spec.Unfinished maxLen rest
  scores : l.scores = segs.map Spec.ret
  lengths : l.lengths = segs.map List.length
  reset : l.reset = true ↔ rest = []
  testR : rest ≠ [] → l.testR = Spec.ret rest
  len : rest ≠ [] → l.episodeLen = rest.length
  calls : l.calls = segs.flatMap (Spec.episodeCalls maxLen) ++
    (if rest = [] then [] else Spec.episodeCalls maxLen rest)

omit [AddCommMonoid R] in
theorem not_ends_nil (maxLen : Option Nat) : ¬ Spec.ends maxLen ([] : List (Out R)) := by
  rintro ⟨o, h, _⟩; simp at h

omit [AddCommMonoid R] in
theorem ends_snoc (maxLen : Option Nat) (seg : List (Out R)) (o : Out R) :
    Spec.ends maxLen (seg ++ [o]) ↔
      (o.done || decide (maxLen = some (seg.length + 1)) || o.needsReset) = true := by
  unfold Spec.ends
  simp only [List.getLast?_concat, Option.some.injEq, exists_eq_left', List.length_append,
    List.length_singleton, Bool.or_eq_true, decide_eq_true_eq]
  constructor
  · rintro (h | h | h)
    · exact .inl (.inl h)
    · exact .inr h
    · exact .inl (.inr h)
  · rintro ((h | h) | h)
    · exact .inl h
    · exact .inr (.inr h)
    · exact .inr (.inl h)

theorem LoopInv.init (maxLen : Option Nat) (out : Nat → Out R) :
    LoopInv maxLen out Loop.init [] [] := by
  refine ⟨rfl, by simp, ?_, rfl, rfl, by simp [Loop.init], by simp, by simp, rfl⟩
  intro k _; rw [List.take_nil]; exact not_ends_nil _

theorem body_eq (maxLen : Option Nat) (l : Loop R) (o : Out R) :
    l.body maxLen o =
      (let r0 := if l.reset then 0 else l.testR
       let n0 := if l.reset then 0 else l.episodeLen
       let b := o.done || decide (maxLen = some (n0 + 1)) || o.needsReset
       { scores := if b then l.scores ++ [r0 + o.reward] else l.scores
         lengths := if b then l.lengths ++ [n0 + 1] else l.lengths
         timestep := l.timestep + 1
         reset := b
         testR := r0 + o.reward
         episodeLen := n0 + 1
         calls := l.calls ++ (if l.reset then [.reset] else []) ++ [.act, .step, .observe o.done b] }) := by
  have hb : ∀ n : Nat, (some n == maxLen) = decide (maxLen = some n) := by
    intro n
    rw [Bool.eq_iff_iff, beq_iff_eq, decide_eq_true_eq]
    exact eq_comm
  unfold Loop.body
  simp only [hb]
  by_cases h : l.reset = true
  · simp only [h, if_true]
    split <;> simp_all
  · rw [Bool.not_eq_true] at h
    simp only [h, Bool.false_eq_true, if_false, List.append_nil]
    split <;> rfl

theorem LoopInv.body {maxLen : Option Nat} {out : Nat → Out R} {l : Loop R}
    {segs : List (List (Out R))} {rest : List (Out R)} (h : LoopInv maxLen out l segs rest) :
    (Spec.ends maxLen (rest ++ [out l.timestep]) →
      LoopInv maxLen out (l.body maxLen (out l.timestep)) (segs ++ [rest ++ [out l.timestep]]) []) ∧
    (¬ Spec.ends maxLen (rest ++ [out l.timestep]) →
      LoopInv maxLen out (l.body maxLen (out l.timestep)) segs (rest ++ [out l.timestep])) := by
  have hr0 : (if l.reset then (0 : R) else l.testR) = Spec.ret rest := by
    by_cases hr : rest = []
    · rw [if_pos (h.reset.mpr hr), hr]; rfl
    · rw [if_neg (fun hc => hr (h.reset.mp hc)), h.testR hr]
  have hn0 : (if l.reset then 0 else l.episodeLen) = rest.length := by
    by_cases hr : rest = []
    · rw [if_pos (h.reset.mpr hr), hr]; rfl
    · rw [if_neg (fun hc => hr (h.reset.mp hc)), h.len hr]
  have hsteps : segs.flatten ++ (rest ++ [out l.timestep]) = (List.range (l.timestep + 1)).map out := by
    rw [← List.append_assoc, h.steps, List.range_succ, List.map_append]; rfl
  have hret : Spec.ret rest + (out l.timestep).reward = Spec.ret (rest ++ [out l.timestep]) := by
    unfold Spec.ret; simp
  have hcalls : l.calls ++ (if l.reset then [Call.reset] else []) ++ [.act, .step, .observe (out l.timestep).done
      ((out l.timestep).done || decide (maxLen = some (rest.length + 1)) || (out l.timestep).needsReset)]
      = segs.flatMap (Spec.episodeCalls maxLen) ++ Spec.episodeCalls maxLen (rest ++ [out l.timestep]) := by
    rw [episodeCalls_snoc, ← List.append_assoc]
    congr 1
    rw [h.calls]
    by_cases hr : rest = []
    · rw [if_pos hr, if_pos (h.reset.mpr hr), hr]; simp [Spec.episodeCalls]
    · rw [if_neg hr, if_neg (fun hc => hr (h.reset.mp hc))]; simp
  have htake : ∀ k, k ≤ rest.length → ¬ Spec.ends maxLen ((rest ++ [out l.timestep]).take k) := by
    intro k hk
    rw [List.take_append_of_le_length hk]
    exact h.unfinished k hk
  rw [body_eq]
  simp only [hr0, hn0]
  rw [ends_snoc]
  constructor
  · intro he
    simp only [he, if_true]
    rw [he] at hcalls
    refine ⟨?_, ?_, ?_, ?_, ?_, by simp, by simp, by simp, ?_⟩
    · simpa using hsteps
    · intro seg hs
      rcases List.mem_append.mp hs with hs | hs
      · exact h.complete seg hs
      · rw [List.mem_singleton.mp hs]
        refine ⟨(ends_snoc _ _ _).mpr he, fun k hk => htake k ?_⟩
        simp at hk; omega
    · intro k _; rw [List.take_nil]; exact not_ends_nil _
    · simp only [List.map_append, List.map_cons, List.map_nil, h.scores, hret]
    · simp [h.lengths]
    · rw [hcalls]; simp
  · intro he
    have he' := he
    rw [Bool.not_eq_true] at he
    simp only [he]
    rw [he] at hcalls
    refine ⟨hsteps, h.complete, ?_, ?_, ?_, by simp, fun _ => hret, by simp, ?_⟩
    · intro k hk
      rcases Nat.lt_or_ge rest.length k with hlt | hle
      · rw [List.take_of_length_le (by simp; omega), ends_snoc]; exact he'
      · exact htake k hle
    · simpa using h.scores
    · simpa using h.lengths
    · rw [hcalls]; simp

theorem body_timestep (maxLen : Option Nat) (l : Loop R) (o : Out R) :
    (l.body maxLen o).timestep = l.timestep + 1 := by rw [body_eq]

theorem run_inv {maxLen : Option Nat} {g : Goal} {out : Nat → Out R} :
    ∀ (fuel : Nat) (l : Loop R) (segs : List (List (Out R))) (rest : List (Out R)) (l' : Loop R),
    LoopInv maxLen out l segs rest → l.run maxLen g out fuel = some l' →
    ∃ segs' rest', LoopInv maxLen out l' segs' rest' ∧ g.reached l' = true ∧
      (∀ n, g = .steps n → l.timestep < n → l'.timestep = n) ∧
      (∀ n, g = .episodes n → segs.length < n → segs'.length = n ∧ rest' = [])
  | 0, _, _, _, _, _, h => by simp [Loop.run] at h
  | fuel + 1, l, segs, rest, l', hinv, h => by
    unfold Loop.run at h
    simp only at h
    obtain ⟨h1, h2⟩ := hinv.body
    obtain ⟨segs1, rest1, hinv1, hcase⟩ : ∃ segs1 rest1,
        LoopInv maxLen out (l.body maxLen (out l.timestep)) segs1 rest1 ∧
        ((segs1.length = segs.length + 1 ∧ rest1 = []) ∨ segs1 = segs) := by
      by_cases he : Spec.ends maxLen (rest ++ [out l.timestep])
      · exact ⟨_, _, h1 he, .inl ⟨by simp, rfl⟩⟩
      · exact ⟨_, _, h2 he, .inr rfl⟩
    have ht := body_timestep maxLen l (out l.timestep)
    by_cases hg : g.reached (l.body maxLen (out l.timestep)) = true
    · rw [if_pos hg] at h
      cases h
      refine ⟨segs1, rest1, hinv1, hg, ?_, ?_⟩
      · intro n hn hlt
        subst hn
        simp only [Goal.reached, decide_eq_true_eq] at hg
        omega
      · intro n hn hlt
        subst hn
        simp only [Goal.reached, decide_eq_true_eq, hinv1.scores, List.length_map] at hg
        rcases hcase with ⟨hl, hr⟩ | hl
        · exact ⟨by omega, hr⟩
        · subst hl; omega
    · rw [if_neg hg] at h
      obtain ⟨segs', rest', hinv', hg', hs', he'⟩ := run_inv fuel _ segs1 rest1 l' hinv1 h
      refine ⟨segs', rest', hinv', hg', ?_, ?_⟩
      · intro n hn hlt
        apply hs' n hn
        subst hn
        simp only [Goal.reached, decide_eq_true_eq] at hg
        omega
      · intro n hn hlt
        apply he' n hn
        subst hn
        simp only [Goal.reached, decide_eq_true_eq, hinv1.scores, List.length_map] at hg
        omega

theorem run_terminates {maxLen : Option Nat} {out : Nat → Out R} {n : Nat} : ∀ (fuel : Nat) (l : Loop R),
    l.timestep < n → n ≤ l.timestep + fuel → ∃ l', l.run maxLen (.steps n) out fuel = some l'
  | 0, l, h1, h2 => by omega
  | fuel + 1, l, h1, h2 => by
    unfold Loop.run
    simp only
    have ht := body_timestep maxLen l (out l.timestep)
    split
    · exact ⟨_, rfl⟩
    · next hg =>
      simp only [Goal.reached, decide_eq_true_eq] at hg
      exact run_terminates fuel _ (by omega) (by omega)

/-! ## C45, serial evaluation -/

/-- **C45 (by episodes).** Whatever the environment and the agent do, if a serial evaluation by `n ≥ 1`
episodes ends, then the steps it made split, in order, into exactly `n` complete episodes (each ended by
`done`, by `needs_reset` or by the length limit, and not before); the scores it returns are the sums of rewards
of these episodes in order, the lengths their lengths; and the environment and the agent were called, in order,
exactly to run these episodes. -/
theorem serial_evaluation_by_episodes {maxLen : Option Nat} {n : Nat} (hn : 0 < n) {out : Nat → Out R}
    {fuel : Nat} {l : Loop R} (h : runEpisodes maxLen (.episodes n) out fuel = some l) :
    ∃ segs : List (List (Out R)), segs.length = n ∧ segs.flatten = (List.range l.timestep).map out ∧
      (∀ seg ∈ segs, Spec.IsEpisode maxLen seg) ∧
      l.scores = segs.map Spec.ret ∧ l.lengths = segs.map List.length ∧
      l.calls = segs.flatMap (Spec.episodeCalls maxLen) := by
  unfold runEpisodes at h
  obtain ⟨l', hl', rfl⟩ := Option.map_eq_some_iff.mp h
  obtain ⟨segs, rest, hinv, _, _, he⟩ := run_inv fuel _ [] [] l' (LoopInv.init _ _) hl'
  obtain ⟨hlen, hrest⟩ := he n rfl hn
  subst hrest
  have hne : l'.scores.length ≠ 0 := by rw [hinv.scores, List.length_map]; omega
  unfold Loop.finish
  rw [if_neg hne]
  exact ⟨segs, hlen, by simpa using hinv.steps, hinv.complete, hinv.scores, hinv.lengths,
    by simpa using hinv.calls⟩

/-- **C45 (by steps).** A serial evaluation by `n ≥ 1` steps always ends, after exactly `n` steps; they
split, in order, into complete episodes and an unfinished rest, and the scores returned are the sums of rewards of
the complete episodes, or, if there is none, the sum of all rewards.  There is at least one score. -/
theorem serial_evaluation_by_steps {maxLen : Option Nat} {n : Nat} (hn : 0 < n) (out : Nat → Out R) :
    ∃ l, runEpisodes maxLen (.steps n) out n = some l ∧ l.timestep = n ∧ l.scores ≠ [] ∧
    ∃ (segs : List (List (Out R))) (rest : List (Out R)),
      segs.flatten ++ rest = (List.range n).map out ∧
      (∀ seg ∈ segs, Spec.IsEpisode maxLen seg) ∧ Spec.Unfinished maxLen rest ∧
      (segs ≠ [] → l.scores = segs.map Spec.ret ∧ l.lengths = segs.map List.length) ∧
      (segs = [] → l.scores = [Spec.ret rest] ∧ l.lengths = [rest.length]) ∧
      l.calls = segs.flatMap (Spec.episodeCalls maxLen) ++
        (if rest = [] then [] else Spec.episodeCalls maxLen rest) := by
  obtain ⟨l', hl'⟩ := run_terminates (maxLen := maxLen) (out := out) (n := n) n Loop.init
    (by simpa [Loop.init] using hn) (by simp)
  obtain ⟨segs, rest, hinv, _, hs, _⟩ := run_inv n _ [] [] l' (LoopInv.init _ _) hl'
  have ht : l'.timestep = n := hs n rfl (by simpa [Loop.init] using hn)
  refine ⟨l'.finish, by unfold runEpisodes; rw [hl']; rfl, ?_⟩
  have hfl : segs.flatten ++ rest = (List.range n).map out := by rw [hinv.steps, ht]
  unfold Loop.finish
  by_cases hsegs : segs = []
  · subst hsegs
    have hz : l'.scores.length = 0 := by rw [hinv.scores]; rfl
    have hrest : rest ≠ [] := by
      intro hr
      subst hr
      have := congrArg List.length hfl
      simp at this
      omega
    rw [if_pos hz]
    refine ⟨ht, by simp, [], rest, hfl, by simp, hinv.unfinished, by simp, ?_, hinv.calls⟩
    intro _
    exact ⟨by simp only [hinv.testR hrest], by simp only [hinv.len hrest]⟩
  · have hz : l'.scores.length ≠ 0 := by
      rw [hinv.scores, List.length_map]
      exact fun hc => hsegs (List.length_eq_zero_iff.mp hc)
    rw [if_neg hz]
    exact ⟨ht, fun hc => hz (by rw [hc]; rfl), segs, rest, hfl, hinv.complete, hinv.unfinished,
      fun _ => ⟨hinv.scores, hinv.lengths⟩, fun hc => absurd hc hsegs, hinv.calls⟩

/-- Outcomes with episodes of lengths 2 (done), 3 (limit), 1 (needs_reset). -/
def exampleOut (k : Nat) : Out Int :=
  ⟨k + 1, decide (k = 1), decide (k = 5)⟩

example : (runEpisodes (some 3) (.episodes 3) exampleOut 10).map (fun l => (l.scores, l.lengths, l.timestep))
    = some ([3, 12, 6], [2, 3, 1], 6) := by decide

example : (runEpisodes (some 3) (.steps 4) exampleOut 4).map (fun l => (l.scores, l.lengths, l.timestep))
    = some ([3], [2], 4) := by decide

example : (runEpisodes none (.steps 1) exampleOut 1).map (fun l => (l.scores, l.lengths, l.timestep))
    = some ([1], [1], 1) := by decide

end Pfrl.Eval
