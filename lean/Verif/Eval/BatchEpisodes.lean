import Verif.Eval.Episodes
import Mathlib.Tactic.Ring
import Mathlib.Data.List.Nodup

/-!
# Batch evaluation episodes (C45)

`out i k` is the outcome of the `k`-th step of environment `i` in this run (all environments step together).
-/

namespace Pfrl.Eval.Batch

variable {R : Type _} [AddCommMonoid R]

/-! ## Model -/

/-- A call made by the loop on the vector environment or the agent.  The masks are functions of the index of
the environment. -/
inductive Call where
  | resetAll
  | act
  | step
  | observe (dones resets : List Bool)
  | reset (notEnd : List Bool)
  deriving DecidableEq, Repr

/-- Local variables of `_batch_run_episodes`, `pfrl/experiments/evaluator.py:110-127`.  The two dictionaries
`episode_returns` and `episode_lengths` always have the same keys and are one dictionary `dict` here. -/
structure Loop (R : Type _) where
  /-- `episode_returns`, `episode_lengths` -/
  dict : Nat → Option (R × Nat)
  /-- `episode_indices` -/
  idx : Nat → Nat
  /-- `episode_idx` -/
  next : Nat
  /-- `episode_r` -/
  r : Nat → R
  /-- `episode_len` -/
  len : Nat → Nat
  timestep : Nat
  calls : List Call

/-- `evaluator.py:110-127`. -/
def Loop.init (N : Nat) : Loop R :=
  ⟨fun _ => none, fun i => i, N, fun _ => 0, fun _ => 0, 0, [.resetAll]⟩

/-- `for index in range(len(end))`, `evaluator.py:150-157`. -/
def assign (ended : Nat → Bool) : List Nat → Loop R → Loop R
  | [], l => l
  | i :: is, l =>
    if ended i then
      let l := { l with dict := fun j => if j = l.idx i then some (l.r i, l.len i) else l.dict j }
      let l := { l with idx := fun k => if k = i then l.next else l.idx k, next := l.next + 1 }
      assign ended is l
    else assign ended is l

/-- `while first_unfinished_episode in episode_returns`, `evaluator.py:162-165`.  The fuel is the number of
episodes begun, which bounds the keys (`firstUnfinished_spec`). -/
def firstUnfinished (dict : Nat → Option (R × Nat)) : Nat → Nat → Nat
  | 0, f => f
  | fuel + 1, f => if (dict f).isSome then firstUnfinished dict fuel (f + 1) else f

/-- The loop over finished episodes in the branch of `n_steps`, `evaluator.py:172-180`: the total time and
what is appended to `eval_episode_returns` and `eval_episode_lens`. -/
def takeSteps (dict : Nat → Option (R × Nat)) (n : Nat) : List Nat → Nat → Nat × List (R × Nat)
  | [], total => (total, [])
  | j :: js, total =>
    match dict j with
    | none => (total, [])      -- KeyError; `j` ranges over the finished episodes
    | some (r, len) =>
      if total + len > n then (total + len, [])
      else ((takeSteps dict n js (total + len)).1, (r, len) :: (takeSteps dict n js (total + len)).2)

/-- `termination_conditions` and the episodes to return, `evaluator.py:167-198`.  `unfinished_index` is the
environment whose current episode is the first unfinished one. -/
def terminate (N : Nat) (g : Goal) (l : Loop R) : Option (List (R × Nat)) :=
  let f := firstUnfinished l.dict l.next 0
  match g with
  | .steps n =>
    let (total, res) := takeSteps l.dict n (List.range f) 0
    if total ≥ n then some res
    else
      match (List.range N).find? (fun i => l.idx i == f) with
      | none => none            -- an empty array: `total + [] >= n` is false
      | some u =>
        if total + l.len u ≥ n then
          some (if f = 0 then res ++ [(l.r u, l.len u)] else res)
        else none
  | .episodes n =>
    if f ≥ n then some ((List.range n).filterMap l.dict) else none

/-- The loop body up to the termination test, `evaluator.py:130-160`. -/
def Loop.advance (N : Nat) (maxLen : Option Nat) (l : Loop R) (o : Nat → Out R) : Loop R :=
  let l := { l with
    timestep := l.timestep + 1
    r := fun i => l.r i + (o i).reward
    len := fun i => l.len i + 1
    calls := l.calls ++ [.act, .step] }
  let ended := fun i => decide (some (l.len i) = maxLen) || (o i).needsReset || (o i).done
  let l := assign ended (List.range N) l
  { l with
    r := fun i => if ended i then 0 else l.r i
    len := fun i => if ended i then 0 else l.len i }

/-- The masks `dones` and `resets` of a step, `evaluator.py:138-144`. -/
def masks (N : Nat) (maxLen : Option Nat) (l : Loop R) (o : Nat → Out R) : List Bool × List Bool :=
  ((List.range N).map fun i => (o i).done,
   (List.range N).map fun i => decide (some (l.len i + 1) = maxLen) || (o i).needsReset)

/-- `while True`, `evaluator.py:129-211`; `none` if the loop has not ended within `fuel` steps.  On the last
step the agent is told that every episode is reset (`resets.fill(True)`). -/
def Loop.run (N : Nat) (maxLen : Option Nat) (g : Goal) (out : Nat → Nat → Out R) :
    Nat → Loop R → Option (Loop R × List (R × Nat))
  | 0, _ => none
  | fuel + 1, l =>
    let o := fun i => out i l.timestep
    let m := masks N maxLen l o
    let l := l.advance N maxLen o
    match terminate N g l with
    | some res =>
      some ({ l with calls := l.calls ++ [.observe m.1 (m.2.map fun _ => true)] }, res)
    | none =>
      Loop.run N maxLen g out fuel
        { l with calls := l.calls ++ [.observe m.1 m.2,
            .reset (List.zipWith (fun d r => !(d || r)) m.1 m.2)] }

/-- `_batch_run_episodes`, `evaluator.py:100-215`: the final state, and the scores with their lengths. -/
def batchRunEpisodes (N : Nat) (maxLen : Option Nat) (g : Goal) (out : Nat → Nat → Out R) (fuel : Nat) :
    Option (Loop R × List (R × Nat)) :=
  (Loop.init N).run N maxLen g out fuel

/-! ## Specification -/

/-- The step at which the episode of an environment that is under way after `t` steps began. -/
def Spec.start (maxLen : Option Nat) (o : Nat → Out R) : Nat → Nat
  | 0 => 0
  | t + 1 =>
    if (o t).done = true ∨ (o t).needsReset = true ∨
        maxLen = some (t + 1 - Spec.start maxLen o t) then t + 1
    else Spec.start maxLen o t

/-- The steps `s, …, e` of an environment. -/
def Spec.stretch (o : Nat → Out R) (s e : Nat) : List (Out R) := (List.range' s (e + 1 - s)).map o

/-- The episodes begun within the first `t` steps, as pairs (first step, environment), in starting order:
earlier ones first, and those begun at the same time by environment. -/
def Spec.begun (N : Nat) (maxLen : Option Nat) (out : Nat → Nat → Out R) (t : Nat) : List (Nat × Nat) :=
  (List.range (t + 1)).flatMap fun s =>
    ((List.range N).filter fun i => Spec.start maxLen (out i) s == s).map fun i => (s, i)

/-- The masks the agent should see at step `t`: which environments are done, and which episodes are cut (by
the length limit or on request of the environment). -/
def Spec.dones (N : Nat) (out : Nat → Nat → Out R) (t : Nat) : List Bool :=
  (List.range N).map fun i => (out i t).done

def Spec.resets (N : Nat) (maxLen : Option Nat) (out : Nat → Nat → Out R) (t : Nat) : List Bool :=
  (List.range N).map fun i =>
    decide (maxLen = some (t + 1 - Spec.start maxLen (out i) t)) || (out i t).needsReset

/-- The environments whose episode goes on after step `t`. -/
def Spec.notEnd (N : Nat) (maxLen : Option Nat) (out : Nat → Nat → Out R) (t : Nat) : List Bool :=
  (List.range N).map fun i => decide (Spec.start maxLen (out i) (t + 1) ≠ t + 1)

/-- The calls of `t` steps that are not the last. -/
def Spec.callsUpTo (N : Nat) (maxLen : Option Nat) (out : Nat → Nat → Out R) (t : Nat) : List Call :=
  .resetAll :: (List.range t).flatMap fun k =>
    [.act, .step, .observe (Spec.dones N out k) (Spec.resets N maxLen out k),
      .reset (Spec.notEnd N maxLen out k)]

/-! ## Lemmas -/

/-- Does step `t` end the episode under way? -/
def ended (maxLen : Option Nat) (o : Nat → Out R) (t : Nat) : Bool :=
  decide (some (t - Spec.start maxLen o t + 1) = maxLen) || (o t).needsReset || (o t).done

omit [AddCommMonoid R] in
theorem start_le (maxLen : Option Nat) (o : Nat → Out R) : ∀ t, Spec.start maxLen o t ≤ t
  | 0 => le_refl _
  | t + 1 => by
    unfold Spec.start
    split
    · exact le_refl _
    · exact le_trans (start_le maxLen o t) (Nat.le_succ t)

omit [AddCommMonoid R] in
theorem ended_iff (maxLen : Option Nat) (o : Nat → Out R) (t : Nat) :
    ended maxLen o t = true ↔ ((o t).done = true ∨ (o t).needsReset = true ∨
      maxLen = some (t + 1 - Spec.start maxLen o t)) := by
  have := start_le maxLen o t
  unfold ended
  have h : t - Spec.start maxLen o t + 1 = t + 1 - Spec.start maxLen o t := by omega
  rw [h]
  simp only [Bool.or_eq_true, decide_eq_true_eq]
  constructor
  · rintro ((h | h) | h)
    · exact .inr (.inr h.symm)
    · exact .inr (.inl h)
    · exact .inl h
  · rintro (h | h | h)
    · exact .inr h
    · exact .inl (.inr h)
    · exact .inl (.inl h.symm)

omit [AddCommMonoid R] in
theorem start_succ (maxLen : Option Nat) (o : Nat → Out R) (t : Nat) :
    Spec.start maxLen o (t + 1) = if ended maxLen o t then t + 1 else Spec.start maxLen o t := by
  rw [Spec.start]
  by_cases h : ended maxLen o t = true
  · rw [if_pos ((ended_iff _ _ _).mp h), if_pos h]
  · rw [if_neg (fun hc => h ((ended_iff _ _ _).mpr hc)), if_neg h]

omit [AddCommMonoid R] in
theorem start_eq_iff (maxLen : Option Nat) (o : Nat → Out R) (t : Nat) :
    (Spec.start maxLen o (t + 1) == t + 1) = ended maxLen o t := by
  rw [start_succ]
  by_cases h : ended maxLen o t = true
  · simp [h]
  · have := start_le maxLen o t
    simp only [h]
    rw [Bool.not_eq_true] at h
    simp only [beq_eq_false_iff_ne, ne_eq]
    simp
    omega

omit [AddCommMonoid R] in
theorem begun_succ (N : Nat) (maxLen : Option Nat) (out : Nat → Nat → Out R) (t : Nat) :
    Spec.begun N maxLen out (t + 1) = Spec.begun N maxLen out t ++
      ((List.range N).filter fun i => ended maxLen (out i) t).map fun i => (t + 1, i) := by
  unfold Spec.begun
  rw [List.range_succ (n := t + 1), List.flatMap_append, List.flatMap_singleton]
  simp only [start_eq_iff]

omit [AddCommMonoid R] in
theorem begun_zero (N : Nat) (maxLen : Option Nat) (out : Nat → Nat → Out R) :
    Spec.begun N maxLen out 0 = (List.range N).map fun i => (0, i) := by
  unfold Spec.begun
  simp [Spec.start]

theorem filter_range_pos (p : Nat → Bool) {i : Nat} : ∀ {N : Nat}, i < N → p i = true →
    ((List.range N).filter p)[((List.range i).filter p).length]? = some i
  | 0, h, _ => by omega
  | N + 1, h, hp => by
    rw [List.range_succ, List.filter_append]
    rcases Nat.lt_or_ge i N with hlt | hge
    · have ih := filter_range_pos p hlt hp
      have := (List.getElem?_eq_some_iff.mp ih).1
      rw [List.getElem?_append_left this]
      exact ih
    · have : i = N := by omega
      subst this
      rw [List.getElem?_append_right (le_refl _), Nat.sub_self]
      simp [hp]

/-- What the inner loop does. -/
structure AssignSpec (e : Nat → Bool) (k : Nat) (l l' : Loop R) : Prop where
  next : l'.next = l.next + ((List.range k).filter e).length
  idx : ∀ i, l'.idx i = if i < k ∧ e i = true then l.next + ((List.range i).filter e).length else l.idx i
  dictSome : ∀ i, i < k → e i = true → l'.dict (l.idx i) = some (l.r i, l.len i)
  dictElse : ∀ j, (∀ i, i < k → e i = true → l.idx i ≠ j) → l'.dict j = l.dict j
  r : l'.r = l.r
  len : l'.len = l.len
  timestep : l'.timestep = l.timestep
  calls : l'.calls = l.calls

omit [AddCommMonoid R] in
theorem assign_append (e : Nat → Bool) : ∀ (is js : List Nat) (l : Loop R),
    assign e (is ++ js) l = assign e js (assign e is l)
  | [], _, _ => rfl
  | i :: is, js, l => by
    simp only [List.cons_append, assign]
    split
    · exact assign_append e is js _
    · exact assign_append e is js _

omit [AddCommMonoid R] in
theorem assign_spec (e : Nat → Bool) (l : Loop R) : ∀ k : Nat,
    (∀ i j, i < k → j < k → l.idx i = l.idx j → i = j) → AssignSpec e k l (assign e (List.range k) l)
  | 0, _ => by
    refine ⟨rfl, fun i => ?_, fun i h => by omega, fun j _ => rfl, rfl, rfl, rfl, rfl⟩
    simp [assign]
  | k + 1, hinj => by
    have ih := assign_spec e l k (fun i j hi hj => hinj i j (by omega) (by omega))
    rw [List.range_succ, assign_append]
    generalize hl' : assign e (List.range k) l = l' at ih ⊢
    have hk : l'.idx k = l.idx k := by rw [ih.idx]; simp
    by_cases hek : e k = true
    · simp only [assign, hek, if_true]
      refine ⟨?_, ?_, ?_, ?_, ih.r, ih.len, ih.timestep, ih.calls⟩
      · simp only [List.range_succ, List.filter_append, List.length_append, ih.next]
        simp [hek]; omega
      · intro i
        simp only
        by_cases hik : i = k
        · subst hik
          simp [hek, ih.next]
        · rw [if_neg hik, ih.idx]
          by_cases hc : i < k ∧ e i = true
          · rw [if_pos hc, if_pos ⟨by omega, hc.2⟩]
          · rw [if_neg hc, if_neg (fun h => hc ⟨by omega, h.2⟩)]
      · intro i hi hei
        simp only [hk]
        by_cases hik : i = k
        · subst hik
          rw [if_pos rfl, ih.r, ih.len]
        · have hne : l.idx i ≠ l.idx k := fun h => hik (hinj i k (by omega) (by omega) h)
          rw [if_neg hne]
          exact ih.dictSome i (by omega) hei
      · intro j hj
        simp only [hk]
        rw [if_neg (fun h => hj k (by omega) hek h.symm)]
        exact ih.dictElse j (fun i hi hei => hj i (by omega) hei)
    · simp only [assign, hek]
      refine ⟨?_, ?_, ?_, ?_, ih.r, ih.len, ih.timestep, ih.calls⟩
      · simp only [List.range_succ, List.filter_append, List.length_append]
        simpa [hek] using ih.next
      · intro i
        simp only [Bool.false_eq_true, if_false]
        rw [ih.idx]
        by_cases hc : i < k ∧ e i = true
        · rw [if_pos hc, if_pos ⟨by omega, hc.2⟩]
        · rw [if_neg hc, if_neg]
          rintro ⟨h1, h2⟩
          have : i ≠ k := fun h => hek (h ▸ h2)
          exact hc ⟨by omega, h2⟩
      · intro i hi hei
        have : i ≠ k := fun h => hek (h ▸ hei)
        exact ih.dictSome i (by omega) hei
      · intro j hj
        exact ih.dictElse j (fun i hi hei => hj i (by omega) hei)

/-- Step `e` of an environment ends the episode that began at step `s`. -/
structure Finished (maxLen : Option Nat) (o : Nat → Out R) (s e : Nat) : Prop where
  le : s ≤ e
  start : Spec.start maxLen o e = s
  ended : ended maxLen o e = true

/-- The state after `t` steps. -/
structure Inv (N : Nat) (maxLen : Option Nat) (out : Nat → Nat → Out R) (t : Nat) (l : Loop R) : Prop where
  timestep : l.timestep = t
  next : l.next = (Spec.begun N maxLen out t).length
  idx : ∀ i, i < N → (Spec.begun N maxLen out t)[l.idx i]? = some (Spec.start maxLen (out i) t, i)
  len : ∀ i, i < N → l.len i = t - Spec.start maxLen (out i) t
  r : ∀ i, i < N → l.r i = ((List.range' (Spec.start maxLen (out i) t)
    (t - Spec.start maxLen (out i) t)).map fun k => (out i k).reward).sum
  dict : ∀ j v, l.dict j = some v → ∃ s i e, (Spec.begun N maxLen out t)[j]? = some (s, i) ∧ i < N ∧ e < t ∧
    Finished maxLen (out i) s e ∧ v = (Spec.ret (Spec.stretch (out i) s e), e + 1 - s)
  open_ : ∀ j, j < l.next → l.dict j = none → ∃ i, i < N ∧ l.idx i = j
  fresh : ∀ i, i < N → l.dict (l.idx i) = none

theorem Inv.init (N : Nat) (maxLen : Option Nat) (out : Nat → Nat → Out R) :
    Inv N maxLen out 0 (Loop.init N) := by
  refine ⟨rfl, ?_, ?_, ?_, ?_, ?_, ?_, ?_⟩
  · rw [begun_zero]; simp [Loop.init]
  · intro i hi
    rw [begun_zero]
    simp [Loop.init, hi, Spec.start]
  · intro i _; simp [Loop.init]
  · intro i _; simp [Loop.init]
  · intro j v h; simp [Loop.init] at h
  · intro j hj _; exact ⟨j, hj, rfl⟩
  · intro i _; rfl

theorem Inv.advance {N : Nat} {maxLen : Option Nat} {out : Nat → Nat → Out R} {t : Nat} {l : Loop R}
    (h : Inv N maxLen out t l) :
    Inv N maxLen out (t + 1) (l.advance N maxLen fun i => out i t) := by
  -- the state before the inner loop, and what the inner loop does to it
  let l0 : Loop R :=
    { l with timestep := l.timestep + 1, r := fun i => l.r i + (out i t).reward,
             len := fun i => l.len i + 1, calls := l.calls ++ [.act, .step] }
  let e : Nat → Bool := fun i =>
    decide (some (l.len i + 1) = maxLen) || (out i t).needsReset || (out i t).done
  have he : ∀ i, i < N → e i = ended maxLen (out i) t := by
    intro i hi
    simp only [e, h.len i hi, ended]
  have hinj : ∀ i j, i < N → j < N → l0.idx i = l0.idx j → i = j := by
    intro i j hi hj hij
    have h1 := h.idx i hi
    have h2 := h.idx j hj
    rw [show l.idx i = l.idx j from hij, h2] at h1
    simp only [Option.some.injEq, Prod.mk.injEq] at h1
    exact h1.2.symm
  have hs := assign_spec e l0 N hinj
  have hadv : l.advance N maxLen (fun i => out i t) =
      { assign e (List.range N) l0 with
        r := fun i => if e i then 0 else (assign e (List.range N) l0).r i
        len := fun i => if e i then 0 else (assign e (List.range N) l0).len i } := rfl
  rw [hadv]
  generalize assign e (List.range N) l0 = l' at hs
  have hfil : ∀ k, k ≤ N → (List.range k).filter e = (List.range k).filter fun i => ended maxLen (out i) t := by
    intro k hk
    apply List.filter_congr
    intro i hi
    exact he i (by have := List.mem_range.mp hi; omega)
  have hlen0 : l0.next = l.next := rfl
  have hstart_le := fun i => start_le maxLen (out i) t
  have hgrow : ∀ (j : Nat) (x : Nat × Nat), (Spec.begun N maxLen out t)[j]? = some x →
      (Spec.begun N maxLen out (t + 1))[j]? = some x := by
    intro j x hx
    rw [begun_succ, List.getElem?_append_left (List.getElem?_eq_some_iff.mp hx).1]
    exact hx
  refine ⟨?_, ?_, ?_, ?_, ?_, ?_, ?_, ?_⟩
  · change l'.timestep = t + 1
    rw [hs.timestep]; change l.timestep + 1 = t + 1; rw [h.timestep]
  · change l'.next = _
    rw [hs.next, begun_succ, List.length_append, List.length_map, hlen0, h.next, hfil N (le_refl _)]
  · intro i hi
    change (Spec.begun N maxLen out (t + 1))[l'.idx i]? = _
    rw [hs.idx, start_succ]
    by_cases hei : ended maxLen (out i) t = true
    · rw [if_pos ⟨hi, by rw [he i hi]; exact hei⟩, if_pos hei, begun_succ, hlen0, h.next,
        List.getElem?_append_right (by omega), Nat.add_sub_cancel_left, List.getElem?_map,
        hfil i (by omega), filter_range_pos (fun i => ended maxLen (out i) t) hi hei]
      rfl
    · rw [if_neg (fun hc => hei (by rw [← he i hi]; exact hc.2)), if_neg hei]
      exact hgrow _ _ (h.idx i hi)
  · intro i hi
    change (if e i then 0 else l'.len i) = _
    rw [hs.len, he i hi, start_succ]
    by_cases hei : ended maxLen (out i) t = true
    · simp [hei]
    · rw [if_neg hei, if_neg hei]
      change l.len i + 1 = _
      rw [h.len i hi]
      have := hstart_le i
      omega
  · intro i hi
    change (if e i then 0 else l'.r i) = _
    rw [hs.r, he i hi, start_succ]
    by_cases hei : ended maxLen (out i) t = true
    · simp [hei]
    · rw [if_neg hei, if_neg hei]
      change l.r i + (out i t).reward = _
      rw [h.r i hi]
      have := hstart_le i
      have hc : t + 1 - Spec.start maxLen (out i) t = (t - Spec.start maxLen (out i) t) + 1 := by omega
      rw [hc, List.range'_concat, List.map_append, List.sum_append]
      simp only [List.map_cons, List.map_nil, List.sum_cons, List.sum_nil, add_zero]
      congr 4
      omega
  · intro j v hv
    change l'.dict j = some v at hv
    by_cases hex : ∃ i, i < N ∧ e i = true ∧ l.idx i = j
    · obtain ⟨i, hi, hei, hij⟩ := hex
      have hd := hs.dictSome i hi hei
      rw [show l0.idx i = j from hij, hv] at hd
      have hv' : v = (l.r i + (out i t).reward, l.len i + 1) := Option.some.inj hd
      have := hstart_le i
      refine ⟨Spec.start maxLen (out i) t, i, t, ?_, hi, by omega, ⟨this, rfl, by rw [← he i hi]; exact hei⟩,
        ?_⟩
      · apply hgrow
        rw [← hij]; exact h.idx i hi
      · rw [hv', h.r i hi, h.len i hi]
        have hc : t + 1 - Spec.start maxLen (out i) t = (t - Spec.start maxLen (out i) t) + 1 := by omega
        unfold Spec.stretch Spec.ret
        rw [hc, List.range'_concat, List.map_append, List.map_append, List.sum_append, List.map_map]
        have hlast : Spec.start maxLen (out i) t + 1 * (t - Spec.start maxLen (out i) t) = t := by omega
        simp only [List.map_cons, List.map_nil, List.sum_cons, List.sum_nil, add_zero, hlast]
        rfl
    · have hd := hs.dictElse j (fun i hi hei hij => hex ⟨i, hi, hei, hij⟩)
      rw [hd] at hv
      obtain ⟨s, i, e', h1, h2, h3, h4, h5⟩ := h.dict j v hv
      exact ⟨s, i, e', hgrow _ _ h1, h2, by omega, h4, h5⟩
  · intro j hj hnone
    change j < l'.next at hj
    change l'.dict j = none at hnone
    rw [hs.next] at hj
    rcases Nat.lt_or_ge j l.next with hlt | hge
    · have hd : l.dict j = none := by
        by_cases hex : ∃ i, i < N ∧ e i = true ∧ l.idx i = j
        · obtain ⟨i, hi, hei, hij⟩ := hex
          have hd := hs.dictSome i hi hei
          rw [show l0.idx i = j from hij, hnone] at hd
          cases hd
        · have hd := hs.dictElse j (fun i hi hei hij => hex ⟨i, hi, hei, hij⟩)
          rw [hnone] at hd
          exact hd.symm
      obtain ⟨i, hi, hij⟩ := h.open_ j hlt hd
      refine ⟨i, hi, ?_⟩
      change l'.idx i = j
      rw [hs.idx, if_neg, ← hij]
      rintro ⟨_, hei⟩
      have hd := hs.dictSome i hi hei
      rw [show l0.idx i = j from hij, hnone] at hd
      cases hd
    · -- a new episode
      have hpos : j - l.next < ((List.range N).filter e).length := by
        rw [hlen0] at hj; omega
      obtain ⟨i, hi⟩ : ∃ i, ((List.range N).filter e)[j - l.next]? = some i :=
        ⟨_, List.getElem?_eq_getElem hpos⟩
      have hmem := List.mem_of_getElem? hi
      rw [List.mem_filter, List.mem_range] at hmem
      have hpos2 := filter_range_pos e hmem.1 hmem.2
      have hnd : ((List.range N).filter e).Nodup := List.Nodup.filter _ List.nodup_range
      have heq : j - l.next = ((List.range i).filter e).length := by
        apply (List.Nodup.getElem_inj_iff hnd (hi := hpos)
          (hj := (List.getElem?_eq_some_iff.mp hpos2).1)).mp
        rw [(List.getElem?_eq_some_iff.mp hi).2, (List.getElem?_eq_some_iff.mp hpos2).2]
      refine ⟨i, hmem.1, ?_⟩
      change l'.idx i = j
      rw [hs.idx, if_pos hmem, hlen0, ← heq]
      omega
  · intro i hi
    change l'.dict (l'.idx i) = none
    have hfresh : ∀ j, l.next ≤ j → l'.dict j = none := by
      intro j hj
      rw [hs.dictElse]
      · change l.dict j = none
        by_contra hne
        obtain ⟨v, hv⟩ := Option.ne_none_iff_exists'.mp hne
        obtain ⟨s, i, e', h1, _⟩ := h.dict j v hv
        have := (List.getElem?_eq_some_iff.mp h1).1
        rw [← h.next] at this
        omega
      · intro i hi _ hc
        have := (List.getElem?_eq_some_iff.mp (h.idx i hi)).1
        rw [← h.next] at this
        have hc' : l.idx i = j := hc
        omega
    rw [hs.idx]
    by_cases hei : i < N ∧ e i = true
    · rw [if_pos hei]
      apply hfresh
      rw [hlen0]; omega
    · rw [if_neg hei]
      change l'.dict (l.idx i) = none
      rw [hs.dictElse]
      · exact h.fresh i hi
      · intro k hk hek hc
        have := hinj k i hk hi hc
        subst this
        exact hei ⟨hk, hek⟩

theorem Inv.calls {N : Nat} {maxLen : Option Nat} {out : Nat → Nat → Out R} {t : Nat} {l : Loop R}
    (h : Inv N maxLen out t l) (c : List Call) : Inv N maxLen out t { l with calls := c } :=
  ⟨h.timestep, h.next, h.idx, h.len, h.r, h.dict, h.open_, h.fresh⟩

omit [AddCommMonoid R] in
theorem firstUnfinished_spec (dict : Nat → Option (R × Nat)) : ∀ (fuel f : Nat),
    (∀ j, f + fuel ≤ j → dict j = none) → (∀ j, j < f → (dict j).isSome = true) →
    dict (firstUnfinished dict fuel f) = none ∧
    ∀ j, j < firstUnfinished dict fuel f → (dict j).isSome = true
  | 0, f, h1, h2 => by
    unfold firstUnfinished
    exact ⟨h1 f (by omega), h2⟩
  | fuel + 1, f, h1, h2 => by
    unfold firstUnfinished
    split
    · next hs =>
      apply firstUnfinished_spec dict fuel (f + 1)
      · intro j hj; exact h1 j (by omega)
      · intro j hj
        rcases Nat.lt_or_ge j f with h | h
        · exact h2 j h
        · have : j = f := by omega
          subst this; exact hs
    · next hs => exact ⟨by simpa using hs, h2⟩

theorem Inv.firstUnfinished {N : Nat} {maxLen : Option Nat} {out : Nat → Nat → Out R} {t : Nat} {l : Loop R}
    (h : Inv N maxLen out t l) :
    l.dict (firstUnfinished l.dict l.next 0) = none ∧
    ∀ j, j < firstUnfinished l.dict l.next 0 → (l.dict j).isSome = true := by
  apply firstUnfinished_spec
  · intro j hj
    by_contra hne
    obtain ⟨v, hv⟩ := Option.ne_none_iff_exists'.mp hne
    obtain ⟨s, i, e', h1, _⟩ := h.dict j v hv
    have := (List.getElem?_eq_some_iff.mp h1).1
    rw [← h.next] at this
    omega
  · intro j hj; omega

omit [AddCommMonoid R] in
theorem stretch_length (o : Nat → Out R) (s e : Nat) : (Spec.stretch o s e).length = e + 1 - s := by
  simp [Spec.stretch]

omit [AddCommMonoid R] in
/-- Inside an episode nothing has ended yet. -/
theorem start_const {maxLen : Option Nat} {o : Nat → Out R} {s : Nat} : ∀ {e : Nat},
    Spec.start maxLen o e = s → ∀ k, s ≤ k → k < e → Spec.start maxLen o k = s ∧ ended maxLen o k = false
  | 0, _, k, _, hk => by omega
  | e + 1, hs, k, h1, h2 => by
    rw [start_succ] at hs
    by_cases he : ended maxLen o e = true
    · rw [if_pos he] at hs; omega
    · rw [if_neg he] at hs
      rcases Nat.lt_or_ge k e with h | h
      · exact start_const hs k h1 h
      · have : k = e := by omega
        subst this
        exact ⟨hs, by simpa using he⟩

omit [AddCommMonoid R] in
theorem ends_stretch {maxLen : Option Nat} {o : Nat → Out R} {s k : Nat} (hk : s ≤ k)
    (hs : Spec.start maxLen o k = s) :
    Spec.ends maxLen (Spec.stretch o s k) ↔ ended maxLen o k = true := by
  have hsplit : Spec.stretch o s k = (List.range' s (k - s)).map o ++ [o k] := by
    unfold Spec.stretch
    have hc : k + 1 - s = (k - s) + 1 := by omega
    have hl : s + 1 * (k - s) = k := by omega
    rw [hc, List.range'_concat, List.map_append, hl]; rfl
  rw [hsplit, ends_snoc, ended_iff, hs]
  have hl : ((List.range' s (k - s)).map o).length + 1 = k + 1 - s := by simp; omega
  rw [hl]
  simp only [Bool.or_eq_true, decide_eq_true_eq]
  constructor
  · rintro ((h | h) | h)
    · exact .inl h
    · exact .inr (.inr h)
    · exact .inr (.inl h)
  · rintro (h | h | h)
    · exact .inl (.inl h)
    · exact .inr h
    · exact .inl (.inr h)

omit [AddCommMonoid R] in
theorem take_stretch (o : Nat → Out R) (s e k : Nat) (h : s + k ≤ e + 1) (hk : 0 < k) :
    (Spec.stretch o s e).take k = Spec.stretch o s (s + k - 1) := by
  unfold Spec.stretch
  have h1 : e + 1 - s = k + (e + 1 - s - k) := by omega
  have h2 : s + k - 1 + 1 - s = k := by omega
  rw [← List.map_take, h2, h1, ← List.range'_append, List.take_left' (by simp)]

omit [AddCommMonoid R] in
theorem Finished.isEpisode {maxLen : Option Nat} {o : Nat → Out R} {s e : Nat}
    (h : Finished maxLen o s e) : Spec.IsEpisode maxLen (Spec.stretch o s e) := by
  refine ⟨(ends_stretch h.le h.start).mpr h.ended, ?_⟩
  intro k hk
  rw [stretch_length] at hk
  have hle := h.le
  rcases Nat.eq_zero_or_pos k with hz | hpos
  · subst hz; rw [List.take_zero]; exact not_ends_nil _
  · rw [take_stretch o s e k (by omega) hpos]
    obtain ⟨h1, h2⟩ := start_const h.start (s + k - 1) (by omega) (by omega)
    rw [ends_stretch (by omega) h1, h2]
    simp

theorem run_inv {N : Nat} {maxLen : Option Nat} {g : Goal} {out : Nat → Nat → Out R} :
    ∀ (fuel t : Nat) (l : Loop R) (l' : Loop R) (res : List (R × Nat)),
    Inv N maxLen out t l → l.run N maxLen g out fuel = some (l', res) →
    ∃ T, t < T ∧ Inv N maxLen out T l' ∧ terminate N g l' = some res
  | 0, _, _, _, _, _, h => by simp [Loop.run] at h
  | fuel + 1, t, l, l', res, hinv, h => by
    unfold Loop.run at h
    simp only at h
    have h1 := hinv.advance
    rw [hinv.timestep] at h
    cases hterm : terminate N g (l.advance N maxLen fun i => out i t) with
    | some r =>
      rw [hterm] at h
      simp only [Option.some.injEq, Prod.mk.injEq] at h
      obtain ⟨hl, hr⟩ := h
      subst hr
      refine ⟨t + 1, by omega, ?_, ?_⟩
      · rw [← hl]; exact h1.calls _
      · rw [← hl, ← hterm]; rfl
    | none =>
      rw [hterm] at h
      simp only at h
      obtain ⟨T, hT, h2, h3⟩ := run_inv fuel (t + 1) _ l' res (h1.calls _) h
      exact ⟨T, by omega, h2, h3⟩

omit [AddCommMonoid R] in
theorem filterMap_getElem {dict : Nat → Option (R × Nat)} : ∀ {n : Nat},
    (∀ j, j < n → (dict j).isSome = true) →
    ((List.range n).filterMap dict).length = n ∧
    ∀ j, j < n → ((List.range n).filterMap dict)[j]? = dict j
  | 0, _ => by simp
  | n + 1, h => by
    obtain ⟨h1, h2⟩ := filterMap_getElem (n := n) (fun j hj => h j (by omega))
    obtain ⟨v, hv⟩ := Option.isSome_iff_exists.mp (h n (by omega))
    rw [List.range_succ, List.filterMap_append]
    have hsing : List.filterMap dict [n] = [v] := by simp [hv]
    rw [hsing]
    refine ⟨by rw [List.length_append, h1]; rfl, ?_⟩
    intro j hj
    rcases Nat.lt_or_ge j n with hlt | hge
    · rw [List.getElem?_append_left (by omega)]; exact h2 j hlt
    · have : j = n := by omega
      subst this
      rw [List.getElem?_append_right (by omega), h1, Nat.sub_self, hv]
      rfl

/-- The length of a finished episode; 0 for others. -/
def lenD (dict : Nat → Option (R × Nat)) (j : Nat) : Nat :=
  match dict j with
  | some v => v.2
  | none => 0

/-- The time spent in the episodes begun before the current one of each environment. -/
def Covered (N : Nat) (maxLen : Option Nat) (out : Nat → Nat → Out R) (t : Nat) (l : Loop R) : Prop :=
  ∀ i, i < N → Spec.start maxLen (out i) t ≤ ((List.range (l.idx i)).map (lenD l.dict)).sum

theorem sum_range_mono {f g : Nat → Nat} : ∀ {m n : Nat}, m ≤ n → (∀ j, j < m → f j ≤ g j) →
    ((List.range m).map f).sum ≤ ((List.range n).map g).sum
  | 0, _, _, _ => by simp
  | m + 1, 0, h, _ => by omega
  | m + 1, n + 1, h, hfg => by
    rw [List.range_succ (n := n), List.map_append, List.sum_append]
    rcases Nat.lt_or_ge m n with hlt | hge
    · have := sum_range_mono (f := f) (g := g) (m := m + 1) (n := n) (by omega) hfg
      omega
    · have hmn : m = n := by omega
      subst hmn
      have := sum_range_mono (f := f) (g := g) (m := m) (n := m) (le_refl _) (fun j hj => hfg j (by omega))
      have h2 := hfg m (by omega)
      rw [List.range_succ, List.map_append, List.sum_append]
      simp
      omega

theorem Covered.advance {N : Nat} {maxLen : Option Nat} {out : Nat → Nat → Out R} {t : Nat} {l : Loop R}
    (h : Inv N maxLen out t l) (hc : Covered N maxLen out t l) :
    Covered N maxLen out (t + 1) (l.advance N maxLen fun i => out i t) := by
  let l0 : Loop R :=
    { l with timestep := l.timestep + 1, r := fun i => l.r i + (out i t).reward,
             len := fun i => l.len i + 1, calls := l.calls ++ [.act, .step] }
  let e : Nat → Bool := fun i =>
    decide (some (l.len i + 1) = maxLen) || (out i t).needsReset || (out i t).done
  have he : ∀ i, i < N → e i = ended maxLen (out i) t := by
    intro i hi
    simp only [e, h.len i hi, ended]
  have hinj : ∀ i j, i < N → j < N → l0.idx i = l0.idx j → i = j := by
    intro i j hi hj hij
    have h1 := h.idx i hi
    have h2 := h.idx j hj
    rw [show l.idx i = l.idx j from hij, h2] at h1
    simp only [Option.some.injEq, Prod.mk.injEq] at h1
    exact h1.2.symm
  have hs := assign_spec e l0 N hinj
  have hadv : l.advance N maxLen (fun i => out i t) =
      { assign e (List.range N) l0 with
        r := fun i => if e i then 0 else (assign e (List.range N) l0).r i
        len := fun i => if e i then 0 else (assign e (List.range N) l0).len i } := rfl
  rw [hadv]
  generalize assign e (List.range N) l0 = l' at hs
  have hgrow : ∀ j, lenD l.dict j ≤ lenD l'.dict j := by
    intro j
    by_cases hex : ∃ i, i < N ∧ e i = true ∧ l.idx i = j
    · obtain ⟨i, hi, _, hij⟩ := hex
      have := h.fresh i hi
      rw [hij] at this
      simp [lenD, this]
    · have hd := hs.dictElse j (fun i hi hei hij => hex ⟨i, hi, hei, hij⟩)
      simp only [lenD, hd]
      exact le_refl _
  intro i hi
  change _ ≤ ((List.range (l'.idx i)).map (lenD l'.dict)).sum
  rw [hs.idx, start_succ]
  by_cases hei : ended maxLen (out i) t = true
  · have hei' : e i = true := by rw [he i hi]; exact hei
    rw [if_pos hei, if_pos ⟨hi, hei'⟩]
    have hlt : l.idx i + 1 ≤ l.next := by
      have := (List.getElem?_eq_some_iff.mp (h.idx i hi)).1
      rw [h.next]; omega
    refine le_trans ?_ (sum_range_mono (f := lenD l'.dict) (g := lenD l'.dict) (m := l.idx i + 1)
      (by change _ ≤ l.next + _; omega) (fun j _ => le_refl _))
    rw [List.range_succ, List.map_append, List.sum_append]
    have h1 := sum_range_mono (f := lenD l.dict) (g := lenD l'.dict) (le_refl (l.idx i)) (fun j _ => hgrow j)
    have h2 : lenD l'.dict (l.idx i) = l.len i + 1 := by
      have hd := hs.dictSome i hi hei'
      have hd' : l'.dict (l.idx i) = some (l.r i + (out i t).reward, l.len i + 1) := hd
      simp only [lenD, hd']
    have h3 := hc i hi
    have h4 := h.len i hi
    have h5 := start_le maxLen (out i) t
    simp only [List.map_cons, List.map_nil, List.sum_cons, List.sum_nil, h2]
    omega
  · rw [if_neg hei, if_neg (fun hx => hei (by rw [← he i hi]; exact hx.2))]
    exact le_trans (hc i hi) (sum_range_mono (le_refl _) (fun j _ => hgrow j))

omit [AddCommMonoid R] in
theorem takeSteps_spec {dict : Nat → Option (R × Nat)} {n : Nat} : ∀ (js : List Nat) (total : Nat),
    (∀ j ∈ js, (dict j).isSome = true) → total ≤ n →
    ∃ k, k ≤ js.length ∧ (takeSteps dict n js total).2 = (js.take k).filterMap dict ∧
      total + ((js.take k).map (lenD dict)).sum ≤ n ∧
      ((k = js.length ∧ (takeSteps dict n js total).1 = total + (js.map (lenD dict)).sum) ∨
       (k < js.length ∧ (takeSteps dict n js total).1 > n ∧
         total + ((js.take (k + 1)).map (lenD dict)).sum > n))
  | [], total, _, hle => ⟨0, by simp, by simp [takeSteps], by simpa using hle,
      .inl ⟨rfl, by simp [takeSteps]⟩⟩
  | j :: js, total, h, hle => by
    obtain ⟨v, hv⟩ := Option.isSome_iff_exists.mp (h j (by simp))
    have hl : lenD dict j = v.2 := by simp only [lenD, hv]
    unfold takeSteps
    simp only [hv]
    by_cases hgt : total + v.2 > n
    · rw [if_pos hgt]
      refine ⟨0, by simp, by simp, by simpa using hle, .inr ⟨by simp, hgt, ?_⟩⟩
      simpa [hl] using hgt
    · rw [if_neg hgt]
      obtain ⟨k, h1, h2, h3, h4⟩ := takeSteps_spec (n := n) js (total + v.2) (fun x hx => h x (by simp [hx]))
        (by omega)
      refine ⟨k + 1, by simpa using h1, ?_, ?_, ?_⟩
      · simp only [List.take_succ_cons, List.filterMap_cons, hv, h2]
      · simp only [List.take_succ_cons, List.map_cons, List.sum_cons, hl]; omega
      · rcases h4 with ⟨h5, h6⟩ | ⟨h5, h6, h7⟩
        · refine .inl ⟨by simp [h5], ?_⟩
          simp only [h6, List.map_cons, List.sum_cons, hl]; omega
        · refine .inr ⟨by simpa using h5, h6, ?_⟩
          simp only [List.take_succ_cons (i := k + 1), List.map_cons, List.sum_cons, hl]
          omega

omit [AddCommMonoid R] in
theorem begun_head (N : Nat) (maxLen : Option Nat) (out : Nat → Nat → Out R) (hN : 0 < N) :
    ∀ t, (Spec.begun N maxLen out t)[0]? = some (0, 0)
  | 0 => by
    rw [begun_zero]; simp [hN]
  | t + 1 => by
    have ih := begun_head N maxLen out hN t
    rw [begun_succ, List.getElem?_append_left (List.getElem?_eq_some_iff.mp ih).1]
    exact ih

theorem Inv.open_first {N : Nat} {maxLen : Option Nat} {out : Nat → Nat → Out R} {t : Nat} {l : Loop R}
    (h : Inv N maxLen out t l) (hN : 0 < N) :
    ∃ u, (List.range N).find? (fun i => l.idx i == Batch.firstUnfinished l.dict l.next 0) = some u ∧
      u < N ∧ l.idx u = Batch.firstUnfinished l.dict l.next 0 := by
  obtain ⟨h1, h2⟩ := h.firstUnfinished
  have hlt : Batch.firstUnfinished l.dict l.next 0 < l.next := by
    have h3 := (List.getElem?_eq_some_iff.mp (h.idx 0 hN)).1
    rw [← h.next] at h3
    by_contra hge
    have := h2 (l.idx 0) (by omega)
    rw [h.fresh 0 hN] at this
    cases this
  obtain ⟨i, hi, hij⟩ := h.open_ _ hlt h1
  cases hf : (List.range N).find? (fun i => l.idx i == Batch.firstUnfinished l.dict l.next 0) with
  | none =>
    have := List.find?_eq_none.mp hf i (List.mem_range.mpr hi)
    simp [hij] at this
  | some u =>
    have hu := List.find?_some hf
    have hm := List.mem_of_find?_eq_some hf
    exact ⟨u, rfl, List.mem_range.mp hm, by simpa using hu⟩

/-- What the termination test by steps returns. -/
theorem terminate_steps {N : Nat} {maxLen : Option Nat} {out : Nat → Nat → Out R} {t n : Nat} {l : Loop R}
    (h : Inv N maxLen out t l) (hN : 0 < N) :
    ∃ k, k ≤ firstUnfinished l.dict l.next 0 ∧
      ((List.range k).map (lenD l.dict)).sum ≤ n ∧
      (k < firstUnfinished l.dict l.next 0 → ((List.range (k + 1)).map (lenD l.dict)).sum > n ∧
        terminate N (.steps n) l = some ((List.range k).filterMap l.dict)) ∧
      (k = firstUnfinished l.dict l.next 0 → ∃ u, u < N ∧ l.idx u = k ∧
        terminate N (.steps n) l =
          if ((List.range k).map (lenD l.dict)).sum ≥ n then some ((List.range k).filterMap l.dict)
          else if ((List.range k).map (lenD l.dict)).sum + l.len u ≥ n then
            some (if k = 0 then [(l.r u, l.len u)] else (List.range k).filterMap l.dict)
          else none) := by
  obtain ⟨_, h2⟩ := h.firstUnfinished
  obtain ⟨u, hu, huN, hidx⟩ := h.open_first hN
  obtain ⟨k, k1, k2, k3, k4⟩ := takeSteps_spec (dict := l.dict) (n := n)
    (List.range (firstUnfinished l.dict l.next 0)) 0 (fun j hj => h2 j (List.mem_range.mp hj)) (Nat.zero_le _)
  rw [List.length_range] at k1 k4
  rw [List.take_range, Nat.min_eq_left k1] at k2 k3
  rw [Nat.zero_add] at k3
  refine ⟨k, k1, k3, ?_, ?_⟩
  · intro hlt
    rcases k4 with ⟨k5, _⟩ | ⟨_, k6, k7⟩
    · omega
    · rw [List.take_range, Nat.min_eq_left (by omega), Nat.zero_add] at k7
      refine ⟨k7, ?_⟩
      simp only [terminate, k2]
      rw [if_pos (by omega)]
  · intro heq
    rcases k4 with ⟨_, k6⟩ | ⟨k5, _, _⟩
    · rw [Nat.zero_add, ← heq] at k6
      refine ⟨u, huN, by rw [heq]; exact hidx, ?_⟩
      rw [← heq] at hu k2
      simp only [terminate, ← heq, k2, k6, hu]
      by_cases hz : k = 0
      · subst hz; simp
      · simp only [hz, if_false]
    · omega

theorem run_steps {N : Nat} {maxLen : Option Nat} {out : Nat → Nat → Out R} {n : Nat} (hN : 0 < N) :
    ∀ (fuel t : Nat) (l : Loop R), Inv N maxLen out t l → Covered N maxLen out t l → t < n → n ≤ t + fuel →
    ∃ l' res T, l.run N maxLen (.steps n) out fuel = some (l', res) ∧ T ≤ n ∧ t < T ∧
      Inv N maxLen out T l' ∧ terminate N (.steps n) l' = some res
  | 0, t, l, _, _, h1, h2 => by omega
  | fuel + 1, t, l, hinv, hcov, h1, h2 => by
    unfold Loop.run
    simp only
    have i1 := hinv.advance
    have c1 := Covered.advance hinv hcov
    rw [hinv.timestep]
    cases hterm : terminate N (.steps n) (l.advance N maxLen fun i => out i t) with
    | some r =>
      refine ⟨_, r, t + 1, rfl, by omega, by omega, i1.calls _, ?_⟩
      rw [← hterm]; rfl
    | none =>
      have hlt : t + 1 < n := by
        by_contra hge
        obtain ⟨k, k1, k3, k4, k5⟩ := terminate_steps (n := n) i1 hN
        rcases Nat.lt_or_ge k (firstUnfinished (l.advance N maxLen fun i => out i t).dict
            (l.advance N maxLen fun i => out i t).next 0) with hk | hk
        · rw [(k4 hk).2] at hterm; cases hterm
        · obtain ⟨u, hu, hidx, ht⟩ := k5 (by omega)
          rw [ht] at hterm
          have hc := c1 u hu
          rw [hidx] at hc
          have hl := i1.len u hu
          have hs := start_le maxLen (out u) (t + 1)
          split at hterm
          · cases hterm
          · rw [if_pos (by omega)] at hterm; cases hterm
      obtain ⟨l', res, T, g1, g2, g3, g4, g5⟩ := run_steps hN fuel (t + 1) _
        (i1.calls (_ ++ [.observe (masks N maxLen l fun i => out i t).1 (masks N maxLen l fun i => out i t).2,
            .reset (List.zipWith (fun d r => !(d || r)) (masks N maxLen l fun i => out i t).1
              (masks N maxLen l fun i => out i t).2)])) c1 hlt (by omega)
      exact ⟨l', res, T, g1, g2, by omega, g4, g5⟩

omit [AddCommMonoid R] in
theorem unfinished_stretch {maxLen : Option Nat} {o : Nat → Out R} {s t : Nat} (hs : Spec.start maxLen o t = s)
    (ht : s < t) : Spec.Unfinished maxLen (Spec.stretch o s (t - 1)) := by
  intro k hk
  rw [stretch_length] at hk
  rcases Nat.eq_zero_or_pos k with hz | hpos
  · subst hz; rw [List.take_zero]; exact not_ends_nil _
  · rw [take_stretch o s (t - 1) k (by omega) hpos]
    obtain ⟨h1, h2⟩ := start_const hs (s + k - 1) (by omega) (by omega)
    rw [ends_stretch (by omega) h1, h2]
    simp

omit [AddCommMonoid R] in
theorem sum_lens {dict : Nat → Option (R × Nat)} : ∀ {n : Nat}, (∀ j, j < n → (dict j).isSome = true) →
    (((List.range n).filterMap dict).map Prod.snd).sum = ((List.range n).map (lenD dict)).sum
  | 0, _ => by simp
  | n + 1, h => by
    have ih := sum_lens (n := n) (fun j hj => h j (by omega))
    obtain ⟨v, hv⟩ := Option.isSome_iff_exists.mp (h n (by omega))
    rw [List.range_succ, List.filterMap_append, List.map_append, List.map_append, List.sum_append,
      List.sum_append, ih]
    simp [hv, lenD]

theorem Inv.masks {N : Nat} {maxLen : Option Nat} {out : Nat → Nat → Out R} {t : Nat} {l : Loop R}
    (h : Inv N maxLen out t l) :
    Batch.masks N maxLen l (fun i => out i t) = (Spec.dones N out t, Spec.resets N maxLen out t) ∧
    List.zipWith (fun d r => !(d || r)) (Spec.dones N out t) (Spec.resets N maxLen out t)
      = Spec.notEnd N maxLen out t := by
  constructor
  · unfold Batch.masks Spec.dones Spec.resets
    refine Prod.ext rfl ?_
    apply List.map_congr_left
    intro i hi
    rw [h.len i (List.mem_range.mp hi)]
    have := start_le maxLen (out i) t
    have hc : t - Spec.start maxLen (out i) t + 1 = t + 1 - Spec.start maxLen (out i) t := by omega
    rw [hc]
    congr 1
    exact decide_eq_decide.mpr eq_comm
  · unfold Spec.dones Spec.resets Spec.notEnd
    rw [List.zipWith_map, List.zipWith_self]
    apply List.map_congr_left
    intro i _
    have := start_eq_iff maxLen (out i) t
    have h2 := ended_iff maxLen (out i) t
    rw [Bool.eq_iff_iff] at this
    rw [h2, beq_iff_eq] at this
    rw [Bool.eq_iff_iff, decide_eq_true_eq, Ne, this]
    simp
    tauto

theorem advance_calls (N : Nat) (maxLen : Option Nat) (l : Loop R) (o : Nat → Out R)
    (hinj : ∀ i j, i < N → j < N → l.idx i = l.idx j → i = j) :
    (l.advance N maxLen o).calls = l.calls ++ [.act, .step] := by
  unfold Loop.advance
  simp only
  rw [(assign_spec _ _ N (by exact hinj)).calls]

theorem Inv.idx_inj {N : Nat} {maxLen : Option Nat} {out : Nat → Nat → Out R} {t : Nat} {l : Loop R}
    (h : Inv N maxLen out t l) : ∀ i j, i < N → j < N → l.idx i = l.idx j → i = j := by
  intro i j hi hj hij
  have h1 := h.idx i hi
  have h2 := h.idx j hj
  rw [hij, h2] at h1
  simp only [Option.some.injEq, Prod.mk.injEq] at h1
  exact h1.2.symm

theorem run_calls {N : Nat} {maxLen : Option Nat} {g : Goal} {out : Nat → Nat → Out R} :
    ∀ (fuel t : Nat) (l : Loop R) (l' : Loop R) (res : List (R × Nat)),
    Inv N maxLen out t l → l.calls = Spec.callsUpTo N maxLen out t →
    l.run N maxLen g out fuel = some (l', res) →
    0 < l'.timestep ∧ l'.calls = Spec.callsUpTo N maxLen out (l'.timestep - 1) ++
      [.act, .step, .observe (Spec.dones N out (l'.timestep - 1)) (List.replicate N true)]
  | 0, _, _, _, _, _, _, h => by simp [Loop.run] at h
  | fuel + 1, t, l, l', res, hinv, hcalls, h => by
    unfold Loop.run at h
    simp only at h
    have h1 := hinv.advance
    rw [hinv.timestep] at h
    have hac := advance_calls N maxLen l (fun i => out i t) hinv.idx_inj
    obtain ⟨hm1, hm2⟩ := hinv.masks
    cases hterm : terminate N g (l.advance N maxLen fun i => out i t) with
    | some r =>
      rw [hterm] at h
      simp only [Option.some.injEq, Prod.mk.injEq] at h
      obtain ⟨hl, hr⟩ := h
      have ht : l'.timestep = t + 1 := by rw [← hl]; exact h1.timestep
      rw [ht]
      refine ⟨by omega, ?_⟩
      rw [← hl]
      simp only [hac, hcalls, hm1, Nat.add_sub_cancel, List.append_assoc, List.cons_append, List.nil_append]
      congr 4
      simp [Spec.resets]
    | none =>
      rw [hterm] at h
      simp only at h
      refine run_calls fuel (t + 1) _ l' res (h1.calls _) ?_ h
      simp only [hac, hcalls, hm1, hm2]
      unfold Spec.callsUpTo
      rw [List.range_succ, List.flatMap_append]
      simp

/-! ## C45, batch evaluation -/

/-- **C45 (batch, by episodes).** Whatever the environments and the agent do, if a batch evaluation by `n`
episodes ends, it returns exactly `n` scores; the `j`-th is that of the `j`-th episode in starting order (time
first, then number of the environment), whichever finished first: it is the sum of rewards of that complete
episode, and the length is its length. -/
theorem batch_evaluation_by_episodes {N : Nat} {maxLen : Option Nat} {n : Nat} {out : Nat → Nat → Out R}
    {fuel : Nat} {l : Loop R} {res : List (R × Nat)}
    (h : batchRunEpisodes N maxLen (.episodes n) out fuel = some (l, res)) :
    res.length = n ∧ ∀ j, j < n → ∃ s i e,
      (Spec.begun N maxLen out l.timestep)[j]? = some (s, i) ∧ i < N ∧ s ≤ e ∧ e < l.timestep ∧
      Spec.IsEpisode maxLen (Spec.stretch (out i) s e) ∧
      res[j]? = some (Spec.ret (Spec.stretch (out i) s e), (Spec.stretch (out i) s e).length) := by
  obtain ⟨T, _, hinv, hterm⟩ := run_inv fuel 0 _ l res (Inv.init N maxLen out) h
  obtain ⟨_, hf⟩ := hinv.firstUnfinished
  simp only [terminate] at hterm
  split at hterm
  · next hge =>
    simp only [Option.some.injEq] at hterm
    subst hterm
    obtain ⟨h1, h2⟩ := filterMap_getElem (n := n) (fun j hj => hf j (by omega))
    refine ⟨h1, fun j hj => ?_⟩
    obtain ⟨v, hv⟩ := Option.isSome_iff_exists.mp (hf j (by omega))
    obtain ⟨s, i, e, g1, g2, g3, g4, g5⟩ := hinv.dict j v hv
    rw [hinv.timestep]
    refine ⟨s, i, e, g1, g2, g4.le, g3, g4.isEpisode, ?_⟩
    rw [h2 j hj, hv, g5, stretch_length]
  · cases hterm

/-- **C45 (batch, by steps).** Whatever the environments and the agent do, a batch evaluation by `n ≥ 1`
steps with at least one environment ends within `n` steps of each environment and returns at least one
score.  If the first episode has finished, the scores returned are those of the first episodes in starting
order, all complete, and as many as fit in `n` steps: their lengths sum to at most `n`, and if the next
one is finished too, it does not fit.  Otherwise the only score returned is the sum of rewards of the first
episode so far. -/
theorem batch_evaluation_by_steps {N : Nat} (hN : 0 < N) {maxLen : Option Nat} {n : Nat} (hn : 0 < n)
    (out : Nat → Nat → Out R) :
    ∃ l res, batchRunEpisodes N maxLen (.steps n) out n = some (l, res) ∧
      l.timestep ≤ n ∧ res ≠ [] ∧ (res.map Prod.snd).sum ≤ n ∧
      ((Spec.Unfinished maxLen (Spec.stretch (out 0) 0 (l.timestep - 1)) ∧ l.timestep = n ∧
          res = [(Spec.ret (Spec.stretch (out 0) 0 (n - 1)), n)]) ∨
       ((∀ j, j < res.length → ∃ s i e,
          (Spec.begun N maxLen out l.timestep)[j]? = some (s, i) ∧ i < N ∧ s ≤ e ∧ e < l.timestep ∧
          Spec.IsEpisode maxLen (Spec.stretch (out i) s e) ∧
          res[j]? = some (Spec.ret (Spec.stretch (out i) s e), (Spec.stretch (out i) s e).length)) ∧
        ∀ s i e, (Spec.begun N maxLen out l.timestep)[res.length]? = some (s, i) → s ≤ e → e < l.timestep →
          Spec.IsEpisode maxLen (Spec.stretch (out i) s e) →
          (res.map Prod.snd).sum + (Spec.stretch (out i) s e).length > n)) := by
  obtain ⟨l, res, T, hrun, hT, hT0, hinv, hterm⟩ := run_steps (maxLen := maxLen) (out := out) hN n 0
    (Loop.init N) (Inv.init N maxLen out) (by intro i _; simp [Spec.start]) hn (by omega)
  obtain ⟨hf1, hf2⟩ := hinv.firstUnfinished
  obtain ⟨k, k1, k3, k4, k5⟩ := terminate_steps (n := n) hinv hN
  have hsome : ∀ j, j < k → (l.dict j).isSome = true := fun j hj => hf2 j (by omega)
  -- what is known of the episodes returned
  have hcomplete : ∀ j, j < k → ∃ s i e,
      (Spec.begun N maxLen out l.timestep)[j]? = some (s, i) ∧ i < N ∧ s ≤ e ∧ e < l.timestep ∧
      Spec.IsEpisode maxLen (Spec.stretch (out i) s e) ∧
      ((List.range k).filterMap l.dict)[j]? =
        some (Spec.ret (Spec.stretch (out i) s e), (Spec.stretch (out i) s e).length) := by
    intro j hj
    obtain ⟨v, hv⟩ := Option.isSome_iff_exists.mp (hsome j hj)
    obtain ⟨s, i, e, g1, g2, g3, g4, g5⟩ := hinv.dict j v hv
    rw [hinv.timestep]
    refine ⟨s, i, e, g1, g2, g4.le, g3, g4.isEpisode, ?_⟩
    rw [(filterMap_getElem hsome).2 j hj, hv, g5, stretch_length]
  have hklen := (filterMap_getElem hsome).1
  have hksum := sum_lens hsome
  -- an episode that is complete at the end is in the dictionary
  have hdict : ∀ j s i e, (Spec.begun N maxLen out l.timestep)[j]? = some (s, i) → s ≤ e → e < T →
      Spec.IsEpisode maxLen (Spec.stretch (out i) s e) → l.dict j = none → False := by
    intro j s i e hb hse heT hep hnone
    rw [hinv.timestep] at hb
    have hj : j < l.next := by rw [hinv.next]; exact (List.getElem?_eq_some_iff.mp hb).1
    obtain ⟨i', hi', hij⟩ := hinv.open_ j hj hnone
    have hx := hinv.idx i' hi'
    rw [hij, hb] at hx
    simp only [Option.some.injEq, Prod.mk.injEq] at hx
    obtain ⟨hx1, hx2⟩ := hx
    subst hx2
    obtain ⟨y1, y2⟩ := start_const hx1.symm e hse heT
    have := (ends_stretch hse y1).mp hep.1
    rw [y2] at this
    cases this
  have hmax : ∀ s i e, (Spec.begun N maxLen out l.timestep)[k]? = some (s, i) → s ≤ e → e < l.timestep →
      Spec.IsEpisode maxLen (Spec.stretch (out i) s e) →
      (((List.range k).filterMap l.dict).map Prod.snd).sum + (Spec.stretch (out i) s e).length > n := by
    intro s i e hb hse he hep
    rw [hinv.timestep] at he
    have hkf : k < firstUnfinished l.dict l.next 0 := by
      by_contra hge
      have hkeq : k = firstUnfinished l.dict l.next 0 := by omega
      exact hdict k s i e hb hse he hep (by rw [hkeq]; exact hf1)
    obtain ⟨v, hv⟩ := Option.isSome_iff_exists.mp (hf2 k hkf)
    obtain ⟨s', i', e', g1, g2, g3, g4, g5⟩ := hinv.dict k v hv
    rw [hinv.timestep] at hb
    rw [g1] at hb
    simp only [Option.some.injEq, Prod.mk.injEq] at hb
    obtain ⟨hb1, hb2⟩ := hb
    subst hb1 hb2
    -- the end of an episode is unique
    have hee : e' = e := by
      rcases Nat.lt_trichotomy e' e with hlt | heq | hgt
      · exfalso
        apply hep.2 (e' + 1 - s') (by rw [stretch_length]; have := g4.le; omega)
        rw [take_stretch _ _ _ _ (by have := g4.le; omega) (by have := g4.le; omega)]
        have : s' + (e' + 1 - s') - 1 = e' := by have := g4.le; omega
        rw [this]
        exact (ends_stretch g4.le g4.start).mpr g4.ended
      · exact heq
      · exfalso
        obtain ⟨y1, y2⟩ := start_const g4.start e hse hgt
        have := (ends_stretch hse y1).mp hep.1
        rw [y2] at this
        cases this
    subst hee
    have h6 := (k4 hkf).1
    rw [List.range_succ, List.map_append, List.sum_append] at h6
    rw [hksum, stretch_length]
    simp [lenD, hv, g5] at h6
    exact h6
  -- episode 0 has at most `n` steps
  have hpos : 0 < firstUnfinished l.dict l.next 0 → 0 < k := by
    intro hf0
    by_contra hk0
    have hk0 : k = 0 := by omega
    subst hk0
    have h6 := (k4 hf0).1
    obtain ⟨v, hv⟩ := Option.isSome_iff_exists.mp (hf2 0 hf0)
    obtain ⟨s', i', e', g1, g2, g3, g4, g5⟩ := hinv.dict 0 v hv
    simp [lenD, hv, g5] at h6
    omega
  refine ⟨l, res, hrun, by rw [hinv.timestep]; exact hT, ?_⟩
  have hres : (res = (List.range k).filterMap l.dict ∧ 0 < k) ∨ (k = 0 ∧
      firstUnfinished l.dict l.next 0 = 0 ∧ ∃ u, u < N ∧ l.idx u = 0 ∧ res = [(l.r u, l.len u)] ∧ l.len u ≥ n) := by
    rcases Nat.lt_or_ge k (firstUnfinished l.dict l.next 0) with hk | hk
    · rw [(k4 hk).2] at hterm
      exact .inl ⟨(Option.some.inj hterm).symm, hpos (by omega)⟩
    · have hkeq : k = firstUnfinished l.dict l.next 0 := by omega
      obtain ⟨u, hu, hidx, ht⟩ := k5 hkeq
      rw [ht] at hterm
      rcases Nat.eq_zero_or_pos k with hk0 | hk0
      · right
        subst hk0
        simp only [List.range_zero, List.map_nil, List.sum_nil, if_true, Nat.zero_add] at hterm
        rw [if_neg (by omega)] at hterm
        split at hterm
        · next hl => exact ⟨rfl, hkeq.symm, u, hu, hidx, (Option.some.inj hterm).symm, hl⟩
        · cases hterm
      · left
        have : k ≠ 0 := by omega
        simp only [this, if_false] at hterm
        split at hterm
        · exact ⟨(Option.some.inj hterm).symm, hk0⟩
        · split at hterm
          · exact ⟨(Option.some.inj hterm).symm, hk0⟩
          · cases hterm
  rcases hres with ⟨hres, hk0⟩ | ⟨hk0, hf0, u, hu, hidx, hres, hlen⟩
  · subst hres
    refine ⟨?_, by rw [hksum]; exact k3, .inr ⟨?_, ?_⟩⟩
    · intro hc
      rw [hc] at hklen
      simp at hklen
      omega
    · rw [hklen]; exact hcomplete
    · rw [hklen]; exact hmax
  · have hx := hinv.idx u hu
    rw [hidx, begun_head N maxLen out hN] at hx
    simp only [Option.some.injEq, Prod.mk.injEq] at hx
    obtain ⟨hx1, hx2⟩ := hx
    subst hx2
    have hl := hinv.len 0 hu
    have hr := hinv.r 0 hu
    rw [← hx1, Nat.sub_zero] at hl hr
    have hTn : T = n := by omega
    subst hTn
    have hret : l.r 0 = Spec.ret (Spec.stretch (out 0) 0 (T - 1)) := by
      rw [hr]
      unfold Spec.ret Spec.stretch
      have : T - 1 + 1 - 0 = T := by omega
      rw [this, List.map_map]; rfl
    refine ⟨by rw [hres]; simp, by rw [hres]; simp [hl], .inl ⟨?_, hinv.timestep, ?_⟩⟩
    · rw [hinv.timestep]
      exact unfinished_stretch hx1.symm hT0
    · rw [hres, hl, hret]

/-- **C45 (batch, calls).** In every batch evaluation that ends, all environments are reset once at the
beginning; at every step the agent acts, the environments step, and the agent observes which environments
are done and which episodes are cut; then exactly the environments whose episode ended are reset.  On the last
step the agent is told that every episode is reset, and the environments are left alone. -/
theorem batch_evaluation_calls {N : Nat} {maxLen : Option Nat} {g : Goal} {out : Nat → Nat → Out R}
    {fuel : Nat} {l : Loop R} {res : List (R × Nat)}
    (h : batchRunEpisodes N maxLen g out fuel = some (l, res)) :
    0 < l.timestep ∧ l.calls = Spec.callsUpTo N maxLen out (l.timestep - 1) ++
      [.act, .step, .observe (Spec.dones N out (l.timestep - 1)) (List.replicate N true)] :=
  run_calls fuel 0 _ l res (Inv.init N maxLen out) rfl h

/-- Two environments: environment 0 has one episode of 5 steps, environment 1 episodes of 2 steps.  The two
episodes evaluated are the two that begin first, although two episodes of environment 1 finish before. -/
def exampleOut (i k : Nat) : Out Int :=
  if i = 0 then ⟨1, decide (k = 4), false⟩ else ⟨10, decide (k % 2 = 1), false⟩

example : (batchRunEpisodes 2 none (.episodes 2) exampleOut 20).map (fun x => (x.2, x.1.timestep))
    = some ([(5, 5), (20, 2)], 5) := by decide

example : (batchRunEpisodes 2 none (.steps 8) exampleOut 8).map (fun x => (x.2, x.1.timestep))
    = some ([(5, 5), (20, 2)], 5) := by decide

example : (batchRunEpisodes 2 none (.steps 4) exampleOut 4).map (fun x => (x.2, x.1.timestep))
    = some ([(4, 4)], 4) := by decide

example : Spec.begun 2 none exampleOut 5 = [(0, 0), (0, 1), (2, 1), (4, 1), (5, 0)] := by decide

end Pfrl.Eval.Batch
