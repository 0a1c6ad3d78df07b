import Verif.Train.BatchWithEval

/-!
# The calls of the evaluations in batch training (C113)

What `train_agent_batch_with_evaluation` does to the environments and to the agent in its evaluations: the model is that of
`Verif.Train.BatchWithEval`.  Agents with recurrent states rely on it: they forget the state of an episode when they are told
that it is over.
-/

namespace Pfrl.Train.BatchWithEval

open Pfrl.Train.WithEval (Env Ret Who EnvCall Verdict Outcome lowest mean)

variable {N : Nat} {σ α A O : Type}

/-! ## Specification -/

/-- A call on one of the environments that the evaluations use: these are the environments of the training if
`eval_env` is `None`. -/
def Spec.evalCall (shared : Bool) : Event N A O → Option (Fin N × Who × EnvCall A O)
  | .env w j c => if shared then some (j, w, c) else none
  | .evalEnv j c => if shared then none else some (j, .eval, c)
  | _ => none

/-- The last call on one of these environments, and who made it. -/
def Spec.lastEval (shared : Bool) (i : Fin N) (l : List (Event N A O)) : Option (Who × EnvCall A O) :=
  l.foldl (fun x e => match Spec.evalCall shared e with
    | some (j, w, c) => if j = i then some (w, c) else x
    | none => x) none

/-- The number of its steps since its last reset. -/
def Spec.played (shared : Bool) (i : Fin N) (l : List (Event N A O)) : Nat :=
  l.foldl (fun n e => match Spec.evalCall shared e with
    | some (j, _, .reset _) => if j = i then 0 else n
    | some (j, _, .step ..) => if j = i then n + 1 else n
    | none => n) 0

/-- The actions that an evaluation has chosen last, unless the environment has got its action already. -/
def Spec.picked (shared : Bool) (i : Fin N) (l : List (Event N A O)) : Option (Fin N → A) :=
  l.foldl (fun x e => match e with
    | .act .eval _ a => some a
    | e => match Spec.evalCall shared e with
      | some (j, _, _) => if j = i then none else x
      | none => x) none

/-- Of which episodes has the agent been told, when it observed an evaluation last, that they are over? -/
def Spec.told (l : List (Event N A O)) : Option (Fin N → Bool) :=
  l.foldl (fun x e => match e with
    | .observe .eval _ _ d r => some fun i => d i || r i
    | _ => x) none

/-- Is no evaluation under way?  The agent has not acted in one since the last score was written. -/
def Spec.idle (l : List (Event N A O)) : Bool :=
  l.foldl (fun x e => match e with
    | .act .eval _ _ => false
    | .scores _ _ _ => true
    | _ => x) true

/-- Has the episode of an evaluation ended with the last call, or been cut? -/
def Spec.overEval (c : Cfg) (i : Fin N) (l : List (Event N A O)) (k : EnvCall A O) : Prop :=
  WithEval.Spec.goesOn k = false ∨ c.evalLen = some (Spec.played c.shared i l) ∧ ∃ a o r d n, k = .step a o r d n

/-- What must be true of the past when a call is made on an environment in an evaluation: it gets the action just
chosen for it; it is reset when the evaluation begins or its episode is over, and only if the agent has been told that the
last episode is over. -/
def Spec.CallFits (c : Cfg) (past : List (Event N A O)) (i : Fin N) : EnvCall A O → Prop
  | .step a _ _ _ _ => ∃ as, Spec.picked c.shared i past = some as ∧ as i = a
  | .reset _ => (Spec.idle past = true ∨ ∃ k, Spec.lastEval c.shared i past = some (.eval, k) ∧ Spec.overEval c i past k) ∧
      ∀ f, Spec.told past = some f → f i = true

/-- What must be true of the past when something happens in an evaluation:
* the agent acts on the observations that the environments returned last, to the evaluation; none of the episodes is over; and
  where it has been told that an episode is over, the observation is the first of a new one;
* the calls on the environments fit, and they are made on the right environments;
* the agent observes what the steps returned, and which episodes were cut, or that all are;
* when a score is written, the agent has just been told that all episodes are over. -/
def Spec.EvalFits (c : Cfg) (past : List (Event N A O)) : Event N A O → Prop
  | .act .eval o _ => ∀ i, ∃ k, Spec.lastEval c.shared i past = some (.eval, k) ∧ WithEval.Spec.obsOf k = o i ∧
      ¬ Spec.overEval c i past k ∧ ∀ f, Spec.told past = some f → f i = true → ∃ x, k = .reset x
  | .env .eval i k => c.shared = true ∧ Spec.CallFits c past i k
  | .evalEnv i k => c.shared = false ∧ Spec.CallFits c past i k
  | .observe .eval o r done reset => (∀ i, ∃ a n, Spec.lastEval c.shared i past = some (.eval, .step a (o i) (r i) (done i) n) ∧
        (c.evalLen = some (Spec.played c.shared i past) ∨ n = true → reset i = true) ∧
        (reset i = true → (c.evalLen = some (Spec.played c.shared i past) ∨ n = true) ∨ ∀ j, reset j = true))
  | .scores _ _ _ => ∃ past' o r done reset, past = past' ++ [.observe .eval o r done reset] ∧ ∀ i, reset i = true
  | _ => True

/-- All evaluations are in order. -/
def Spec.Proper (c : Cfg) (log : List (Event N A O)) : Prop :=
  ∀ past e rest, log = past ++ e :: rest → Spec.EvalFits c past e

/-! ## Lemmas -/

theorem proper_nil (c : Cfg) : Spec.Proper c ([] : List (Event N A O)) := by
  intro past e rest h
  exact absurd h (by simp)

theorem proper_snoc {c : Cfg} {l : List (Event N A O)} {e : Event N A O} (h : Spec.Proper c l)
    (he : Spec.EvalFits c l e) : Spec.Proper c (l ++ [e]) := by
  intro past e' rest hh
  rcases List.eq_nil_or_concat rest with rfl | ⟨r, x, rfl⟩
  · obtain ⟨h1, h2⟩ := List.append_inj' hh rfl
    rw [← h1, ← List.singleton_inj.mp h2]; exact he
  · rw [List.concat_eq_append, ← List.cons_append, ← List.append_assoc] at hh
    obtain ⟨h1, -⟩ := List.append_inj' hh rfl
    exact h past e' r h1

/-- A call of an evaluation on one of its environments. -/
def ev (shared : Bool) (i : Fin N) (c : EnvCall A O) : Event N A O := if shared then .env .eval i c else .evalEnv i c

theorem evalCall_ev (sh : Bool) (j : Fin N) (c : EnvCall A O) : Spec.evalCall sh (ev sh j c) = some (j, .eval, c) := by
  cases sh <;> rfl

theorem lastEval_ev (sh : Bool) (i j : Fin N) (l : List (Event N A O)) (c : EnvCall A O) :
    Spec.lastEval sh i (l ++ [ev sh j c]) = if j = i then some (.eval, c) else Spec.lastEval sh i l := by
  unfold Spec.lastEval; rw [List.foldl_append]
  simp only [List.foldl_cons, List.foldl_nil, evalCall_ev]

theorem played_step (sh : Bool) (i j : Fin N) (l : List (Event N A O)) (a : A) (o : O) (r : ℚ) (d n : Bool) :
    Spec.played sh i (l ++ [ev sh j (.step a o r d n)]) = if j = i then Spec.played sh i l + 1 else Spec.played sh i l := by
  unfold Spec.played; rw [List.foldl_append]
  simp only [List.foldl_cons, List.foldl_nil, evalCall_ev]

theorem played_reset (sh : Bool) (i j : Fin N) (l : List (Event N A O)) (o : O) :
    Spec.played sh i (l ++ [ev sh j (.reset o)]) = if j = i then 0 else Spec.played sh i l := by
  unfold Spec.played; rw [List.foldl_append]
  simp only [List.foldl_cons, List.foldl_nil, evalCall_ev]

theorem picked_ev (sh : Bool) (i j : Fin N) (l : List (Event N A O)) (c : EnvCall A O) :
    Spec.picked sh i (l ++ [ev sh j c]) = if j = i then none else Spec.picked sh i l := by
  unfold Spec.picked; rw [List.foldl_append]
  cases sh <;> rfl

theorem told_ev (sh : Bool) (j : Fin N) (l : List (Event N A O)) (c : EnvCall A O) :
    Spec.told (l ++ [ev sh j c]) = Spec.told l := by
  unfold Spec.told; rw [List.foldl_append]
  cases sh <;> rfl

theorem idle_ev (sh : Bool) (j : Fin N) (l : List (Event N A O)) (c : EnvCall A O) :
    Spec.idle (l ++ [ev sh j c]) = Spec.idle l := by
  unfold Spec.idle; rw [List.foldl_append]
  cases sh <;> rfl

theorem fits_ev {c : Cfg} {l : List (Event N A O)} {j : Fin N} {k : EnvCall A O} (h : Spec.CallFits c l j k) :
    Spec.EvalFits c l (ev c.shared j k) := by
  unfold ev
  cases hs : c.shared with
  | true => exact ⟨hs, h⟩
  | false => exact ⟨hs, h⟩

/-- An event that has nothing to do with evaluations. -/
def Calm : Event N A O → Prop
  | .env .eval _ _ => False
  | .evalEnv _ _ => False
  | .act .eval _ _ => False
  | .observe .eval _ _ _ _ => False
  | .scores _ _ _ => False
  | _ => True

/-- No evaluation is under way. -/
structure Resting (c : Cfg) (l : List (Event N A O)) : Prop where
  proper : Spec.Proper c l
  idle : Spec.idle l = true
  told : ∀ f, Spec.told l = some f → ∀ i, f i = true

theorem calm_told (l : List (Event N A O)) {e : Event N A O} (h : Calm e) : Spec.told (l ++ [e]) = Spec.told l := by
  unfold Spec.told; rw [List.foldl_append]
  cases e with
  | act w o a => rfl
  | observe w o r d x => cases w with
    | train => rfl
    | eval => exact absurd h (by simp [Calm])
  | _ => rfl

theorem calm_idle (l : List (Event N A O)) {e : Event N A O} (h : Calm e) : Spec.idle (l ++ [e]) = Spec.idle l := by
  unfold Spec.idle; rw [List.foldl_append]
  cases e with
  | act w o a => cases w with
    | train => rfl
    | eval => exact absurd h (by simp [Calm])
  | scores t e m => exact absurd h (by simp [Calm])
  | _ => rfl

theorem calm_fits (c : Cfg) (l : List (Event N A O)) {e : Event N A O} (h : Calm e) : Spec.EvalFits c l e := by
  cases e with
  | act w o a => cases w with
    | train => trivial
    | eval => exact absurd h (by simp [Calm])
  | observe w o r d x => cases w with
    | train => trivial
    | eval => exact absurd h (by simp [Calm])
  | env w i k => cases w with
    | train => trivial
    | eval => exact absurd h (by simp [Calm])
  | evalEnv i k => exact absurd h (by simp [Calm])
  | scores t e m => exact absurd h (by simp [Calm])
  | saveBest => trivial
  | save t x => trivial

theorem Resting.snoc {c : Cfg} {l : List (Event N A O)} (h : Resting c l) {e : Event N A O} (he : Calm e) :
    Resting c (l ++ [e]) :=
  ⟨proper_snoc h.proper (calm_fits c l he), (calm_idle l he).trans h.idle, by rw [calm_told l he]; exact h.told⟩

theorem Resting.append {c : Cfg} : ∀ {l : List (Event N A O)} (_ : Resting c l) (le : List (Event N A O)),
    (∀ e ∈ le, Calm e) → Resting c (l ++ le)
  | l, h, [], _ => by rw [List.append_nil]; exact h
  | l, h, e :: le, hq => by
    have := (h.snoc (hq e List.mem_cons_self)).append le fun x hx => hq x (List.mem_cons_of_mem _ hx)
    rw [List.append_assoc, List.singleton_append] at this
    exact this

/-- Stepping some of the environments. -/
theorem evalSteps_append (c : Cfg) (as : Fin N → A) (o : Fin N → O) (r : Fin N → ℚ) (d n : Fin N → Bool) :
    ∀ (js : List (Fin N)) (l : List (Event N A O)), js.Nodup → (∀ j ∈ js, Spec.picked c.shared j l = some as) →
      (Spec.Proper c l → Spec.Proper c (l ++ js.map fun j => ev c.shared j (.step (as j) (o j) (r j) (d j) (n j)))) ∧
      ∀ i, Spec.lastEval c.shared i (l ++ js.map fun j => ev c.shared j (.step (as j) (o j) (r j) (d j) (n j))) =
          (if i ∈ js then some (.eval, .step (as i) (o i) (r i) (d i) (n i)) else Spec.lastEval c.shared i l) ∧
        Spec.played c.shared i (l ++ js.map fun j => ev c.shared j (.step (as j) (o j) (r j) (d j) (n j))) =
          if i ∈ js then Spec.played c.shared i l + 1 else Spec.played c.shared i l
  | [], l, _, _ => by simp
  | j :: js, l, hn, hc => by
    obtain ⟨hj, hn⟩ := List.nodup_cons.mp hn
    have hjs : ∀ k ∈ js, Spec.picked c.shared k (l ++ [ev c.shared j (.step (as j) (o j) (r j) (d j) (n j))]) = some as := by
      intro k hk
      have : j ≠ k := fun e => hj (e ▸ hk)
      rw [picked_ev, if_neg this]
      exact hc k (List.mem_cons_of_mem _ hk)
    obtain ⟨h1, h2⟩ := evalSteps_append c as o r d n js _ hn hjs
    rw [List.append_assoc, List.singleton_append] at h1
    refine ⟨fun hl => h1 (proper_snoc hl (fits_ev ⟨as, hc j List.mem_cons_self, rfl⟩)), fun i => ?_⟩
    have := h2 i
    rw [List.append_assoc, List.singleton_append, lastEval_ev, played_step] at this
    rw [List.map_cons, this.1, this.2]
    by_cases e : j = i
    · subst e; simp [hj]
    · have e' : ¬ i = j := fun h => e h.symm
      simp [e, e']

/-- Resetting some of the environments. -/
theorem evalResets_append (c : Cfg) (o : Fin N → O) :
    ∀ (js : List (Fin N)) (l : List (Event N A O)), js.Nodup →
      (∀ j ∈ js, Spec.idle l = true ∨ ∃ k, Spec.lastEval c.shared j l = some (.eval, k) ∧ Spec.overEval c j l k) →
      (∀ j ∈ js, ∀ f, Spec.told l = some f → f j = true) →
      (Spec.Proper c l → Spec.Proper c (l ++ js.map fun j => ev c.shared j (.reset (o j)))) ∧
      (∀ i, Spec.lastEval c.shared i (l ++ js.map fun j => ev c.shared j (.reset (o j))) =
          (if i ∈ js then some (.eval, .reset (o i)) else Spec.lastEval c.shared i l) ∧
        Spec.played c.shared i (l ++ js.map fun j => ev c.shared j (.reset (o j))) =
          if i ∈ js then 0 else Spec.played c.shared i l) ∧
      Spec.told (l ++ js.map fun j => ev c.shared j (.reset (o j))) = Spec.told l
  | [], l, _, _, _ => by simp
  | j :: js, l, hn, hc, ht => by
    obtain ⟨hj, hn⟩ := List.nodup_cons.mp hn
    have hjs : ∀ k ∈ js, Spec.idle (l ++ [ev c.shared j (.reset (o j))]) = true ∨
        ∃ x, Spec.lastEval c.shared k (l ++ [ev c.shared j (.reset (o j))]) = some (.eval, x) ∧
          Spec.overEval c k (l ++ [ev c.shared j (.reset (o j))]) x := by
      intro k hk
      have : j ≠ k := fun e => hj (e ▸ hk)
      unfold Spec.overEval
      rw [lastEval_ev, if_neg this, played_reset, if_neg this, idle_ev]
      exact hc k (List.mem_cons_of_mem _ hk)
    have hts : ∀ k ∈ js, ∀ f, Spec.told (l ++ [ev c.shared j (.reset (o j))]) = some f → f k = true := by
      intro k hk
      rw [told_ev]
      exact ht k (List.mem_cons_of_mem _ hk)
    obtain ⟨h1, h2, h3⟩ := evalResets_append c o js _ hn hjs hts
    rw [List.append_assoc, List.singleton_append] at h1
    refine ⟨fun hl => h1 (proper_snoc hl (fits_ev ⟨hc j List.mem_cons_self, ht j List.mem_cons_self⟩)), fun i => ?_, ?_⟩
    · have := h2 i
      rw [List.append_assoc, List.singleton_append, lastEval_ev, played_reset] at this
      rw [List.map_cons, this.1, this.2]
      by_cases e : j = i
      · subst e; simp
      · have e' : ¬ i = j := fun h => e h.symm
        simp [e, e']
    · rw [List.append_assoc, List.singleton_append, told_ev] at h3
      exact h3

/-- The vector environment that evaluations use. -/
def evVec (S : Setup N σ α A O) (s : St N σ α A O) : Vec N σ O := if S.c.shared then s.env else s.evalEnv

theorem ev_step (S : Setup N σ α A O) (s : St N σ α A O) (a : Fin N → A) :
    (s.step S .eval a).1.log = s.log ++ (List.finRange N).map (fun i => ev S.c.shared i (.step (a i)
      ((s.step S .eval a).2 i).obs ((s.step S .eval a).2 i).reward ((s.step S .eval a).2 i).done
      ((s.step S .eval a).2 i).needsReset)) ∧
    (∀ i, (evVec S (s.step S .eval a).1).last i = some ((s.step S .eval a).2 i).obs) := by
  unfold St.step evVec ev Setup.separate
  cases hs : S.c.shared <;> simp [Vec.step, Function.comp_def]

theorem ev_reset (S : Setup N σ α A O) (s : St N σ α A O) (mask : Fin N → Bool) :
    ∃ oo : Fin N → O, (s.reset S .eval mask).1.log = s.log ++ ((List.finRange N).filter fun i => !mask i).map
      (fun i => ev S.c.shared i (.reset (oo i))) ∧
    ∀ i, (s.reset S .eval mask).2 i = if mask i then (evVec S s).last i else some (oo i) := by
  unfold St.reset evVec ev Setup.separate
  cases hs : S.c.shared
  · refine ⟨fun i => ((S.evalEnv i).reset (s.evalEnv.state i)).2, ?_⟩
    simp [Vec.reset, Function.comp_def]
  · refine ⟨fun i => ((S.env i).reset (s.env.state i)).2, ?_⟩
    simp [Vec.reset, Function.comp_def]

/-- The evaluation is about to act. -/
structure Acting (S : Setup N σ α A O) (s : St N σ α A O) (o : Fin N → O) (len : Nat → Nat) : Prop where
  proper : Spec.Proper S.c s.log
  call : ∀ i, ∃ k, Spec.lastEval S.c.shared i s.log = some (.eval, k) ∧ WithEval.Spec.obsOf k = o i ∧
    ¬ Spec.overEval S.c i s.log k ∧ ∀ f, Spec.told s.log = some f → f i = true → ∃ x, k = .reset x
  len : ∀ i : Fin N, Spec.played S.c.shared i s.log = len i

/-- The evaluation has just ended. -/
structure Closed (c : Cfg) (l : List (Event N A O)) : Prop where
  proper : Spec.Proper c l
  last : ∃ past' o r done reset, l = past' ++ [.observe .eval o r done reset] ∧ ∀ i, reset i = true

theorem not_over_reset (c : Cfg) (i : Fin N) (l : List (Event N A O)) (o : O) : ¬ Spec.overEval c i l (.reset o) := by
  rintro (h | ⟨-, a, o, r, d, n, h⟩)
  · simp [WithEval.Spec.goesOn] at h
  · cases h

theorem advance_len (maxLen : Option Nat) (l : Eval.Batch.Loop ℚ) (r : Fin N → Ret σ O) (i : Fin N) :
    (l.advance N maxLen (outs r)).len i =
      if decide (some (l.len i + 1) = maxLen) || (r i).needsReset || (r i).done then 0 else l.len i + 1 := by
  have hlen : ∀ (e : Nat → Bool) (js : List Nat) (l : Eval.Batch.Loop ℚ), (Eval.Batch.assign e js l).len = l.len := by
    intro e js
    induction js with
    | nil => intro l; rfl
    | cons j js ih =>
      intro l
      unfold Eval.Batch.assign
      split
      · rw [ih]
      · exact ih l
  unfold Eval.Batch.Loop.advance
  simp only [hlen, outs, i.isLt, dif_pos, Fin.eta]

theorem evalLoop_proper {S : Setup N σ α A O} : ∀ (fuel : Nat) (s : St N σ α A O) (o : Fin N → O) (l : Eval.Batch.Loop ℚ),
    Acting S s o l.len → Spec.Proper S.c (evalLoop S fuel s o l).1.log ∧
      ((evalLoop S fuel s o l).2 ≠ none → Closed S.c (evalLoop S fuel s o l).1.log)
  | 0, s, o, l, h => ⟨h.proper, fun hn => absurd rfl hn⟩
  | fuel + 1, s, o, l, h => by
    rw [evalLoop]
    simp only
    set a := (s.act S .eval o).2 with ha
    set s1 := (s.act S .eval o).1 with hs1
    have hlog1 : s1.log = s.log ++ [.act .eval o a] := rfl
    have hp1 : Spec.Proper S.c s1.log := by rw [hlog1]; exact proper_snoc h.proper h.call
    obtain ⟨hlog2, hlast2⟩ := ev_step S s1 a
    set y := s1.step S .eval a with hy
    obtain ⟨hp2, hall⟩ := evalSteps_append S.c a (fun i => (y.2 i).obs) (fun i => (y.2 i).reward) (fun i => (y.2 i).done)
      (fun i => (y.2 i).needsReset) (List.finRange N) s1.log (List.nodup_finRange N)
      (fun j _ => by rw [hlog1]; unfold Spec.picked; rw [List.foldl_append]; rfl)
    rw [← hlog2] at hp2 hall
    have hp2 := hp2 hp1
    have hlast : ∀ i, Spec.lastEval S.c.shared i y.1.log =
        some (.eval, .step (a i) (y.2 i).obs (y.2 i).reward (y.2 i).done (y.2 i).needsReset) := by
      intro i
      have := (hall i).1
      rw [if_pos (List.mem_finRange i)] at this
      exact this
    have hact : ∀ i, Spec.played S.c.shared i s1.log = l.len i := by
      intro i
      rw [← h.len i, hlog1]
      unfold Spec.played; rw [List.foldl_append]; rfl
    have hlen : ∀ i, Spec.played S.c.shared i y.1.log = l.len i + 1 := by
      intro i
      have := (hall i).2
      rw [if_pos (List.mem_finRange i), hact i] at this
      exact this
    set resets : Fin N → Bool := fun i => decide (some (l.len i + 1) = S.c.evalLen) || (y.2 i).needsReset with hresets
    have hres : ∀ i, resets i = true ↔ S.c.evalLen = some (Spec.played S.c.shared i y.1.log) ∨ (y.2 i).needsReset = true := by
      intro i
      rw [hlen i]
      simp only [hresets, Bool.or_eq_true, decide_eq_true_eq]
      exact or_congr_left eq_comm
    split
    · next res hres' =>
      have hc : Closed S.c (y.1.observe S .eval y.2 fun _ => true).log := by
        refine ⟨proper_snoc hp2 ?_, y.1.log, _, _, _, fun _ => true, rfl, fun _ => rfl⟩
        intro i
        exact ⟨a i, (y.2 i).needsReset, hlast i, fun _ => rfl, fun _ => Or.inr fun _ => rfl⟩
      exact ⟨hc.proper, fun _ => hc⟩
    · next hres' =>
      set s3 := y.1.observe S .eval y.2 resets with hs3
      have hlog3 : s3.log = y.1.log ++ [.observe .eval (fun i => (y.2 i).obs) (fun i => (y.2 i).reward)
        (fun i => (y.2 i).done) resets] := rfl
      have hp3 : Spec.Proper S.c s3.log := by
        rw [hlog3]
        refine proper_snoc hp2 ?_
        intro i
        exact ⟨a i, (y.2 i).needsReset, hlast i, (hres i).mpr, fun h => Or.inl ((hres i).mp h)⟩
      have hlast3 : ∀ i, Spec.lastEval S.c.shared i s3.log =
          some (.eval, .step (a i) (y.2 i).obs (y.2 i).reward (y.2 i).done (y.2 i).needsReset) := by
        intro i
        rw [← hlast i, hlog3]
        unfold Spec.lastEval; rw [List.foldl_append]; rfl
      have hlen3 : ∀ i, Spec.played S.c.shared i s3.log = l.len i + 1 := by
        intro i
        rw [← hlen i, hlog3]
        unfold Spec.played; rw [List.foldl_append]; rfl
      have htold : Spec.told s3.log = some fun i => (y.2 i).done || resets i := by
        rw [hlog3]
        unfold Spec.told; rw [List.foldl_append]; rfl
      have hover : ∀ i, (resets i || (y.2 i).done) = true ↔ Spec.overEval S.c i s3.log
          (.step (a i) (y.2 i).obs (y.2 i).reward (y.2 i).done (y.2 i).needsReset) := by
        intro i
        unfold Spec.overEval
        rw [Bool.or_eq_true, hres i, hlen i, hlen3 i]
        constructor
        · rintro ((h | h) | h)
          · exact Or.inr ⟨h, _, _, _, _, _, rfl⟩
          · left; simp [WithEval.Spec.goesOn, h]
          · left; simp [WithEval.Spec.goesOn, h]
        · rintro (h | ⟨h, -⟩)
          · simp only [WithEval.Spec.goesOn] at h
            cases hd : (y.2 i).done with
            | true => exact Or.inr rfl
            | false => exact Or.inl (Or.inr (by simpa [hd] using h))
          · exact Or.inl (Or.inl h)
      refine evalLoop_proper fuel _ _ _ ?_
      obtain ⟨oo, hlog4, hobs⟩ := ev_reset S s3 (fun i => !(resets i || (y.2 i).done))
      set z := s3.reset S .eval (fun i => !(resets i || (y.2 i).done)) with hz
      have hmem : ∀ i, i ∈ (List.finRange N).filter (fun i => !!(resets i || (y.2 i).done)) ↔
          (resets i || (y.2 i).done) = true := by
        intro i; simp
      obtain ⟨hp4, h4, ht4⟩ := evalResets_append S.c oo
        ((List.finRange N).filter fun i => !!(resets i || (y.2 i).done)) s3.log ((List.nodup_finRange N).filter _)
        (fun j hj => Or.inr ⟨_, hlast3 j, (hover j).mp ((hmem j).mp hj)⟩)
        (by
          intro j hj f hf
          rw [htold] at hf
          rw [← Option.some.inj hf]
          have := (hmem j).mp hj
          rw [Bool.or_comm] at this
          exact this)
      rw [← hlog4] at hp4 h4 ht4
      refine ⟨hp4 hp3, fun i => ?_, fun i => ?_⟩
      · have hh := (h4 i).1
        have hl := (h4 i).2
        simp only [hmem] at hh hl
        by_cases he : (resets i || (y.2 i).done) = true
        · rw [if_pos he] at hh hl
          refine ⟨_, hh, ?_, not_over_reset _ _ _ _, fun _ _ _ => ⟨_, rfl⟩⟩
          rw [hobs i, he]
          rfl
        · rw [if_neg he] at hh hl
          refine ⟨_, hh.trans (hlast3 i), ?_, ?_, ?_⟩
          · have he' : (resets i || (y.2 i).done) = false := by simpa using he
            rw [hobs i, he']
            have hv : (evVec S s3).last i = some (y.2 i).obs := hlast2 i
            simp only [Bool.not_false, if_true]
            rw [hv]
            rfl
          · intro ho
            refine he ((hover i).mpr ?_)
            unfold Spec.overEval at ho ⊢
            rw [hl] at ho
            exact ho
          · intro f hf hfi
            rw [ht4, htold] at hf
            rw [← Option.some.inj hf] at hfi
            exact absurd (by rw [Bool.or_comm]; exact hfi) he
      · have hl := (h4 i).2
        simp only [hmem] at hl
        rw [hl, advance_len, hlen3 i]

theorem evaluate_proper {S : Setup N σ α A O} (fuel : Nat) {s : St N σ α A O} (h : Resting S.c s.log)
    (o : Fin N → O) (t e : Nat) : Spec.Proper S.c (evaluate S fuel s o t e).1.log ∧
      ((evaluate S fuel s o t e).2 ≠ .stuck → Resting S.c (evaluate S fuel s o t e).1.log) := by
  obtain ⟨oo, hlog, hobs⟩ := ev_reset S s (fun _ => false)
  have hmem : ∀ i, i ∈ (List.finRange N).filter (fun _ => !false) := by
    intro i; simp
  obtain ⟨hp4, h4, ht4⟩ := evalResets_append S.c oo ((List.finRange N).filter fun _ => !false) s.log
    ((List.nodup_finRange N).filter _) (fun _ _ => Or.inl h.idle) (fun j _ f hf => h.told f hf j)
  rw [← hlog] at hp4 h4 ht4
  have hacting : Acting S (s.reset S .eval fun _ => false).1 (fun i => ((s.reset S .eval fun _ => false).2 i).getD (o i))
      (Eval.Batch.Loop.init N : Eval.Batch.Loop ℚ).len := by
    refine ⟨hp4 h.proper, fun i => ?_, fun i => ?_⟩
    · have hh := (h4 i).1
      rw [if_pos (hmem i)] at hh
      refine ⟨_, hh, ?_, not_over_reset _ _ _ _, fun _ _ _ => ⟨_, rfl⟩⟩
      rw [hobs i]; rfl
    · have hl := (h4 i).2
      rw [if_pos (hmem i)] at hl
      exact hl
  obtain ⟨hl1, hl2⟩ := evalLoop_proper fuel _ _ _ hacting
  unfold evaluate
  simp only
  set y := evalLoop S fuel (s.reset S .eval fun _ => false).1
    (fun i => ((s.reset S .eval fun _ => false).2 i).getD (o i)) (.init N) with hy
  split
  · exact ⟨hl1, fun h => absurd rfl h⟩
  · next scores hsc =>
    have hc := hl2 (by rw [hsc]; exact Option.some_ne_none _)
    have hrest : Resting S.c (y.1.log ++ [.scores t e (mean scores)]) := by
      refine ⟨proper_snoc hc.proper hc.last, ?_, ?_⟩
      · unfold Spec.idle; rw [List.foldl_append]; rfl
      · intro f hf i
        obtain ⟨past', o', r, d, x, hl, hx⟩ := hc.last
        have : Spec.told (y.1.log ++ [.scores t e (mean scores)]) = some fun i => d i || x i := by
          rw [hl]
          unfold Spec.told; rw [List.foldl_append, List.foldl_append]; rfl
        rw [this] at hf
        rw [← Option.some.inj hf]
        simp [hx i]
    split
    · have hb : Resting S.c (if S.c.saveBest then (y.1.log ++ [.scores t e (mean scores)]) ++ [.saveBest]
          else y.1.log ++ [.scores t e (mean scores)]) := by
        split
        · exact hrest.snoc trivial
        · exact hrest
      exact ⟨hb.proper, fun _ => hb⟩
    · exact ⟨hrest.proper, fun _ => hrest⟩

theorem evaluateIfNecessary_proper {S : Setup N σ α A O} (fuel : Nat) {s : St N σ α A O} (h : Resting S.c s.log)
    (o : Fin N → O) (t e : Nat) : Spec.Proper S.c (evaluateIfNecessary S fuel s o t e).1.log ∧
      ((evaluateIfNecessary S fuel s o t e).2 ≠ .stuck → Resting S.c (evaluateIfNecessary S fuel s o t e).1.log) := by
  obtain ⟨h1, h2⟩ := evaluate_proper fuel h o t e
  unfold evaluateIfNecessary
  split
  · simp only
    split
    · next m hm => exact ⟨h1, fun _ => h2 (by rw [hm]; exact fun h => by cases h)⟩
    · next v hv => exact ⟨h1, h2⟩
  · exact ⟨h.proper, fun _ => h⟩

theorem train_reset_resting {S : Setup N σ α A O} {s : St N σ α A O} (h : Resting S.c s.log) (mask : Fin N → Bool) :
    Resting S.c (s.reset S .train mask).1.log := by
  rw [train_reset]
  refine h.append _ ?_
  intro e he
  obtain ⟨i, -, rfl⟩ := List.mem_map.mp he
  trivial

theorem advance_resting {S : Setup N σ α A O} {s : St N σ α A O} (h : Resting S.c s.log) (o : Fin N → O)
    (len : Fin N → Nat) : Resting S.c (s.advance S o len).1.log := by
  unfold St.advance
  simp only
  rw [train_step]
  refine Resting.snoc (Resting.append (l := s.log ++ [.act .train o (s.act S .train o).2]) (h.snoc (e := .act .train o (s.act S .train o).2) trivial) _ ?_) (e := .observe .train _ _ _ _) trivial
  intro e he
  obtain ⟨i, -, rfl⟩ := List.mem_map.mp he
  trivial

theorem trainLoop_proper {S : Setup N σ α A O} (fuelE : Nat) :
    ∀ (fuel : Nat) (s : St N σ α A O) (o : Fin N → O) (len : Fin N → Nat) (idx t : Nat) (history : List ℚ),
      Resting S.c s.log → Spec.Proper S.c (trainLoop S fuelE fuel s o len idx t history).1.log
  | 0, s, _, _, _, _, _, h => h.proper
  | fuel + 1, s, o, len, idx, t, history, h => by
    have hm := advance_resting h o len
    rw [trainLoop]
    simp only
    set x := s.advance S o len with hx
    set idx' := idx + ((List.finRange N).filter fun i => x.2.2 i).length with hidx
    have hm' : Spec.Proper S.c (if S.c.evaluator = true then evaluateIfNecessary S fuelE x.1 o (t + N) idx' else (x.1, .notDue)).1.log ∧
        ((if S.c.evaluator = true then evaluateIfNecessary S fuelE x.1 o (t + N) idx' else (x.1, .notDue)).2 ≠ .stuck →
        Resting S.c (if S.c.evaluator = true then evaluateIfNecessary S fuelE x.1 o (t + N) idx' else (x.1, .notDue)).1.log) := by
      split
      · exact evaluateIfNecessary_proper fuelE hm o (t + N) idx'
      · exact ⟨hm.proper, fun _ => hm⟩
    generalize (if S.c.evaluator = true then evaluateIfNecessary S fuelE x.1 o (t + N) idx' else (x.1, .notDue)) = y at hm' ⊢
    split
    · exact hm'.1
    · next hv =>
      have hr := hm'.2 hv
      split
      · exact (hr.snoc (e := .save (t + N) .finish) trivial).proper
      · split
        · exact (hr.snoc (e := .save (t + N) .finish) trivial).proper
        · exact trainLoop_proper fuelE fuel _ _ _ _ _ _ (train_reset_resting hr _)

/-! ## C113 -/

/-- **C113 (the evaluations are in order).** However the environments and the agent behave, and whether or not the
evaluations have environments of their own: in every evaluation the agent acts on the observations that the environments returned
last, in episodes that are not over; each environment gets the action chosen for it; the agent observes what came of it; it is told
that an episode is over, or cut, before the environment is reset, and environments are reset only then and when an evaluation
begins; and when the evaluation ends, the agent has been told that all its episodes are over, so that no recurrent state of one evaluation
is used in the next. -/
theorem batch_evaluation_proper (S : Setup N σ α A O)
    (fuelE fuel : Nat) (env evalEnv : Fin N → σ) (agent : α) (o : Fin N → O) {r : St N σ α A O × Outcome}
    (h : train S fuelE fuel env evalEnv agent o = .ok r) : Spec.Proper S.c r.1.log := by
  unfold train at h
  split at h
  · exact absurd h (by simp)
  · rw [← Except.ok.inj h]
    exact trainLoop_proper fuelE fuel _ _ _ _ _ _ (train_reset_resting ⟨proper_nil _, rfl, fun f hf => by cases hf⟩ _)

/-! ### Non-vacuity -/

/-- The example of `Verif.Train.BatchWithEval` with the environments of the training: three evaluations. -/
example : Spec.Proper (exSetup true).c (exRun true).1.log ∧ (exRun true).2 = .finished [10, 20, 30] ∧
    ((exRun true).1.log.filter fun e => match e with
      | .act .eval _ _ => true
      | _ => false).length = 15 :=
  ⟨batch_evaluation_proper (exSetup true) 10 10 (fun _ => (0, 0)) (fun _ => (0, 0)) 0 (fun _ => 0) rfl, by decide +kernel,
    by decide +kernel⟩

/-- A log in which the environment is reset although the agent has not been told that the episode is over. -/
example : ¬ Spec.Proper (exSetup false).c ([.evalEnv 0 (.reset 0), .evalEnv 1 (.reset 0), .act .eval (fun _ => 0) (fun _ => 1),
    .evalEnv 0 (.step 1 5 1 true false), .evalEnv 1 (.step 1 6 1 false true),
    .observe .eval (fun i => 5 + i) (fun _ => 1) (fun i => i == 0) (fun _ => false), .evalEnv 1 (.reset 0)] : List (Event 2 Nat Nat)) := by
  intro h
  have h1 := h [.evalEnv 0 (.reset 0), .evalEnv 1 (.reset 0), .act .eval (fun _ => 0) (fun _ => 1),
    .evalEnv 0 (.step 1 5 1 true false), .evalEnv 1 (.step 1 6 1 false true),
    .observe .eval (fun i => 5 + i) (fun _ => 1) (fun i => i == 0) (fun _ => false)] _ [] rfl
  exact absurd (h1.2.2 _ rfl) (by decide)

end Pfrl.Train.BatchWithEval
