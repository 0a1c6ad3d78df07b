import Verif.Batch.Model
import Verif.Replay.Props
import Mathlib.Tactic.Ring
import Mathlib.Algebra.BigOperators.Ring.List

/-!
# n-step targets (C21) and the replay update schedule (C22)
-/

set_option linter.unusedSectionVars false

namespace Pfrl.Batch

variable {S A R F : Type _} [CommRing R]

/-! ## Specification -/

/-- The discounted return of a sequence of transitions, bootstrapped with `V` at its end, computed
by one-step Bellman backups from the last transition to the first; nothing is added after a
terminal transition. -/
def Spec.backup (gamma : R) (V : S → R) : List (Trans S A R) → R
  | [] => 0
  | [t] => t.reward + gamma * (if t.terminal then 0 else V t.nextState)
  | t :: rest => t.reward + gamma * (if t.terminal then 0 else Spec.backup gamma V rest)

/-- Only the last transition may be terminal. -/
def Spec.TerminalOnlyLast (exp : List (Trans S A R)) : Prop :=
  ∀ t ∈ exp.dropLast, t.terminal = false

/-! ## Lemmas -/

theorem reward_cons (gamma : R) (t : Trans S A R) (rest : List (Trans S A R)) :
    reward gamma (t :: rest) = t.reward + gamma * reward gamma rest := by
  unfold reward
  rw [List.length_cons, List.range_succ_eq_map, List.map_cons, List.sum_cons, List.map_map]
  simp only [pow_zero, one_mul, List.getElem?_cons_zero, Option.map_some, Option.getD_some]
  congr 1
  rw [← List.sum_map_mul_left]
  congr 1
  apply List.map_congr_left
  intro i _
  simp only [Function.comp, List.getElem?_cons_succ, Nat.succ_eq_add_one]
  ring

theorem mapM_first_ok {α : Type _} : ∀ {exps : List (List α)}, (∀ e ∈ exps, e ≠ []) →
    ∃ fs, exps.mapM first = .ok fs ∧ List.Forall₂ (fun e t => e.head? = some t) exps fs := by
  intro exps
  induction exps with
  | nil => intro _; exact ⟨[], rfl, .nil⟩
  | cons e es ih =>
    intro h
    obtain ⟨fs, h1, h2⟩ := ih fun e' he' => h e' (by simp [he'])
    obtain ⟨t, r, rfl⟩ := List.exists_cons_of_ne_nil (h e (by simp))
    refine ⟨t :: fs, ?_, .cons rfl h2⟩
    rw [List.mapM_cons, h1]; rfl

theorem mapM_last_ok {α : Type _} : ∀ {exps : List (List α)}, (∀ e ∈ exps, e ≠ []) →
    ∃ ls, exps.mapM last = .ok ls ∧ List.Forall₂ (fun e t => e.getLast? = some t) exps ls := by
  intro exps
  induction exps with
  | nil => intro _; exact ⟨[], rfl, .nil⟩
  | cons e es ih =>
    intro h
    obtain ⟨ls, h1, h2⟩ := ih fun e' he' => h e' (by simp [he'])
    have hne := h e (by simp)
    refine ⟨e.getLast hne :: ls, ?_, .cons (List.getLast?_eq_some_getLast hne) h2⟩
    rw [List.mapM_cons, h1]
    simp only [last, List.getLast?_eq_some_getLast hne]
    rfl

theorem forall₂_get {α β : Type _} {r : α → β → Prop} {l : List α} {l' : List β}
    (h : List.Forall₂ r l l') (k : Nat) {x : α} (hx : l[k]? = some x) :
    ∃ y, l'[k]? = some y ∧ r x y := by
  induction h generalizing k with
  | nil => simp at hx
  | cons h1 _ ih =>
    cases k with
    | zero => simp at hx; subst hx; exact ⟨_, rfl, h1⟩
    | succ k => simp at hx; simpa using ih k hx

theorem target_eq_backup (gamma : R) (V : S → R) : ∀ {exp : List (Trans S A R)} {t : Trans S A R},
    exp.getLast? = some t → Spec.TerminalOnlyLast exp →
    reward gamma exp + gamma ^ exp.length * (1 - boolToR (exp.any Trans.terminal)) * V t.nextState
      = Spec.backup gamma V exp := by
  intro exp
  induction exp with
  | nil => intro t h; simp at h
  | cons a rest ih =>
    intro t h hterm
    cases rest with
    | nil =>
      simp at h; subst h
      have : reward gamma ([] : List (Trans S A R)) = 0 := rfl
      rw [reward_cons, this]
      simp only [Spec.backup, List.length_singleton, List.any_cons, List.any_nil, Bool.or_false,
        boolToR]
      split <;> ring
    | cons b r =>
      have ha : a.terminal = false := hterm a (by simp)
      have := ih (t := t) (by simpa [List.getLast?_cons_cons] using h)
        (fun u hu => hterm u (by simp only [List.dropLast_cons_cons]; exact List.mem_cons_of_mem _ hu))
      rw [reward_cons]
      simp only [Spec.backup, ha, List.any_cons, Bool.false_or, List.length_cons, pow_succ] at this ⊢
      rw [← this]
      simp only [Bool.false_eq_true, if_false]
      ring

/-! ## C21 -/

/-- **C21.** For every non-empty batch of non-empty experiences, every `gamma` and every `V`,
`batch_experiences` succeeds, and its `k`-th row is: the features of the first state, the first
action, `∑ gamma^i r_i`, the features of the last next state, terminal iff any transition is
terminal, and discount `gamma^j`.  If only the last transition may be terminal, the target
`reward + discount * (1 - terminal) * V(next_state)` equals `j` successive one-step Bellman
backups. -/
theorem batch_experiences_n_step (phi : S → F) (gamma : R) {exps : List (List (Trans S A R))}
    (hne : exps ≠ []) (hexp : ∀ e ∈ exps, e ≠ []) :
    ∃ out, batchExperiences phi gamma exps = .ok out ∧
      ∀ (k : Nat) (exp : List (Trans S A R)), exps[k]? = some exp →
        ∃ t0 tn, exp.head? = some t0 ∧ exp.getLast? = some tn ∧
          out.state[k]? = some (phi t0.state) ∧ out.action[k]? = some t0.action ∧
          out.reward[k]? = some (((List.range exp.length).zipWith
            (fun i t => gamma ^ i * t.reward) exp).sum) ∧
          out.nextState[k]? = some (phi tn.nextState) ∧
          out.terminal[k]? = some (if (∃ t ∈ exp, t.terminal = true) then 1 else 0) ∧
          out.discount[k]? = some (gamma ^ exp.length) ∧
          ∀ (Q : F → R), Spec.TerminalOnlyLast exp →
            ∀ r d tm f, out.reward[k]? = some r → out.discount[k]? = some d →
              out.terminal[k]? = some tm → out.nextState[k]? = some f →
              r + d * (1 - tm) * Q f = Spec.backup gamma (fun s => Q (phi s)) exp := by
  obtain ⟨fs, h1, h2⟩ := mapM_first_ok hexp
  obtain ⟨ls, h3, h4⟩ := mapM_last_ok hexp
  unfold batchExperiences
  simp only [h1, h3, if_neg hne]
  refine ⟨_, rfl, ?_⟩
  intro k exp hk
  obtain ⟨t0, f1, f2⟩ := forall₂_get h2 k hk
  obtain ⟨tn, g1, g2⟩ := forall₂_get h4 k hk
  have hrew : reward gamma exp
      = ((List.range exp.length).zipWith (fun i t => gamma ^ i * t.reward) exp).sum := by
    unfold reward
    congr 1
    apply List.ext_getElem?
    intro i
    rw [List.getElem?_map, List.getElem?_zipWith]
    by_cases hi : i < exp.length
    · simp [hi]
    · simp [hi]
  have hterm : (boolToR (exp.any Trans.terminal) : R)
      = if (∃ t ∈ exp, t.terminal = true) then 1 else 0 := by
    unfold boolToR
    simp only [List.any_eq_true]
  refine ⟨t0, tn, f2, g2, ?_, ?_, ?_, ?_, ?_, ?_, ?_⟩
  · simp [f1]
  · simp [f1]
  · simp [hk, ← hrew]
  · simp [g1]
  · rw [List.getElem?_map, hk, Option.map_some, hterm]
  · simp [hk]
  · intro Q hlast r d tm f hr hd htm hf
    rw [List.getElem?_map, hk] at hr hd htm
    rw [List.getElem?_map, g1] at hf
    simp only [Option.map_some, Option.some.injEq] at hr hd htm hf
    subst hr hd htm hf
    exact target_eq_backup gamma (fun s => Q (phi s)) g2 hlast

/-- Two experiences, of lengths 2 (ending in a terminal transition) and 1. -/
example : (batchExperiences (fun s : Nat => s) (2 : Int)
      [[⟨0, 10, 1, 1, none, false⟩, ⟨1, 11, 5, 2, none, true⟩], [⟨7, 12, 3, 8, some 4, false⟩]]).toOption
    = some ⟨[0, 7], [10, 12], [11, 3], [2, 8], [1, 0], [4, 2], none⟩ ∧
    Spec.TerminalOnlyLast [(⟨0, 10, 1, 1, none, false⟩ : Trans Nat Nat Int), ⟨1, 11, 5, 2, none, true⟩] :=
  ⟨by decide, by intro t ht; simp at ht; simp [ht]⟩

/-- `next_action` is batched exactly when every last transition has one, and then row by row. -/
theorem batch_next_action (phi : S → F) (gamma : R) {exps : List (List (Trans S A R))}
    (hne : exps ≠ []) (hexp : ∀ e ∈ exps, e ≠ []) :
    ∃ out, batchExperiences phi gamma exps = .ok out ∧
      ((∃ as, out.nextAction = some as) ↔
        ∀ e ∈ exps, ∃ t a, e.getLast? = some t ∧ t.nextAction = some a) ∧
      ∀ as, out.nextAction = some as →
        List.Forall₂ (fun e a => ∃ t, e.getLast? = some t ∧ t.nextAction = some a) exps as := by
  obtain ⟨fs, h1, h2⟩ := mapM_first_ok hexp
  obtain ⟨ls, h3, h4⟩ := mapM_last_ok hexp
  unfold batchExperiences
  simp only [h1, h3, if_neg hne]
  refine ⟨_, rfl, ?_, ?_⟩
  · simp only
    clear h1 h2 h3 hne hexp
    have key : ls.all (fun t => t.nextAction.isSome) = true ↔
        ∀ e ∈ exps, ∃ t a, e.getLast? = some t ∧ t.nextAction = some a := by
      induction h4 with
      | nil => simp
      | @cons e t es ls h _ ih =>
        rw [List.all_cons, Bool.and_eq_true, ih, List.forall_mem_cons]
        apply and_congr_left'
        rw [Option.isSome_iff_exists]
        constructor
        · rintro ⟨a, ha⟩; exact ⟨t, a, h, ha⟩
        · rintro ⟨t', a, h', ha⟩; rw [h] at h'; cases h'; exact ⟨a, ha⟩
    rw [← key]
    split
    · rename_i hc; simp [hc]
    · rename_i hc; simp [hc]
  · intro as has
    simp only at has
    split at has
    · rename_i hall
      cases has
      clear h1 h2 h3 hne hexp
      induction h4 with
      | nil => exact .nil
      | @cons e t es ls h _ ih =>
        rw [List.all_cons, Bool.and_eq_true, Option.isSome_iff_exists] at hall
        obtain ⟨⟨a, ha⟩, hall⟩ := hall
        rw [List.filterMap_cons, ha]
        exact .cons ⟨t, h, ha⟩ (ih hall)
    · cases has

/-- Only the last transition of an experience stored by the replay buffer can be terminal, so the
hypothesis of the target equation holds for everything a replay buffer stores. -/
theorem stored_terminal_only_last {ε π : Type _} [DecidableEq ε] {n : Nat} (hn : 0 < n)
    (ops : List (Replay.Op ε π)) {e : ε} {w : List (Replay.Tr π)}
    (h : (e, w) ∈ Replay.Spec.log n [] ops) : ∀ t ∈ w.dropLast, t.terminal = false := by
  obtain ⟨ep, hep, before, after, heq, hne, _, _⟩ :=
    Replay.stored_experience_within_episode hn ops h
  have hlast : ∀ (cs : List (Option (Replay.Tr π))),
      (∀ ep ∈ (Replay.Spec.episodes cs).finished, ∀ t ∈ ep.dropLast, t.terminal = false) ∧
      ∀ t ∈ (Replay.Spec.episodes cs).current, t.terminal = false := by
    intro cs
    induction cs using List.reverseRecOn with
    | nil => simp [Replay.Spec.episodes]
    | append_singleton cs c ih =>
      rw [Replay.episodes_snoc]
      obtain ⟨i1, i2⟩ := ih
      cases c with
      | none =>
        simp only [Replay.Spec.Episodes.next]
        split
        · exact ⟨i1, i2⟩
        · refine ⟨?_, by simp⟩
          intro ep hep t ht
          rcases List.mem_append.1 hep with hep | hep
          · exact i1 ep hep t ht
          · simp at hep; subst hep; exact i2 t (List.dropLast_subset _ ht)
      | some u =>
        simp only [Replay.Spec.Episodes.next]
        split
        · refine ⟨?_, by simp⟩
          intro ep hep t ht
          rcases List.mem_append.1 hep with hep | hep
          · exact i1 ep hep t ht
          · simp at hep; subst hep
            rw [List.dropLast_concat] at ht
            exact i2 t ht
        · rename_i hu
          refine ⟨i1, ?_⟩
          intro t ht
          rcases List.mem_append.1 ht with ht | ht
          · exact i2 t ht
          · simp at ht; subst ht; simpa using hu
  have hep' : ∀ t ∈ ep.dropLast, t.terminal = false := by
    rcases hep with hep | rfl
    · exact (hlast _).1 ep hep
    · intro t ht; exact (hlast _).2 t (List.dropLast_subset _ ht)
  intro t ht
  apply hep' t
  rw [heq]
  cases after with
  | nil => rw [List.append_nil, List.dropLast_append_of_ne_nil hne]; simp [ht]
  | cons a r =>
    rw [List.dropLast_append_of_ne_nil (by simp)]
    simp [List.dropLast_subset _ ht]

/-! ## C22 -/

variable {W X : Type _}

/-- The buffer keeps its promises: drawing no more than it holds succeeds, and neither drawing nor
updating changes its size. -/
structure Spec.Sound (env : Env W X) : Prop where
  sample : ∀ n w, n ≤ env.len w → ∃ x w', env.sample n w = .ok (x, w') ∧
    env.len w' = env.len w ∧ env.nEpisodes w' = env.nEpisodes w
  sampleEpisodes : ∀ n l w, n ≤ env.nEpisodes w → ∃ x w', env.sampleEpisodes n l w = .ok (x, w') ∧
    env.len w' = env.len w ∧ env.nEpisodes w' = env.nEpisodes w
  update : ∀ x w, ∃ w', env.update x w = .ok w' ∧
    env.len w' = env.len w ∧ env.nEpisodes w' = env.nEpisodes w

/-- `k` updates, each on a batch of the configured kind and size, lead from `w` to `w'`. -/
inductive Spec.Updates (env : Env W X) (c : Cfg) : Nat → W → W → Prop
  | zero (w : W) : Updates env c 0 w w
  | transitions {k : Nat} {w w1 w2 w3 : W} {x : X} : c.episodicUpdate = false →
      c.batchsize ≤ env.len w → env.sample c.batchsize w = .ok (x, w1) →
      env.update x w1 = .ok w2 → Updates env c k w2 w3 → Updates env c (k + 1) w w3
  | episodes {k : Nat} {w w1 w2 w3 : W} {x : X} : c.episodicUpdate = true →
      c.batchsize ≤ env.nEpisodes w →
      env.sampleEpisodes c.batchsize c.episodicUpdateLen w = .ok (x, w1) →
      env.update x w1 = .ok w2 → Updates env c k w2 w3 → Updates env c (k + 1) w w3

/-- When an update is due. -/
def Spec.Due (env : Env W X) (c : Cfg) (t : Int) (w : W) : Prop :=
  c.replayStartSize ≤ env.len w ∧
  (c.episodicUpdate = true → c.batchsize ≤ env.nEpisodes w) ∧
  c.updateInterval ∣ t

theorem updateLoop_spec {env : Env W X} (hs : Spec.Sound env) {c : Cfg} : ∀ (n : Nat) (w : W),
    (c.episodicUpdate = false → c.batchsize ≤ env.len w) →
    (c.episodicUpdate = true → c.batchsize ≤ env.nEpisodes w) →
    ∃ w', updateLoop env c n w = .ok w' ∧ Spec.Updates env c n w w' := by
  intro n
  induction n with
  | zero => intro w _ _; exact ⟨w, rfl, .zero w⟩
  | succ n ih =>
    intro w h1 h2
    unfold updateLoop updateOnce
    cases he : c.episodicUpdate with
    | true =>
      obtain ⟨x, w1, g1, g2, g3⟩ := hs.sampleEpisodes c.batchsize c.episodicUpdateLen w (h2 he)
      obtain ⟨w2, g4, g5, g6⟩ := hs.update x w1
      obtain ⟨w3, g7, g8⟩ := ih w2 (by intro h; rw [g5, g2]; exact h1 h)
        (by intro h; rw [g6, g3]; exact h2 h)
      exact ⟨w3, by simp only [if_true, g1, g4, g7], .episodes he (h2 he) g1 g4 g8⟩
    | false =>
      obtain ⟨x, w1, g1, g2, g3⟩ := hs.sample c.batchsize w (h1 he)
      obtain ⟨w2, g4, g5, g6⟩ := hs.update x w1
      obtain ⟨w3, g7, g8⟩ := ih w2 (by intro h; rw [g5, g2]; exact h1 h)
        (by intro h; rw [g6, g3]; exact h2 h)
      exact ⟨w3, by simp only [Bool.false_eq_true, if_false, g1, g4, g7], .transitions he (h1 he) g1 g4 g8⟩

/-- **C22 (partial).** For every configuration accepted by the constructor with a non-zero update
interval, every buffer content and every `t`: `update_if_necessary(t)` never raises; when an update
is due it performs exactly `n_times_update` updates (none if negative), never asking the buffer for
more than it holds, and returns `True`; otherwise it changes nothing and returns `False`.

Missing: the constructor also accepts `update_interval = 0`, with which the call raises, see
`update_interval_zero_raises`. -/
theorem update_schedule_partial {env : Env W X} (hs : Spec.Sound env) {c : Cfg}
    (hc : c.check = .ok c) (hint : c.updateInterval ≠ 0) (t : Int) (w : W) :
    (Spec.Due env c t w → ∃ w', updateIfNecessary env c t w = .ok (true, w') ∧
      Spec.Updates env c c.nTimesUpdate.toNat w w') ∧
    (¬ Spec.Due env c t w → updateIfNecessary env c t w = .ok (false, w)) := by
  have hb : c.batchsize ≤ c.replayStartSize := by
    unfold Cfg.check at hc
    split at hc
    · assumption
    · cases hc
  have hmod : Int.fmod t c.updateInterval = 0 ↔ c.updateInterval ∣ t :=
    ⟨Int.dvd_of_fmod_eq_zero, Int.fmod_eq_zero_of_dvd⟩
  unfold updateIfNecessary Spec.Due
  constructor
  · rintro ⟨h1, h2, h3⟩
    rw [if_neg (by omega), if_neg, if_neg hint, if_neg (by rw [ne_eq, not_not]; exact hmod.2 h3)]
    · obtain ⟨w', g1, g2⟩ := updateLoop_spec hs (c := c) c.nTimesUpdate.toNat w
        (fun _ => by omega) h2
      exact ⟨w', by rw [g1]; rfl, g2⟩
    · simp only [Bool.and_eq_true, decide_eq_true_eq, not_and]
      intro he; have := h2 he; omega
  · intro hn
    by_cases h1 : env.len w < c.replayStartSize
    · rw [if_pos h1]
    · rw [if_neg h1]
      by_cases h2 : (c.episodicUpdate && decide (env.nEpisodes w < c.batchsize)) = true
      · rw [if_pos h2]
      · rw [if_neg h2, if_neg hint, if_pos]
        rw [ne_eq, hmod]
        intro h3
        apply hn
        refine ⟨by omega, ?_, h3⟩
        intro he
        simp only [he, Bool.true_and, decide_eq_true_eq] at h2
        omega

/-- A configuration and an environment (a buffer of 5 items that always returns its first) that
meet the hypotheses. -/
example : ∃ (env : Env Nat Nat) (c : Cfg), Spec.Sound env ∧ c.check = .ok c ∧
    c.updateInterval ≠ 0 ∧ Spec.Due env c 8 5 ∧ ¬ Spec.Due env c 9 5 :=
  ⟨⟨fun w => w, fun w => w, fun _ w => .ok (0, w), fun _ _ w => .ok (0, w), fun _ w => .ok w⟩,
    ⟨2, false, 3, 4, 4, none⟩,
    ⟨fun n w _ => ⟨0, w, rfl, rfl, rfl⟩, fun n l w _ => ⟨0, w, rfl, rfl, rfl⟩,
      fun x w => ⟨w, rfl, rfl, rfl⟩⟩, rfl, by decide, ⟨by decide, by decide, by decide⟩,
    fun h => absurd h.2.2 (by decide)⟩

/-- **C22 fails for `update_interval = 0`**: the constructor accepts it and, once the buffer is
large enough, every call raises `ZeroDivisionError`. -/
theorem update_interval_zero_raises {env : Env W X} {c : Cfg} (hint : c.updateInterval = 0)
    {w : W} (hlen : c.replayStartSize ≤ env.len w)
    (hep : c.episodicUpdate = true → c.batchsize ≤ env.nEpisodes w) (t : Int) :
    updateIfNecessary env c t w = .error .zeroDivision := by
  unfold updateIfNecessary
  rw [if_neg (by omega), if_neg, if_pos hint]
  simp only [Bool.and_eq_true, decide_eq_true_eq, not_and]
  intro he; have := hep he; omega

example : (⟨2, false, 3, 4, 0, none⟩ : Cfg).check = .ok ⟨2, false, 3, 4, 0, none⟩ := rfl

end Pfrl.Batch
