import Verif.Basic
import Mathlib.Data.List.Basic
import Mathlib.Algebra.BigOperators.Group.List.Basic
import Mathlib.Tactic.Linarith

/-!
# How PPO and TRPO collect datasets (C32)

`pfrl/agents/trpo.py` has the same code as `pfrl/agents/ppo.py` in the functions modelled here.
-/

namespace Pfrl.Ppo.Dataset

variable {O A R : Type _}

/-! ## Model -/

/-- A stored transition, `pfrl/agents/ppo.py:771-777` (`nonterminal` as a Boolean; the recurrent states
stored beside it are not modelled). -/
structure Tr (O A R : Type _) where
  state : O
  action : A
  reward : R
  nextState : O
  nonterminal : Bool
  deriving DecidableEq, Repr

/-- What happens in one environment in one round: the observation and action of `batch_act`, and the
arguments of the following `batch_observe`. -/
structure Row (O A R : Type _) where
  obs : O
  action : A
  reward : R
  nextObs : O
  done : Bool
  reset : Bool
  deriving DecidableEq, Repr

/-- The attributes that matter, `pfrl/agents/ppo.py:371-385`.  `last_episode` is never filled by this
version of the code and left out; `datasets` records the episodes of each dataset used for an update. -/
structure Agent (O A R : Type _) where
  memory : List (List (Tr O A R))
  batchLastEpisode : Option (List (List (Tr O A R)))
  batchLastState : List (Option O)
  batchLastAction : List (Option A)
  datasets : List (List (List (Tr O A R)))

/-- A new agent. -/
def Agent.new : Agent O A R := ⟨[], none, [], [], []⟩

/-- `_initialize_batch_variables`, `pfrl/agents/ppo.py:402-405`. -/
def Agent.initBatch (a : Agent O A R) (n : Nat) : Agent O A R :=
  { a with batchLastEpisode := some (List.replicate n [])
           batchLastState := List.replicate n none
           batchLastAction := List.replicate n none }

/-- The part of `_batch_act_train` that matters, `pfrl/agents/ppo.py:714-741`; the actions are those
sampled from the policy. -/
def Agent.act (a : Agent O A R) (obs : List O) (actions : List A) : Except PyErr (Agent O A R) :=
  let a := if a.batchLastEpisode.isNone then a.initBatch obs.length else a
  match a.batchLastEpisode with
  | none => .error .typeError
  | some eps =>
    if eps.length = obs.length ∧ a.batchLastState.length = obs.length
        ∧ a.batchLastAction.length = obs.length then
      .ok { a with batchLastState := obs.map some, batchLastAction := actions.map some }
    else .error .assertionError

/-- Body of the loop of `_batch_observe_train`, `pfrl/agents/ppo.py:769-793`, for one environment: the
new current episode and the episode moved to the memory, if any. -/
def observeOne (ep : List (Tr O A R)) (state : Option O) (action : Option A) (row : Row O A R) :
    Except PyErr (List (Tr O A R) × List (List (Tr O A R))) :=
  let appended : Except PyErr (List (Tr O A R)) :=
    match state, action with
    | none, _ => .ok ep
    | some _, none => .error .assertionError
    | some s, some act => .ok (ep ++ [⟨s, act, row.reward, row.nextObs, !row.done⟩])
  match appended with
  | .error e => .error e
  | .ok ep =>
    if row.done || row.reset then
      if ep.isEmpty then .error .assertionError else .ok ([], [ep])
    else .ok (ep, [])

/-- The loop itself, `pfrl/agents/ppo.py:759-793`: environment `i` reads and writes only the `i`-th
entry of the lists. -/
def observeLoop : List (List (Tr O A R)) → List (Option O × Option A × Row O A R) →
    Except PyErr (List (List (Tr O A R)) × List (List (Tr O A R)))
  | eps, [] => .ok (eps, [])
  | [], _ :: _ => .error .indexError
  | ep :: eps, (s, a, row) :: rows =>
    match observeOne ep s a row with
    | .error e => .error e
    | .ok (ep', finished) =>
      match observeLoop eps rows with
      | .error e => .error e
      | .ok (eps', finished') => .ok (ep' :: eps', finished ++ finished')

/-- `sum(len(episode) for episode in …)`. -/
def size {α : Type _} (eps : List (List α)) : Nat := (eps.map List.length).sum

/-- `_flush_last_episode`, `pfrl/agents/ppo.py:450-458`. -/
def Agent.flush (a : Agent O A R) : Agent O A R :=
  match a.batchLastEpisode with
  | none => a
  | some eps =>
    { a with memory := a.memory ++ eps.filter (fun ep => !ep.isEmpty)
             batchLastEpisode := some (eps.map fun _ => []) }

/-- `_update_if_dataset_is_ready`, `pfrl/agents/ppo.py:407-448`; the update itself is represented by
recording the dataset. -/
def Agent.updateIfReady (updateInterval : Nat) (a : Agent O A R) : Agent O A R :=
  let datasetSize := size a.memory + (a.batchLastEpisode.map size).getD 0
  if updateInterval ≤ datasetSize then
    let a := a.flush
    { a with datasets := a.datasets ++ [a.memory], memory := [] }
  else a

/-- `_batch_observe_train`, `pfrl/agents/ppo.py:756-807`. -/
def Agent.observe (updateInterval : Nat) (a : Agent O A R) (rows : List (Row O A R)) :
    Except PyErr (Agent O A R) :=
  match observeLoop (a.batchLastEpisode.getD []) (a.batchLastState.zip (a.batchLastAction.zip rows)) with
  | .error e => .error e
  | .ok (eps, finished) =>
    .ok (Agent.updateIfReady updateInterval { a with
      memory := a.memory ++ finished
      batchLastEpisode := a.batchLastEpisode.map fun _ => eps
      batchLastState := a.batchLastState.map fun _ => none
      batchLastAction := a.batchLastAction.map fun _ => none })

/-- One round of the training loop. -/
def Agent.round (updateInterval : Nat) (a : Agent O A R) (rows : List (Row O A R)) :
    Except PyErr (Agent O A R) :=
  match a.act (rows.map Row.obs) (rows.map Row.action) with
  | .error e => .error e
  | .ok a => a.observe updateInterval rows

/-- A training history. -/
def Agent.run (updateInterval : Nat) (a : Agent O A R) :
    List (List (Row O A R)) → Except PyErr (Agent O A R)
  | [] => .ok a
  | rows :: rest =>
    match a.round updateInterval rows with
    | .error e => .error e
    | .ok a => Agent.run updateInterval a rest

/-! ## Specification -/

/-- A transition as experienced, with a flag whether the episode ended with it. -/
structure Exp (O A R : Type _) where
  tr : Tr O A R
  ended : Bool

/-- What an environment experiences in one round. -/
def Spec.expOf (row : Row O A R) : Exp O A R :=
  ⟨⟨row.obs, row.action, row.reward, row.nextObs, !row.done⟩, row.done || row.reset⟩

/-- Everything environment `i` has experienced. -/
def Spec.experience (rounds : List (List (Row O A R))) (i : Nat) : List (Exp O A R) :=
  rounds.filterMap fun rows => rows[i]?.map Spec.expOf

/-- An episode of a dataset, tagged with the environment it comes from. -/
abbrev Tagged (O A R : Type _) := Nat × List (Exp O A R)

/-- All transitions of environment `i` in a list of tagged episodes, in order. -/
def Spec.ofEnv (eps : List (Tagged O A R)) (i : Nat) : List (Exp O A R) :=
  ((eps.filter fun e => e.1 = i).map fun e => e.2).flatten

/-! ## Lemmas -/

/-- The loop of `observe` on tagged data; environments are numbered from `i0`. -/
def tagLoop (i0 : Nat) : List (List (Exp O A R)) → List (Exp O A R) →
    List (List (Exp O A R)) × List (Tagged O A R)
  | cur :: curs, x :: xs =>
    let r := tagLoop (i0 + 1) curs xs
    if x.ended then ([] :: r.1, (i0, cur ++ [x]) :: r.2) else ((cur ++ [x]) :: r.1, r.2)
  | curs, _ => (curs, [])

def strip (l : List (Exp O A R)) : List (Tr O A R) := l.map Exp.tr

theorem observeLoop_tag (i0 : Nat) : ∀ (curs : List (List (Exp O A R))) (rows : List (Row O A R)),
    curs.length = rows.length →
    observeLoop (curs.map strip) ((rows.map fun r => some r.obs).zip
        ((rows.map fun r => some r.action).zip rows))
      = .ok ((tagLoop i0 curs (rows.map Spec.expOf)).1.map strip,
          (tagLoop i0 curs (rows.map Spec.expOf)).2.map fun e => strip e.2) := by
  intro curs
  induction curs generalizing i0 with
  | nil =>
    intro rows h
    cases rows with
    | nil => rfl
    | cons r rows => simp at h
  | cons cur curs ih =>
    intro rows h
    cases rows with
    | nil => simp at h
    | cons r rows =>
      have := ih (i0 + 1) rows (by simpa using h)
      simp only [List.map_cons, List.zip_cons_cons, observeLoop, observeOne, this, tagLoop,
        Spec.expOf]
      cases he : (r.done || r.reset) with
      | true => simp [strip]
      | false => simp [strip]

theorem tagLoop_length (i0 : Nat) : ∀ (curs : List (List (Exp O A R))) (xs : List (Exp O A R)),
    (tagLoop i0 curs xs).1.length = curs.length := by
  intro curs
  induction curs generalizing i0 with
  | nil => intro xs; cases xs <;> rfl
  | cons cur curs ih =>
    intro xs
    cases xs with
    | nil => rfl
    | cons x xs =>
      simp only [tagLoop]
      split <;> simp [ih (i0 + 1) xs]

theorem tagLoop_tags (i0 : Nat) : ∀ (curs : List (List (Exp O A R))) (xs : List (Exp O A R)),
    ∀ e ∈ (tagLoop i0 curs xs).2, i0 ≤ e.1 ∧ e.1 < i0 + curs.length := by
  intro curs
  induction curs generalizing i0 with
  | nil => intro xs e he; cases xs <;> simp [tagLoop] at he
  | cons cur curs ih =>
    intro xs e he
    cases xs with
    | nil => simp [tagLoop] at he
    | cons x xs =>
      simp only [tagLoop] at he
      rw [List.length_cons]
      split at he
      · rcases List.mem_cons.mp he with rfl | he
        · simp
        · have := ih (i0 + 1) xs e he; omega
      · have := ih (i0 + 1) xs e he; omega

theorem tagLoop_eps (i0 : Nat) : ∀ (curs : List (List (Exp O A R))) (xs : List (Exp O A R)),
    (∀ cur ∈ curs, ∀ x ∈ cur, x.ended = false) →
    (∀ e ∈ (tagLoop i0 curs xs).2, e.2 ≠ [] ∧ ∀ x ∈ e.2.dropLast, x.ended = false) ∧
      ∀ cur ∈ (tagLoop i0 curs xs).1, ∀ x ∈ cur, x.ended = false := by
  intro curs
  induction curs generalizing i0 with
  | nil =>
    intro xs h
    cases xs <;> simp [tagLoop]
  | cons cur curs ih =>
    intro xs h
    cases xs with
    | nil => exact ⟨by simp [tagLoop], h⟩
    | cons x xs =>
      have hih := ih (i0 + 1) xs (fun c hc => h c (by simp [hc]))
      simp only [tagLoop]
      split
      · refine ⟨?_, ?_⟩
        · intro e he
          rcases List.mem_cons.mp he with rfl | he
          · refine ⟨by simp, ?_⟩
            rw [List.dropLast_concat]
            exact h cur (by simp)
          · exact hih.1 e he
        · intro c hc
          rcases List.mem_cons.mp hc with rfl | hc
          · simp
          · exact hih.2 c hc
      · rename_i hx
        refine ⟨hih.1, ?_⟩
        intro c hc
        rcases List.mem_cons.mp hc with rfl | hc
        · intro y hy
          rcases List.mem_append.mp hy with hy | hy
          · exact h cur (by simp) y hy
          · rw [List.mem_singleton] at hy
            subst hy
            simpa using hx
        · exact hih.2 c hc

theorem ofEnv_cons (e : Tagged O A R) (eps : List (Tagged O A R)) (i : Nat) :
    Spec.ofEnv (e :: eps) i = (if e.1 = i then e.2 else []) ++ Spec.ofEnv eps i := by
  unfold Spec.ofEnv
  rw [List.filter_cons]
  split
  · rename_i h
    simp only [decide_eq_true_eq] at h
    simp [h]
  · rename_i h
    simp only [decide_eq_true_eq] at h
    simp [h]

theorem ofEnv_append (a b : List (Tagged O A R)) (i : Nat) :
    Spec.ofEnv (a ++ b) i = Spec.ofEnv a i ++ Spec.ofEnv b i := by
  simp [Spec.ofEnv]

theorem ofEnv_eq_nil (eps : List (Tagged O A R)) (i : Nat) (h : ∀ e ∈ eps, e.1 ≠ i) :
    Spec.ofEnv eps i = [] := by
  induction eps with
  | nil => rfl
  | cons e eps ih =>
    rw [ofEnv_cons, if_neg (h e (by simp)), ih (fun e' he' => h e' (by simp [he']))]
    rfl

theorem tagLoop_env (i0 : Nat) : ∀ (curs : List (List (Exp O A R))) (xs : List (Exp O A R)),
    curs.length = xs.length → ∀ i (h : i < curs.length) (hx : i < xs.length)
      (h' : i < (tagLoop i0 curs xs).1.length),
      Spec.ofEnv (tagLoop i0 curs xs).2 (i0 + i) ++ (tagLoop i0 curs xs).1[i]
        = curs[i] ++ [xs[i]] := by
  intro curs
  induction curs generalizing i0 with
  | nil => intro xs _ i h; simp at h
  | cons cur curs ih =>
    intro xs hl i h hx h'
    cases xs with
    | nil => simp at hl
    | cons x xs =>
      have hl' : curs.length = xs.length := by simpa using hl
      cases i with
      | zero =>
        have hnil : Spec.ofEnv (tagLoop (i0 + 1) curs xs).2 i0 = [] := by
          apply ofEnv_eq_nil
          intro e he
          have := tagLoop_tags (i0 + 1) curs xs e he
          omega
        simp only [tagLoop, Nat.add_zero]
        by_cases hxe : x.ended = true
        · simp only [if_pos hxe, ofEnv_cons, if_true, hnil]
          simp
        · simp only [if_neg hxe, hnil]
          simp
      | succ i =>
        have hih := ih (i0 + 1) xs hl' i (by simpa using h) (by simpa using hx)
          (by rw [tagLoop_length]; simpa using h)
        have e1 : i0 + 1 + i = i0 + (i + 1) := by omega
        rw [e1] at hih
        simp only [tagLoop]
        by_cases hxe : x.ended = true
        · simp only [if_pos hxe, ofEnv_cons]
          rw [if_neg (by omega)]
          simpa using hih
        · simp only [if_neg hxe]
          simpa using hih

theorem size_cons {α : Type _} (x : List α) (l : List (List α)) : size (x :: l) = x.length + size l :=
  rfl

theorem tagLoop_size (i0 : Nat) : ∀ (curs : List (List (Exp O A R))) (xs : List (Exp O A R)),
    curs.length = xs.length →
    size ((tagLoop i0 curs xs).2.map fun e => e.2) + size (tagLoop i0 curs xs).1
      = size curs + curs.length := by
  intro curs
  induction curs generalizing i0 with
  | nil => intro xs h; cases xs <;> rfl
  | cons cur curs ih =>
    intro xs h
    cases xs with
    | nil => simp at h
    | cons x xs =>
      have := ih (i0 + 1) xs (by simpa using h)
      simp only [tagLoop]
      split
      · simp only [List.map_cons, size_cons, List.length_append, List.length_cons, List.length_nil]
        omega
      · simp only [size_cons, List.length_append, List.length_cons, List.length_nil]
        omega

/-- Episodes flushed at an update, tagged. -/
def flushTag (i0 : Nat) : List (List (Exp O A R)) → List (Tagged O A R)
  | [] => []
  | cur :: curs => if cur.isEmpty then flushTag (i0 + 1) curs else (i0, cur) :: flushTag (i0 + 1) curs

theorem flushTag_strip (i0 : Nat) (curs : List (List (Exp O A R))) :
    (curs.map strip).filter (fun ep => !ep.isEmpty) = (flushTag i0 curs).map fun e => strip e.2 := by
  induction curs generalizing i0 with
  | nil => rfl
  | cons cur curs ih =>
    simp only [List.map_cons, List.filter_cons, flushTag]
    cases cur with
    | nil => simpa [strip] using ih (i0 + 1)
    | cons x cur => simp [strip, ih (i0 + 1)]

theorem flushTag_tags (i0 : Nat) (curs : List (List (Exp O A R))) :
    ∀ e ∈ flushTag i0 curs, i0 ≤ e.1 ∧ e.1 < i0 + curs.length ∧ e.2 ≠ [] ∧ e.2 ∈ curs := by
  induction curs generalizing i0 with
  | nil => intro e he; simp [flushTag] at he
  | cons cur curs ih =>
    intro e he
    simp only [flushTag] at he
    rw [List.length_cons]
    split at he
    · have := ih (i0 + 1) e he
      exact ⟨by omega, by omega, this.2.2.1, by simp [this.2.2.2]⟩
    · rename_i hne
      rcases List.mem_cons.mp he with rfl | he
      · exact ⟨by simp, by simp, by simpa using hne, by simp⟩
      · have := ih (i0 + 1) e he
        exact ⟨by omega, by omega, this.2.2.1, by simp [this.2.2.2]⟩

theorem flushTag_env (i0 : Nat) (curs : List (List (Exp O A R))) : ∀ i (h : i < curs.length),
    Spec.ofEnv (flushTag i0 curs) (i0 + i) = curs[i] := by
  induction curs generalizing i0 with
  | nil => intro i h; simp at h
  | cons cur curs ih =>
    intro i h
    cases i with
    | zero =>
      have hnil : Spec.ofEnv (flushTag (i0 + 1) curs) i0 = [] := by
        apply ofEnv_eq_nil
        intro e he
        have := flushTag_tags (i0 + 1) curs e he
        omega
      simp only [flushTag, Nat.add_zero]
      split
      · rename_i he
        rw [hnil]
        simpa using he.symm
      · rw [ofEnv_cons, hnil]; simp
    | succ i =>
      have hih := ih (i0 + 1) i (by simpa using h)
      rw [show i0 + 1 + i = i0 + (i + 1) by omega] at hih
      simp only [flushTag]
      split
      · rw [hih]; simp
      · rw [ofEnv_cons, if_neg (by omega), hih]; simp

theorem flushTag_size (i0 : Nat) (curs : List (List (Exp O A R))) :
    size ((flushTag i0 curs).map fun e => e.2) = size curs := by
  induction curs generalizing i0 with
  | nil => rfl
  | cons cur curs ih =>
    have := ih (i0 + 1)
    simp only [flushTag]
    split
    · rename_i he
      have hc : cur = [] := by simpa using he
      subst hc
      rw [this, size_cons, List.length_nil, Nat.zero_add]
    · rw [List.map_cons, size_cons, size_cons, this]

theorem size_strip (l : List (List (Exp O A R))) : size (l.map strip) = size l := by
  unfold size
  rw [List.map_map]
  congr 1
  apply List.map_congr_left
  intro x _
  simp [strip]

theorem size_append {α : Type _} (a b : List (List α)) : size (a ++ b) = size a + size b := by
  simp [size]

/-- The dataset of an update, without the tags. -/
def untag (d : List (Tagged O A R)) : List (List (Tr O A R)) := d.map fun e => strip e.2

theorem size_untag (d : List (Tagged O A R)) : size (untag d) = size (d.map fun e => e.2) := by
  rw [← size_strip]; unfold untag; rw [List.map_map]; rfl

/-- State of the agent after `rounds`. -/
structure Inv (n u : Nat) (a : Agent O A R) (rounds : List (List (Row O A R)))
    (done : List (List (Tagged O A R))) (mem : List (Tagged O A R)) (curs : List (List (Exp O A R))) :
    Prop where
  datasets : a.datasets = done.map untag
  memory : a.memory = untag mem
  last : a.batchLastEpisode = some (curs.map strip) ∨ (a.batchLastEpisode = none ∧ rounds = [])
  len : curs.length = n
  lens : a.batchLastEpisode ≠ none → a.batchLastState.length = n ∧ a.batchLastAction.length = n
  initial : a.batchLastEpisode = none → ∀ c ∈ curs, c = []
  env : ∀ i (h : i < curs.length),
    Spec.ofEnv (done.flatten ++ mem) i ++ curs[i] = Spec.experience rounds i
  eps : ∀ e ∈ done.flatten ++ mem, e.1 < n ∧ e.2 ≠ [] ∧ ∀ x ∈ e.2.dropLast, x.ended = false
  noEnd : ∀ cur ∈ curs, ∀ x ∈ cur, x.ended = false
  big : ∀ d ∈ done, u ≤ size (d.map fun e => e.2) ∧ size (d.map fun e => e.2) < u + n
  small : size (mem.map fun e => e.2) + size curs < u

theorem round_spec {n u : Nat} (hu : 0 < u) {a : Agent O A R} {rounds : List (List (Row O A R))}
    {done : List (List (Tagged O A R))} {mem : List (Tagged O A R)} {curs : List (List (Exp O A R))}
    (h : Inv n u a rounds done mem curs) (rows : List (Row O A R)) (hr : rows.length = n) :
    ∃ a' done' mem' curs', a.round u rows = .ok a' ∧
      Inv n u a' (rounds ++ [rows]) done' mem' curs' := by
  -- `act` succeeds
  have hact : a.act (rows.map Row.obs) (rows.map Row.action) = .ok { a with
      batchLastEpisode := some (curs.map strip)
      batchLastState := rows.map fun r => some r.obs
      batchLastAction := rows.map fun r => some r.action } := by
    unfold Agent.act
    rcases h.last with hl | ⟨hl, _⟩
    · have hlen := h.lens (by rw [hl]; simp)
      rw [hl]
      simp only [Option.isNone_some, Bool.false_eq_true, if_false]
      rw [hl]
      simp only [List.length_map]
      rw [if_pos ⟨by rw [h.len, hr], by rw [hlen.1, hr], by rw [hlen.2, hr]⟩]
      simp only [List.map_map]
      rfl
    · rw [hl]
      simp only [Option.isNone_none, if_true, Agent.initBatch, List.length_replicate, List.length_map,
        and_self, List.map_map]
      have : List.replicate rows.length ([] : List (Tr O A R)) = curs.map strip := by
        rw [hr, ← h.len]
        symm
        rw [List.eq_replicate_iff]
        refine ⟨by simp, ?_⟩
        intro b hb
        obtain ⟨c, hc, rfl⟩ := List.mem_map.mp hb
        rw [h.initial hl c hc]; rfl
      rw [this]
      rfl
  unfold Agent.round
  rw [hact]
  simp only [Agent.observe, Option.getD_some]
  have hcl : curs.length = rows.length := by rw [h.len, hr]
  rw [observeLoop_tag 0 curs rows hcl]
  simp only [Option.map_some]
  generalize hxs : rows.map Spec.expOf = xs
  have hxl : curs.length = xs.length := by rw [← hxs, List.length_map, hcl]
  generalize hcurs' : (tagLoop 0 curs xs).1 = curs'
  generalize hfin : (tagLoop 0 curs xs).2 = fin
  have hcl' : curs'.length = n := by rw [← hcurs', tagLoop_length, h.len]
  -- everything except the size bounds, before the update
  have heps := tagLoop_eps 0 curs xs h.noEnd
  rw [hcurs', hfin] at heps
  have htags := tagLoop_tags 0 curs xs
  rw [hfin] at htags
  have henv : ∀ i (hi : i < curs'.length),
      Spec.ofEnv (done.flatten ++ (mem ++ fin)) i ++ curs'[i]
        = Spec.experience (rounds ++ [rows]) i := by
    intro i hi
    have hic : i < curs.length := by rw [h.len, ← hcl']; exact hi
    have h1 := tagLoop_env 0 curs xs hxl i hic (by omega) (by rw [hcurs']; exact hi)
    simp only [hcurs', hfin, Nat.zero_add] at h1
    rw [← List.append_assoc, ofEnv_append, List.append_assoc, h1, ← List.append_assoc, h.env i hic]
    unfold Spec.experience
    rw [List.filterMap_append]
    congr 1
    have : i < rows.length := by omega
    subst hxs
    simp [this]
  have hsize := tagLoop_size 0 curs xs hxl
  rw [hcurs', hfin] at hsize
  have hepsAll : ∀ e ∈ done.flatten ++ (mem ++ fin),
      e.1 < n ∧ e.2 ≠ [] ∧ ∀ x ∈ e.2.dropLast, x.ended = false := by
    intro e he
    rw [← List.append_assoc] at he
    rcases List.mem_append.mp he with he | he
    · exact h.eps e he
    · have ht := htags e he
      exact ⟨by rw [← h.len]; omega, heps.1 e he⟩
  have hmem : a.memory ++ fin.map (fun e => strip e.2) = untag (mem ++ fin) := by
    rw [h.memory]; simp [untag]
  rw [hmem]
  have hds : size (untag (mem ++ fin)) + size (curs'.map strip)
      = size (mem.map fun e => e.2) + size curs + n := by
    rw [size_untag, size_strip, List.map_append, size_append, Nat.add_assoc, hsize, h.len]
    omega
  unfold Agent.updateIfReady
  simp only [Option.map_some, Option.getD_some, hds]
  by_cases hready : u ≤ size (mem.map fun e => e.2) + size curs + n
  · simp only [if_pos hready, Agent.flush]
    refine ⟨_, done ++ [mem ++ fin ++ flushTag 0 curs'], [], curs'.map fun _ => [], rfl, ?_⟩
    have hflush := flushTag_strip 0 curs'
    have hsz : size ((mem ++ fin ++ flushTag 0 curs').map fun e => e.2)
        = size (mem.map fun e => e.2) + size curs + n := by
      rw [List.map_append, size_append, flushTag_size, ← size_strip curs', ← size_untag, hds]
    constructor
    · simp only [List.map_append, List.map_cons, List.map_nil]
      rw [h.datasets, hflush]
      simp [untag]
    · rfl
    · left
      simp only [List.map_map]
      rfl
    · simp [hcl']
    · intro _; simp [hr]
    · intro hc; cases hc
    · intro i hi
      simp only [List.length_map] at hi
      have := henv i hi
      have hf := flushTag_env 0 curs' i hi
      rw [Nat.zero_add] at hf
      simp only [List.getElem_map, List.append_nil, List.flatten_append, List.flatten_cons,
        List.flatten_nil]
      rw [← this, ← hf]
      simp only [ofEnv_append, List.append_assoc]
    · intro e he
      simp only [List.append_nil, List.flatten_append, List.flatten_cons, List.flatten_nil] at he
      rcases List.mem_append.mp he with he | he
      · exact hepsAll e (by simp [he])
      · rcases List.mem_append.mp he with he | he
        · exact hepsAll e (List.mem_append.mpr (Or.inr he))
        · have ht := flushTag_tags 0 curs' e he
          refine ⟨by omega, ht.2.2.1, ?_⟩
          intro x hx
          exact heps.2 e.2 ht.2.2.2 x ((List.dropLast_sublist _).subset hx)
    · intro cur hc x hx
      obtain ⟨_, _, rfl⟩ := List.mem_map.mp hc
      simp at hx
    · intro d hd
      rcases List.mem_append.mp hd with hd | hd
      · exact h.big d hd
      · rw [List.mem_singleton] at hd
        subst hd
        rw [hsz]
        have := h.small
        omega
    · have : size (curs'.map fun _ => ([] : List (Exp O A R))) = 0 := by
        unfold size
        rw [List.map_map]
        simp [Function.comp_def]
      rw [this]
      simpa [size] using hu
  · simp only [if_neg hready]
    refine ⟨_, done, mem ++ fin, curs', rfl, ?_⟩
    refine ⟨h.datasets, rfl, Or.inl rfl, hcl', fun _ => ?_, fun hc => ?_, henv, hepsAll, heps.2, h.big,
      ?_⟩
    · simp [hr]
    · cases hc
    · rw [List.map_append, size_append, Nat.add_assoc, hsize, h.len]
      omega

/-! ## C32 -/

/-- **C32.** For any number `n` of environments, any `update_interval > 0` and any training history of
rounds over these environments with any done and reset flags: training succeeds, and
* the episodes of the datasets can be attributed to environments such that, for every environment, the
  transitions of its episodes in all datasets in order, followed by those still pending, are exactly the
  transitions it experienced: each enters exactly one dataset, none is dropped, none is duplicated;
* no episode of a dataset is empty or crosses an episode end;
* every dataset has at least `update_interval` transitions, and had fewer before its last round, while
  fewer than `update_interval` transitions are pending: updates happen exactly when enough
  transitions are there. -/
theorem datasets_partition_experience (n u : Nat) (hu : 0 < u) (rounds : List (List (Row O A R)))
    (hr : ∀ rows ∈ rounds, rows.length = n) :
    ∃ (a : Agent O A R) (datasets : List (List (Nat × List (Exp O A R))))
      (pending : List (List (Exp O A R))),
      Agent.new.run u rounds = .ok a ∧
      a.datasets = datasets.map (fun d => d.map fun e => e.2.map Exp.tr) ∧
      pending.length = n ∧
      (∀ i (h : i < pending.length),
        Spec.ofEnv datasets.flatten i ++ pending[i] = Spec.experience rounds i) ∧
      (∀ d ∈ datasets, ∀ e ∈ d, e.1 < n ∧ e.2 ≠ [] ∧ ∀ x ∈ e.2.dropLast, x.ended = false) ∧
      (∀ d ∈ a.datasets, u ≤ (d.map List.length).sum ∧ (d.map List.length).sum < u + n) ∧
      (pending.map List.length).sum < u := by
  have key : ∀ (todo past : List (List (Row O A R))) (a : Agent O A R) done mem curs,
      (∀ rows ∈ todo, rows.length = n) → Inv n u a past done mem curs →
      ∃ a' done' mem' curs', a.run u todo = .ok a' ∧ Inv n u a' (past ++ todo) done' mem' curs' := by
    intro todo
    induction todo with
    | nil => intro past a done mem curs _ h; exact ⟨a, done, mem, curs, rfl, by simpa using h⟩
    | cons rows todo ih =>
      intro past a done mem curs hr h
      obtain ⟨a1, d1, m1, c1, h1, h2⟩ := round_spec hu h rows (hr rows (by simp))
      obtain ⟨a2, d2, m2, c2, h3, h4⟩ := ih (past ++ [rows]) a1 d1 m1 c1
        (fun r hr' => hr r (by simp [hr'])) h2
      refine ⟨a2, d2, m2, c2, ?_, by simpa using h4⟩
      simp only [Agent.run, h1]
      exact h3
  have h0 : Inv n u (Agent.new : Agent O A R) [] [] [] (List.replicate n []) := by
    refine ⟨rfl, rfl, Or.inr ⟨rfl, rfl⟩, by simp, fun h => absurd rfl h, ?_, ?_, by simp, ?_, by simp,
      ?_⟩
    · intro _ c hc; exact List.eq_of_mem_replicate hc
    · intro i h; simp [Spec.ofEnv, Spec.experience]
    · intro c hc x hx; rw [List.eq_of_mem_replicate hc] at hx; simp at hx
    · have : size (List.replicate n ([] : List (Exp O A R))) = 0 := by
        unfold size; rw [List.map_replicate]; simp
      rw [this]
      simpa [size] using hu
  obtain ⟨a, done, mem, curs, h1, h2⟩ := key rounds [] _ _ _ _ hr h0
  rw [List.nil_append] at h2
  -- what is pending of environment `i`: its episodes in the memory and the current one
  refine ⟨a, done, (List.range n).map fun i : Nat => Spec.ofEnv mem i ++ curs.getD i [], h1, ?_,
    by simp, ?_, ?_, ?_, ?_⟩
  · rw [h2.datasets]; rfl
  · intro i hi
    simp only [List.length_map, List.length_range] at hi
    have hic : i < curs.length := by rw [h2.len]; exact hi
    rw [← h2.env i hic]
    simp [ofEnv_append, hic]
  · intro d hd e he
    exact h2.eps e (List.mem_append.mpr (Or.inl (List.mem_flatten.mpr ⟨d, hd, he⟩)))
  · intro d hd
    rw [h2.datasets] at hd
    obtain ⟨d', hd', rfl⟩ := List.mem_map.mp hd
    have := h2.big d' hd'
    rw [← size_untag] at this
    exact this
  · have hsum : ((((List.range n).map fun i : Nat => Spec.ofEnv mem i ++ curs.getD i []).map
        List.length).sum) = size (mem.map fun e => e.2) + size curs := by
      have htag : ∀ e ∈ mem, e.1 < n := fun e he => (h2.eps e (by simp [he])).1
      have hm : ((List.range n).map fun i : Nat => (Spec.ofEnv mem i).length).sum
          = size (mem.map fun e => e.2) := by
        generalize mem = l at htag
        clear h2
        induction l with
        | nil => simp [Spec.ofEnv, size]
        | cons e l ih =>
          have hih := ih (fun e' he' => htag e' (by simp [he']))
          have hen := htag e (by simp)
          simp only [ofEnv_cons, List.length_append, List.sum_map_add, hih]
          simp only [size, List.map_cons, List.sum_cons]
          congr 1
          have : ∀ n, ((List.range n).map fun i : Nat => (if e.1 = i then e.2 else []).length).sum
              = if e.1 < n then e.2.length else 0 := by
            intro n
            induction n with
            | zero => simp
            | succ n ihn =>
              rw [List.range_succ, List.map_append, List.sum_append, ihn]
              by_cases h1 : e.1 < n
              · simp [h1, show e.1 ≠ n by omega, show e.1 < n + 1 by omega]
              · by_cases h2 : e.1 = n
                · simp [h2]
                · simp [h1, h2, show ¬ e.1 < n + 1 by omega]
          rw [this, if_pos hen]
      have hc : ((List.range n).map fun i : Nat => (curs.getD i []).length).sum = size curs := by
        rw [← h2.len]
        unfold size
        congr 1
        apply List.ext_getElem
        · simp
        · intro i h1 h2
          simp only [List.length_map, List.length_range] at h1
          simp [h1]
      rw [List.map_map]
      simp only [Function.comp_def, List.length_append, List.sum_map_add, hm, hc]
    rw [hsum]
    exact h2.small

/-- Two environments, update interval 3: the first dataset has the two episodes of the two
environments. -/
example : ((Agent.new : Agent Nat Nat Int).run 3
    [[⟨0, 0, 1, 1, false, false⟩, ⟨10, 1, 2, 11, true, false⟩],
     [⟨1, 0, 3, 2, false, false⟩, ⟨20, 1, 4, 21, false, false⟩],
     [⟨2, 1, 5, 3, false, true⟩, ⟨21, 0, 6, 22, false, false⟩]]).map (fun a => a.datasets)
    = .ok [[[⟨10, 1, 2, 11, false⟩], [⟨0, 0, 1, 1, true⟩, ⟨1, 0, 3, 2, true⟩], [⟨20, 1, 4, 21, true⟩]]] := by
  decide

end Pfrl.Ppo.Dataset
