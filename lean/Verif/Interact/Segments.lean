import Verif.Basic
import Mathlib.Data.List.Basic
import Mathlib.Logic.Function.Basic

/-!
# A3C: which transitions enter which update

Model of `act`/`observe`/`update` of `pfrl/agents/a3c.py` with its dictionaries `past_obs`, `past_action`,
`past_rewards`, `past_recurrent_state` keyed by the step counter.
-/

namespace Pfrl.Segments

variable {O A R H : Type*}

/-! ## Model -/

/-- What an update is computed from: `past_obs`, `past_action`, `past_rewards` over the segment, the observation whose value is
bootstrapped (`none` for a terminal state) with the recurrent state it is evaluated with, and the recurrent state the
segment is recomputed from. -/
structure Update (O A R H : Type*) where
  obs : List O
  actions : List A
  rewards : List R
  boot : Option (O × Option H)
  firstRec : Option H
  deriving DecidableEq, Repr

/-- The attributes of the agent, `pfrl/agents/a3c.py:93-106`.  A dictionary is a partial function.  `updates` records the
calls of `update`. -/
structure A3c (O A R H : Type*) where
  t : Nat
  tStart : Nat
  pastObs : Nat → Option O
  pastAction : Nat → Option A
  pastRewards : Nat → Option R
  pastRec : Nat → Option (Option H)
  trainRec : Option H
  testRec : Option H
  updates : List (Update O A R H)

/-- A new agent. -/
def A3c.new : A3c O A R H :=
  ⟨0, 0, fun _ => none, fun _ => none, fun _ => none, fun _ => none, none, none, []⟩

/-- `[d[i] for i in range(a, b)]`. -/
def lookups {α : Type*} (d : Nat → Option α) (a b : Nat) : Except PyErr (List α) :=
  (List.range' a (b - a)).mapM fun i =>
    match d i with
    | none => .error .keyError
    | some x => .ok x

/-- `_act_train`, `pfrl/agents/a3c.py:242-267`.  The action and the next recurrent state are what the model gave.
Statistics are not modelled. -/
def A3c.actTrain (recurrent : Bool) (o : O) (a : A) (h : H) (s : A3c O A R H) : A3c O A R H :=
  let s := { s with pastObs := Function.update s.pastObs s.t (some o) }
  let s := if recurrent then
      { s with pastRec := Function.update s.pastRec s.t (some s.trainRec), trainRec := some h }
    else s
  { s with pastAction := Function.update s.pastAction s.t (some a) }

/-- `update`, `pfrl/agents/a3c.py:130-229`: what it reads, and the clearing at its end.  The loss and the step are
the subject of `Verif.Returns.A3C` and `Verif.Agents.Gradients`.  A recurrent model is recomputed from
`past_recurrent_state[t_start]`, line 171. -/
def A3c.update (recurrent : Bool) (boot : Option O) (s : A3c O A R H) : Except PyErr (A3c O A R H) :=
  if ¬ s.tStart < s.t then .error .assertionError
  else
    match lookups s.pastObs s.tStart s.t with
    | .error e => .error e
    | .ok obs =>
    match (if recurrent then s.pastRec s.tStart else some none) with
    | none => .error .keyError
    | some firstRec =>
    match lookups s.pastAction s.tStart s.t with
    | .error e => .error e
    | .ok actions =>
    match lookups s.pastRewards s.tStart s.t with
    | .error e => .error e
    | .ok rewards =>
      .ok { s with
        updates := s.updates ++ [⟨obs, actions, rewards, boot.map fun o => (o, s.trainRec), firstRec⟩]
        pastObs := fun _ => none
        pastAction := fun _ => none
        pastRewards := fun _ => none
        pastRec := fun _ => none
        tStart := s.t }

/-- `_observe_train`, `pfrl/agents/a3c.py:269-284`. -/
def A3c.observeTrain (recurrent : Bool) (tMax : Nat) (o : O) (r : R) (done reset : Bool) (s : A3c O A R H) :
    Except PyErr (A3c O A R H) :=
  let s := { s with t := s.t + 1, pastRewards := Function.update s.pastRewards s.t (some r) }
  match (if s.t - s.tStart = tMax ∨ done = true ∨ reset = true then
      s.update recurrent (if done then none else some o) else .ok s) with
  | .error e => .error e
  | .ok s => .ok (if done || reset then { s with trainRec := none } else s)

/-- `_act_eval`, `pfrl/agents/a3c.py:286-299`. -/
def A3c.actEval (recurrent : Bool) (h : H) (s : A3c O A R H) : A3c O A R H :=
  if recurrent then { s with testRec := some h } else s

/-- `_observe_eval`, `pfrl/agents/a3c.py:301-303`. -/
def A3c.observeEval (done reset : Bool) (s : A3c O A R H) : A3c O A R H :=
  if done || reset then { s with testRec := none } else s

/-- A call of the agent, in training or evaluation mode. -/
inductive Ev (O A R H : Type*) where
  | act (o : O) (a : A) (h : H)
  | observe (o : O) (r : R) (done reset : Bool)
  | evalAct (h : H)
  | evalObserve (done reset : Bool)
  deriving DecidableEq, Repr

/-- A history of calls. -/
def run (recurrent : Bool) (tMax : Nat) : A3c O A R H → List (Ev O A R H) → Except PyErr (A3c O A R H)
  | s, [] => .ok s
  | s, .act o a h :: es => run recurrent tMax (s.actTrain recurrent o a h) es
  | s, .observe o r d rs :: es =>
    match s.observeTrain recurrent tMax o r d rs with
    | .error e => .error e
    | .ok s => run recurrent tMax s es
  | s, .evalAct h :: es => run recurrent tMax (s.actEval recurrent h) es
  | s, .evalObserve d rs :: es => run recurrent tMax (s.observeEval d rs) es

/-! ## Specification -/

/-- A step of the training: what was seen, done and received, with the recurrent states before and after. -/
structure Step (O A R H : Type*) where
  obs : O
  action : A
  reward : R
  next : O
  done : Bool
  reset : Bool
  before : Option H
  after : Option H
  deriving DecidableEq, Repr

/-- An act in training is followed by an observe in training, evaluation calls may be anywhere. -/
def Alternating : Bool → List (Ev O A R H) → Prop
  | _, [] => True
  | acted, .act _ _ _ :: es => acted = false ∧ Alternating true es
  | acted, .observe _ _ _ _ :: es => acted = true ∧ Alternating false es
  | acted, .evalAct _ :: es => Alternating acted es
  | acted, .evalObserve _ _ :: es => Alternating acted es

/-- The steps of a history.  The recurrent state is `None` at the start and after every episode, otherwise what the
previous act left; without a recurrent model it is always `None`. -/
def steps (recurrent : Bool) : Option H → Option (O × A × Option H) → List (Ev O A R H) → List (Step O A R H)
  | _, _, [] => []
  | h, _, .act o a h' :: es => steps recurrent (if recurrent then some h' else none) (some (o, a, h)) es
  | h, some (o, a, hb), .observe o' r d rs :: es =>
    ⟨o, a, r, o', d, rs, hb, h⟩ :: steps recurrent (if d || rs then none else h) none es
  | h, none, .observe _ _ _ _ :: es => steps recurrent h none es
  | h, p, .evalAct _ :: es => steps recurrent h p es
  | h, p, .evalObserve _ _ :: es => steps recurrent h p es

/-- Cutting a sequence of steps after every episode end and after `tMax` steps: the complete segments and what is left. -/
def cut (tMax : Nat) : List (Step O A R H) → List (Step O A R H) → List (List (Step O A R H)) × List (Step O A R H)
  | cur, [] => ([], cur)
  | cur, s :: ss =>
    if cur.length + 1 = tMax ∨ s.done = true ∨ s.reset = true then
      ((cur ++ [s]) :: (cut tMax [] ss).1, (cut tMax [] ss).2)
    else cut tMax (cur ++ [s]) ss

/-- The update a segment should give: its own observations, actions and rewards, the value of the observation after its
last step unless that ended the episode by `done`, and the recurrent state its first step started with. -/
def expected (seg : List (Step O A R H)) : Update O A R H :=
  { obs := seg.map (·.obs), actions := seg.map (·.action), rewards := seg.map (·.reward)
    boot := seg.getLast?.bind fun l => if l.done then none else some (l.next, l.after)
    firstRec := seg.head?.bind (·.before) }

/-! ## Lemmas -/

theorem lookups_eq {α : Type*} (d : Nat → Option α) (a : Nat) (xs : List α)
    (h : ∀ i, i < xs.length → d (a + i) = xs[i]?) : lookups d a (a + xs.length) = .ok xs := by
  induction xs generalizing a with
  | nil => simp [lookups, pure, Except.pure]
  | cons x xs ih =>
    have h0 : d a = some x := by simpa using h 0 (by simp)
    have hr : lookups d (a + 1) (a + 1 + xs.length) = .ok xs := by
      apply ih
      intro i hi
      have := h (i + 1) (by simpa using hi)
      simpa [Nat.add_assoc, Nat.add_comm 1 i] using this
    simp only [lookups, Nat.add_sub_cancel_left] at hr ⊢
    simp only [List.length_cons, List.range'_succ, List.mapM_cons, h0, hr, bind, Except.bind, pure, Except.pure]

/-- The state between calls: `cur` are the steps since the last update, `pend` an act without its observe. -/
structure Inv (recurrent : Bool) (s : A3c O A R H) (cur : List (Step O A R H)) (h : Option H)
    (pend : Option (O × A × Option H)) : Prop where
  t : s.t = s.tStart + cur.length
  obs : ∀ i, i < cur.length → s.pastObs (s.tStart + i) = (cur.map (·.obs))[i]?
  act : ∀ i, i < cur.length → s.pastAction (s.tStart + i) = (cur.map (·.action))[i]?
  rew : ∀ i, i < cur.length → s.pastRewards (s.tStart + i) = (cur.map (·.reward))[i]?
  first : recurrent = true → ∀ x, cur.head? = some x → s.pastRec s.tStart = some x.before
  before : recurrent = false → ∀ x ∈ cur, x.before = none
  rec' : s.trainRec = h
  noRec : recurrent = false → h = none
  pendOk : ∀ o a hb, pend = some (o, a, hb) → s.pastObs s.t = some o ∧ s.pastAction s.t = some a ∧
    (recurrent = true → cur = [] → s.pastRec s.tStart = some hb) ∧ (recurrent = false → hb = none)

theorem inv_act {recurrent : Bool} {s : A3c O A R H} {cur : List (Step O A R H)} {h : Option H}
    (hi : Inv recurrent s cur h none) (o : O) (a : A) (h' : H) :
    Inv recurrent (s.actTrain recurrent o a h') cur (if recurrent then some h' else none) (some (o, a, h)) := by
  obtain ⟨ht, ho, ha, hr, hf, hb, hrec, hno, -⟩ := hi
  have hne : ∀ i, i < cur.length → s.tStart + i ≠ s.t := fun i hi => by omega
  cases recurrent with
  | false =>
    have hh := hno rfl
    subst hh
    refine ⟨ht, ?_, ?_, hr, by simp, hb, hrec, by simp, ?_⟩
    · intro i hi
      simp only [A3c.actTrain, Bool.false_eq_true, if_false, Function.update_of_ne (hne i hi)]
      exact ho i hi
    · intro i hi
      simp only [A3c.actTrain, Bool.false_eq_true, if_false, Function.update_of_ne (hne i hi)]
      exact ha i hi
    · intro o' a' hb' he
      simp only [Option.some.injEq, Prod.mk.injEq] at he
      obtain ⟨rfl, rfl, rfl⟩ := he
      simp [A3c.actTrain]
  | true =>
    refine ⟨ht, ?_, ?_, hr, ?_, by simp, rfl, by simp, ?_⟩
    · intro i hi
      simp only [A3c.actTrain, if_true, Function.update_of_ne (hne i hi)]
      exact ho i hi
    · intro i hi
      simp only [A3c.actTrain, if_true, Function.update_of_ne (hne i hi)]
      exact ha i hi
    · intro _ x hx
      have hpos : 0 < cur.length := by
        cases cur with
        | nil => simp at hx
        | cons => simp
      have : s.tStart ≠ s.t := by omega
      simp only [A3c.actTrain, if_true, Function.update_of_ne this]
      exact hf rfl x hx
    · intro o' a' hb' he
      simp only [Option.some.injEq, Prod.mk.injEq] at he
      obtain ⟨rfl, rfl, rfl⟩ := he
      refine ⟨by simp [A3c.actTrain], by simp [A3c.actTrain], ?_, by simp⟩
      intro _ hc
      have : s.t = s.tStart := by rw [ht, hc]; simp
      simp [A3c.actTrain, this, hrec]

theorem dict_extend {X α : Type*} {cur : List X} {a t : Nat} (f : X → α) (dct : Nat → Option α) (x : X)
    (ht : t = a + cur.length) (h1 : ∀ i, i < cur.length → dct (a + i) = (cur.map f)[i]?) (h2 : dct t = some (f x))
    (i : Nat) (hi : i < (cur ++ [x]).length) : dct (a + i) = ((cur ++ [x]).map f)[i]? := by
  simp only [List.length_append, List.length_cons, List.length_nil, Nat.zero_add] at hi
  by_cases hlt : i < cur.length
  · rw [h1 i hlt, List.map_append, List.getElem?_append_left (by simpa using hlt)]
  · have : i = cur.length := by omega
    subst this
    rw [← ht, h2]
    simp

theorem inv_extend {recurrent : Bool} {s : A3c O A R H} {cur : List (Step O A R H)} {h : Option H} {o : O} {a : A}
    {hb : Option H} (hi : Inv recurrent s cur h (some (o, a, hb))) (o' : O) (r : R) (d rs : Bool) :
    Inv recurrent { s with t := s.t + 1, pastRewards := Function.update s.pastRewards s.t (some r) }
      (cur ++ [⟨o, a, r, o', d, rs, hb, h⟩]) h none := by
  obtain ⟨ht, ho, ha, hr, hf, hbf, hrec, hno, hp⟩ := hi
  obtain ⟨hpo, hpa, hpr, hpn⟩ := hp o a hb rfl
  refine ⟨by simp only [List.length_append, List.length_cons, List.length_nil]; omega,
    dict_extend (·.obs) _ _ ht ho hpo, dict_extend (·.action) _ _ ht ha hpa,
    dict_extend (·.reward) _ _ ht ?_ (Function.update_self ..), ?_, ?_, hrec, hno, by simp⟩
  · intro i hi
    have : s.tStart + i ≠ s.t := by omega
    simp only [Function.update_of_ne this]
    exact hr i hi
  · intro hrc x hx
    cases cur with
    | nil =>
      simp only [List.nil_append, List.head?_cons, Option.some.injEq] at hx
      subst hx
      exact hpr hrc rfl
    | cons y ys =>
      simp only [List.cons_append, List.head?_cons, Option.some.injEq] at hx
      subst hx
      exact hf hrc y (by simp)
  · intro hrc x hx
    simp only [List.mem_append, List.mem_singleton] at hx
    rcases hx with hx | hx
    · exact hbf hrc x hx
    · subst hx; exact hpn hrc

theorem update_eq {recurrent : Bool} {s : A3c O A R H} {cur : List (Step O A R H)} {h : Option H}
    (hi : Inv recurrent s cur h none) (l : Step O A R H) (hl : cur.getLast? = some l) (hla : l.after = h) :
    ∃ s', s.update recurrent (if l.done then none else some l.next) = .ok s' ∧
      s'.updates = s.updates ++ [expected cur] ∧ Inv recurrent s' [] h none := by
  obtain ⟨ht, ho, ha, hr, hf, hb, hrec, hno, -⟩ := hi
  have hne : cur ≠ [] := by rintro rfl; simp at hl
  have hpos : 0 < cur.length := List.length_pos_iff.2 hne
  have hlt : ¬ ¬ s.tStart < s.t := by omega
  have e1 : lookups s.pastObs s.tStart s.t = .ok (cur.map (·.obs)) := by
    rw [ht]; simpa using lookups_eq s.pastObs s.tStart (cur.map (·.obs)) (by simpa using ho)
  have e2 : lookups s.pastAction s.tStart s.t = .ok (cur.map (·.action)) := by
    rw [ht]; simpa using lookups_eq s.pastAction s.tStart (cur.map (·.action)) (by simpa using ha)
  have e3 : lookups s.pastRewards s.tStart s.t = .ok (cur.map (·.reward)) := by
    rw [ht]; simpa using lookups_eq s.pastRewards s.tStart (cur.map (·.reward)) (by simpa using hr)
  obtain ⟨x, xs, rfl⟩ := List.exists_cons_of_ne_nil hne
  have e4 : (if recurrent then s.pastRec s.tStart else some none) = some x.before := by
    cases recurrent with
    | true => simpa using hf rfl x (by simp)
    | false => simpa using (hb rfl x (by simp)).symm
  refine ⟨_, by simp only [A3c.update, if_neg hlt, e1, e2, e3, e4]; rfl, ?_, ?_⟩
  · simp only [List.append_cancel_left_eq, List.cons.injEq, and_true]
    simp only [expected, hl, List.head?_cons, Option.bind_some, hla, hrec]
    cases l.done <;> simp
  · exact ⟨by simp, by simp, by simp, by simp, by simp, by simp, hrec, hno, by simp⟩

theorem run_updates (recurrent : Bool) (tMax : Nat) (es : List (Ev O A R H)) (s : A3c O A R H)
    (cur : List (Step O A R H)) (h : Option H) (pend : Option (O × A × Option H)) (hi : Inv recurrent s cur h pend)
    (halt : Alternating pend.isSome es) :
    ∃ s', run recurrent tMax s es = .ok s' ∧
      s'.updates = s.updates ++ (cut tMax cur (steps recurrent h pend es)).1.map expected := by
  induction es generalizing s cur h pend with
  | nil => exact ⟨s, rfl, by simp [steps, cut]⟩
  | cons e es ih =>
    cases e with
    | act o a h' =>
      obtain ⟨hn, halt⟩ := halt
      cases pend with
      | some p => simp at hn
      | none =>
        obtain ⟨s', h1, h2⟩ := ih _ cur _ _ (inv_act hi o a h') halt
        refine ⟨s', h1, ?_⟩
        rw [h2]
        cases recurrent <;> rfl
    | observe o' r d rs =>
      obtain ⟨hn, halt⟩ := halt
      cases pend with
      | none => simp at hn
      | some p =>
        obtain ⟨o, a, hb⟩ := p
        have hx := inv_extend hi o' r d rs
        have ht := hi.t
        by_cases hc : cur.length + 1 = tMax ∨ d = true ∨ rs = true
        · obtain ⟨s1, u1, u2, u3⟩ := update_eq hx ⟨o, a, r, o', d, rs, hb, h⟩ (by simp) rfl
          have hcond : s.t + 1 - s.tStart = tMax ∨ d = true ∨ rs = true := by
            rcases hc with hc | hc
            · left; omega
            · exact Or.inr hc
          have hi2 : Inv recurrent (if d || rs then { s1 with trainRec := none } else s1) [] (if d || rs then none else h)
              none := by
            cases hdr : d || rs with
            | false => simpa using u3
            | true =>
              simp only [if_true]
              exact ⟨by simpa using u3.t, by simp, by simp, by simp, by simp, by simp, rfl, by simp, by simp⟩
          obtain ⟨s', h1, h2⟩ := ih _ [] _ none hi2 halt
          refine ⟨s', ?_, ?_⟩
          · simp only [run, A3c.observeTrain, if_pos hcond, u1]
            exact h1
          · rw [h2]
            have : (if (d || rs) = true then { s1 with trainRec := none } else s1).updates = s1.updates := by
              split <;> rfl
            rw [this, u2]
            simp only [steps, cut, if_pos hc, List.map_cons, List.append_assoc, List.cons_append, List.nil_append]
        · have hcond : ¬ (s.t + 1 - s.tStart = tMax ∨ d = true ∨ rs = true) := by
            rintro (hc' | hc')
            · exact hc (Or.inl (by omega))
            · exact hc (Or.inr hc')
          have hdr : (d || rs) = false := by
            cases d <;> cases rs <;> simp_all
          obtain ⟨s', h1, h2⟩ := ih _ _ h none hx halt
          refine ⟨s', ?_, ?_⟩
          · simp only [run, A3c.observeTrain, if_neg hcond, hdr, Bool.false_eq_true, if_false]
            exact h1
          · rw [h2]
            simp only [steps, cut, if_neg hc, hdr, Bool.false_eq_true, if_false]
    | evalAct h' =>
      have hi2 : Inv recurrent (s.actEval recurrent h') cur h pend := by
        cases recurrent with
        | false => simpa [A3c.actEval] using hi
        | true => exact ⟨hi.t, hi.obs, hi.act, hi.rew, hi.first, hi.before, hi.rec', hi.noRec, hi.pendOk⟩
      obtain ⟨s', h1, h2⟩ := ih _ cur h pend hi2 halt
      refine ⟨s', h1, ?_⟩
      rw [h2]
      cases recurrent <;> cases pend <;> simp [A3c.actEval, steps]
    | evalObserve d rs =>
      have hi2 : Inv recurrent (s.observeEval d rs) cur h pend := by
        simp only [A3c.observeEval]
        split
        · exact ⟨hi.t, hi.obs, hi.act, hi.rew, hi.first, hi.before, hi.rec', hi.noRec, hi.pendOk⟩
        · exact hi
      obtain ⟨s', h1, h2⟩ := ih _ cur h pend hi2 halt
      refine ⟨s', h1, ?_⟩
      rw [h2]
      have : (s.observeEval d rs).updates = s.updates := by simp only [A3c.observeEval]; split <;> rfl
      rw [this]
      cases pend <;> simp [steps]

/-! ## C91: A3C uses every transition exactly once, in its own segment -/

/-- C91.  Any history of a new agent in which acts and observes of the training alternate, with evaluation calls
anywhere, runs without an error, and the updates are those of the segments of the training steps: cut after every
episode end and after `tMax` steps, each with its own observations, actions and rewards, bootstrapping and recurrent
state. -/
theorem a3c_updates (recurrent : Bool) (tMax : Nat) (es : List (Ev O A R H)) (halt : Alternating false es) :
    ∃ s, run recurrent tMax A3c.new es = .ok s ∧
      s.updates = (cut tMax [] (steps recurrent none none es)).1.map expected := by
  have hi : Inv recurrent (A3c.new : A3c O A R H) [] none none :=
    ⟨rfl, by simp, by simp, by simp, by simp, by simp, rfl, by simp, by simp⟩
  obtain ⟨s, h1, h2⟩ := run_updates recurrent tMax es A3c.new [] none none hi halt
  exact ⟨s, h1, by simpa [A3c.new] using h2⟩

theorem cut_flatten (tMax : Nat) (ss cur : List (Step O A R H)) :
    (cut tMax cur ss).1.flatten ++ (cut tMax cur ss).2 = cur ++ ss := by
  induction ss generalizing cur with
  | nil => simp [cut]
  | cons s ss ih =>
    simp only [cut]
    split
    · simp only [List.flatten_cons, List.append_assoc, ih]; simp
    · rw [ih]; simp

/-- C91, what the segments are: put together, with the steps after the last update, they are the steps of the
training, each exactly once and in order; a segment is not empty, and no longer than `tMax` (if positive); an
episode end is only at the end of a segment; a segment ends because it is full or because the episode ended. -/
theorem a3c_segments (tMax : Nat) (hT : 0 < tMax) (ss : List (Step O A R H)) :
    (cut tMax [] ss).1.flatten ++ (cut tMax [] ss).2 = ss ∧
    (cut tMax [] ss).2.length < tMax ∧
    (∀ x ∈ (cut tMax [] ss).2, x.done = false ∧ x.reset = false) ∧
    ∀ seg ∈ (cut tMax [] ss).1, ∃ init l, seg = init ++ [l] ∧ seg.length ≤ tMax ∧
      (∀ x ∈ init, x.done = false ∧ x.reset = false) ∧ (seg.length = tMax ∨ l.done = true ∨ l.reset = true) := by
  refine ⟨by simpa using cut_flatten tMax ss [], ?_⟩
  have main : ∀ (ss cur : List (Step O A R H)), cur.length < tMax → (∀ x ∈ cur, x.done = false ∧ x.reset = false) →
      (cut tMax cur ss).2.length < tMax ∧
      (∀ x ∈ (cut tMax cur ss).2, x.done = false ∧ x.reset = false) ∧
      ∀ seg ∈ (cut tMax cur ss).1, ∃ init l, seg = init ++ [l] ∧ seg.length ≤ tMax ∧
        (∀ x ∈ init, x.done = false ∧ x.reset = false) ∧
        (seg.length = tMax ∨ l.done = true ∨ l.reset = true) := by
    intro ss
    induction ss with
    | nil => intro cur hc hx; simpa [cut] using ⟨hc, hx⟩
    | cons s ss ih =>
      intro cur hc hx
      by_cases hcond : cur.length + 1 = tMax ∨ s.done = true ∨ s.reset = true
      · simp only [cut, if_pos hcond]
        obtain ⟨h1, h2, h3⟩ := ih [] (by simpa using hT) (by simp)
        refine ⟨h1, h2, ?_⟩
        intro seg hs
        rcases List.mem_cons.1 hs with rfl | hs
        · exact ⟨cur, s, rfl, by simp; omega, hx, by simpa using hcond⟩
        · exact h3 seg hs
      · simp only [cut, if_neg hcond]
        have hne : ¬ cur.length + 1 = tMax := fun h => hcond (Or.inl h)
        refine ih (cur ++ [s]) (by simp; omega) ?_
        intro x hx'
        rcases List.mem_append.1 hx' with h | h
        · exact hx x h
        · simp only [List.mem_singleton] at h
          subst h
          constructor
          · cases hd : x.done with
            | false => rfl
            | true => exact absurd (Or.inr (Or.inl hd)) hcond
          · cases hd : x.reset with
            | false => rfl
            | true => exact absurd (Or.inr (Or.inr hd)) hcond
  exact main ss [] (by simpa using hT) (by simp)

/-- Is this a call in evaluation mode that sets or clears the recurrent state of the evaluation? -/
def Ev.touchesTest : Ev O A R H → Bool
  | .evalAct _ => true
  | .evalObserve d rs => d || rs
  | _ => false

theorem run_append (recurrent : Bool) (tMax : Nat) (es fs : List (Ev O A R H)) (s : A3c O A R H) :
    run recurrent tMax s (es ++ fs) =
      (match run recurrent tMax s es with
       | .error e => .error e
       | .ok s => run recurrent tMax s fs) := by
  induction es generalizing s with
  | nil => rfl
  | cons e es ih =>
    cases e with
    | act o a h => exact ih _
    | observe o r d rs =>
      simp only [List.cons_append, run]
      cases s.observeTrain recurrent tMax o r d rs with
      | error e => rfl
      | ok s => exact ih s
    | evalAct h => exact ih _
    | evalObserve d rs => exact ih _

theorem update_test {recurrent : Bool} {b : Option O} {s s' : A3c O A R H} (h : s.update recurrent b = .ok s') :
    s'.testRec = s.testRec := by
  unfold A3c.update at h
  repeat' split at h
  all_goals first | cases h; rfl | cases h

theorem observe_test {recurrent : Bool} {tMax : Nat} {o : O} {r : R} {d rs : Bool} {s s' : A3c O A R H}
    (h : s.observeTrain recurrent tMax o r d rs = .ok s') : s'.testRec = s.testRec := by
  unfold A3c.observeTrain at h
  simp only at h
  split at h
  · cases h
  · rename_i s2 hs2
    cases h
    have h2 : s2.testRec = s.testRec := by
      split at hs2
      · exact (update_test hs2).trans rfl
      · cases hs2; rfl
    split
    · exact h2
    · exact h2

theorem run_test_quiet (recurrent : Bool) (tMax : Nat) (es : List (Ev O A R H)) (hq : ∀ e ∈ es, e.touchesTest = false)
    (s s' : A3c O A R H) (h : run recurrent tMax s es = .ok s') : s'.testRec = s.testRec := by
  induction es generalizing s with
  | nil => cases h; rfl
  | cons e es ih =>
    have hq' : ∀ e ∈ es, e.touchesTest = false := fun x hx => hq x (by simp [hx])
    cases e with
    | act o a h' =>
      rw [ih hq' _ h]
      unfold A3c.actTrain
      split <;> rfl
    | observe o r d rs =>
      simp only [run] at h
      cases ho : s.observeTrain recurrent tMax o r d rs with
      | error e => rw [ho] at h; cases h
      | ok s2 =>
        rw [ho] at h
        rw [ih hq' _ h, observe_test ho]
    | evalAct h' => have := hq _ (List.mem_cons_self); cases this
    | evalObserve d rs =>
      have hd : (d || rs) = false := hq (.evalObserve d rs) (by simp)
      rw [ih hq' _ h]
      simp [A3c.observeEval, hd]

/-- C91, the recurrent state of the evaluation: it is the one produced by the last evaluation act, as long as the evaluation
episode goes on; it is empty from the end of an evaluation episode (by `done` or by a reset) to the next evaluation act, and
before the first one.  Training calls in between do not change it. -/
theorem a3c_test_state (tMax : Nat) (es post : List (Ev O A R H)) (hq : ∀ e ∈ post, e.touchesTest = false)
    (s : A3c O A R H) :
    (∀ h, run true tMax A3c.new (es ++ .evalAct h :: post) = .ok s → s.testRec = some h) ∧
    (∀ d rs, d = true ∨ rs = true → run true tMax A3c.new (es ++ .evalObserve d rs :: post) = .ok s → s.testRec = none) ∧
    (run true tMax A3c.new post = .ok s → s.testRec = none) := by
  refine ⟨fun h hr => ?_, fun d rs hd hr => ?_, fun hr => ?_⟩
  · rw [run_append] at hr
    cases h1 : run true tMax A3c.new es with
    | error e => rw [h1] at hr; cases hr
    | ok s1 =>
      rw [h1] at hr
      rw [run_test_quiet true tMax post hq _ s hr]
      rfl
  · rw [run_append] at hr
    cases h1 : run true tMax A3c.new es with
    | error e => rw [h1] at hr; cases hr
    | ok s1 =>
      rw [h1] at hr
      rw [run_test_quiet true tMax post hq _ s hr]
      have : (d || rs) = true := by rcases hd with rfl | rfl <;> simp
      simp [A3c.observeEval, this]
  · rw [run_test_quiet true tMax post hq _ s hr]
    rfl

/-- A history with an evaluation in the middle of a segment and a time limit. -/
example :
    let es : List (Ev Nat Nat Nat Nat) :=
      [.act 0 10 100, .observe 1 7 false false, .evalAct 55, .evalObserve true false, .act 1 11 101,
       .observe 2 8 false false, .act 2 12 102, .observe 3 9 false true, .act 5 13 103, .observe 6 1 true false]
    Alternating false es ∧
    (match run true 2 A3c.new es with
     | .ok s => s.updates
     | .error _ => []) =
      [⟨[0, 1], [10, 11], [7, 8], some (2, some 101), none⟩, ⟨[2], [12], [9], some (3, some 102), some 101⟩,
       ⟨[5], [13], [1], none, none⟩] := by
  refine ⟨by simp [Alternating], by decide +kernel⟩

/-- An evaluation episode cut by a reset, then training: the next evaluation starts with an empty state. -/
example : (match run true 2 A3c.new ([.evalAct 55, .evalObserve false true, .act 0 10 100, .observe 1 7 false false] :
      List (Ev Nat Nat Nat Nat)) with
     | .ok s => some s.testRec
     | .error _ => none) = some none := by decide +kernel

end Pfrl.Segments
