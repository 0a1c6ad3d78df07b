import Verif.Interact.Segments

/-!
# ACER: stored transitions, on-policy updates and replays

Model of `act`/`observe`/`update_on_policy` of `pfrl/agents/acer.py`.  The calls the agent makes (to its replay buffer,
on-policy updates, updates from replay) are recorded in a log; every forward pass of the training carries the number
of changes of the local model before it.
-/

namespace Pfrl.AcerSegments

open Pfrl.Segments

variable {O A M F R H : Type*}

/-! ## Model -/

/-- What one `_act_train` keeps for the update: the outputs of the model (action distribution, action values, value and
the distribution of the average model, together `out`), the recurrent state it was computed from, and the number of
changes of the model before it. -/
structure Fwd (F H : Type*) where
  out : F
  before : Option H
  version : Nat
  deriving DecidableEq, Repr

/-- The calls of the agent.  `mu` is the copy of the distribution the action was drawn from. -/
inductive Call (O A M F R H : Type*) where
  | append (state : O) (action : A) (reward : R) (next : O) (terminal : Bool) (mu : M)
  | stop
  | online (fwds : List (Fwd F H)) (actions : List A) (rewards : List R) (boot : Option (O × Option H))
  | replay
  deriving DecidableEq, Repr

/-- The calls that change the local model: `update` ends with `sync_parameters`, `pfrl/agents/acer.py:592`. -/
def Call.isUpdate : Call O A M F R H → Bool
  | .online _ _ _ _ => true
  | .replay => true
  | _ => false

/-- The attributes, `pfrl/agents/acer.py:370-385`.  `past_values`, `past_action_distrib`, `past_action_values` and
`past_avg_action_distrib` are set together and kept together here.  The recurrent state of the average model, which is
reset in the same places as `train_recurrent_states`, is left out. -/
structure Acer (O A M F R H : Type*) where
  t : Nat
  tStart : Nat
  pastActions : Nat → Option A
  pastRewards : Nat → Option R
  pastFwd : Nat → Option (Fwd F H)
  lastState : Option O
  lastAction : Option A
  lastMu : Option M
  trainRec : Option H
  testRec : Option H
  log : List (Call O A M F R H)

/-- A new agent. -/
def Acer.new : Acer O A M F R H :=
  ⟨0, 0, fun _ => none, fun _ => none, fun _ => none, none, none, none, none, none, []⟩

/-- The number of changes of the local model so far. -/
def version (log : List (Call O A M F R H)) : Nat := (log.filter Call.isUpdate).length

/-- The configuration: `ready` stands for `replay_buffer is not None and len(replay_buffer) >= replay_start_size`, for the
calls made so far. -/
structure Config (O A M F R H : Type*) where
  recurrent : Bool
  tMax : Nat
  hasBuffer : Bool
  disableOnline : Bool
  nReplay : Nat
  ready : List (Call O A M F R H) → Bool

/-- `_act_train`, `pfrl/agents/acer.py:713-757`. -/
def Acer.actTrain (c : Config O A M F R H) (o : O) (a : A) (mu : M) (f : F) (h : H) (s : Acer O A M F R H) :
    Acer O A M F R H :=
  let fwd : Fwd F H := ⟨f, s.trainRec, version s.log⟩
  let s := if c.recurrent then { s with trainRec := some h } else s
  { s with
    pastFwd := Function.update s.pastFwd s.t (some fwd)
    pastActions := Function.update s.pastActions s.t (some a)
    lastState := some o, lastAction := some a, lastMu := some mu }

/-- `init_history_data_for_online_update`, `pfrl/agents/acer.py:387-394`. -/
def Acer.clear (s : Acer O A M F R H) : Acer O A M F R H :=
  { s with pastActions := fun _ => none, pastRewards := fun _ => none, pastFwd := fun _ => none, tStart := s.t }

/-- `update_on_policy`, `pfrl/agents/acer.py:668-699`, with what `compute_loss` reads, lines 462-482. -/
def Acer.updateOnPolicy (c : Config O A M F R H) (boot : Option O) (s : Acer O A M F R H) :
    Except PyErr (Acer O A M F R H) :=
  if ¬ s.tStart < s.t then .error .assertionError
  else
    if c.disableOnline then .ok s.clear
    else
      match lookups s.pastFwd s.tStart s.t with
      | .error e => .error e
      | .ok fwds =>
      match lookups s.pastActions s.tStart s.t with
      | .error e => .error e
      | .ok actions =>
      match lookups s.pastRewards s.tStart s.t with
      | .error e => .error e
      | .ok rewards =>
        .ok ({ s with
          log := s.log ++ [.online fwds actions rewards (boot.map fun o => (o, s.trainRec))] } : Acer O A M F R H).clear

/-- `for _ in range(self.n_times_replay): self.update_from_replay()`, `pfrl/agents/acer.py:807-808, 594-599`. -/
def replays (ready : List (Call O A M F R H) → Bool) : Nat → List (Call O A M F R H) → List (Call O A M F R H)
  | 0, log => log
  | n + 1, log => replays ready n (if ready log then log ++ [.replay] else log)

/-- The calls of the replay buffer, `pfrl/agents/acer.py:778-789`. -/
def storeCalls (hasBuffer : Bool) (log : List (Call O A M F R H)) (tr : Call O A M F R H) (ended : Bool) :
    List (Call O A M F R H) :=
  if hasBuffer then (if ended then log ++ [tr] ++ [.stop] else log ++ [tr]) else log

/-- `_observe_train`, `pfrl/agents/acer.py:774-815`. -/
def Acer.observeTrain (c : Config O A M F R H) (o : O) (r : R) (done reset : Bool) (s : Acer O A M F R H) :
    Except PyErr (Acer O A M F R H) :=
  match s.lastState, s.lastAction, s.lastMu with
  | some o0, some a, some mu =>
    let s := { s with log := storeCalls c.hasBuffer s.log (.append o0 a r o done mu) (done || reset) }
    let s := { s with t := s.t + 1, pastRewards := Function.update s.pastRewards s.t (some r) }
    match (if s.t - s.tStart = c.tMax ∨ done = true ∨ reset = true then
        match s.updateOnPolicy c (if done then none else some o) with
        | .error e => Except.error e
        | .ok s => .ok { s with log := replays c.ready c.nReplay s.log }
      else .ok s) with
    | .error e => .error e
    | .ok s =>
      let s := if done || reset then { s with trainRec := none } else s
      .ok { s with lastState := none, lastAction := none, lastMu := none }
  | _, _, _ => .error .assertionError

/-- A call of the agent, in training or evaluation mode. -/
inductive Ev (O A M F R H : Type*) where
  | act (o : O) (a : A) (mu : M) (f : F) (h : H)
  | observe (o : O) (r : R) (done reset : Bool)
  | evalAct (h : H)
  | evalObserve (done reset : Bool)
  deriving DecidableEq, Repr

/-- A history of calls; `_act_eval` and `_observe_eval`, `pfrl/agents/acer.py:759-772, 817-819`. -/
def run (c : Config O A M F R H) : Acer O A M F R H → List (Ev O A M F R H) → Except PyErr (Acer O A M F R H)
  | s, [] => .ok s
  | s, .act o a mu f h :: es => run c (s.actTrain c o a mu f h) es
  | s, .observe o r d rs :: es =>
    match s.observeTrain c o r d rs with
    | .error e => .error e
    | .ok s => run c s es
  | s, .evalAct h :: es => run c (if c.recurrent then { s with testRec := some h } else s) es
  | s, .evalObserve d rs :: es => run c (if d || rs then { s with testRec := none } else s) es

/-! ## Specification -/

/-- An act in training is followed by an observe in training, evaluation calls may be anywhere. -/
def Alternating : Bool → List (Ev O A M F R H) → Prop
  | _, [] => True
  | acted, .act _ _ _ _ _ :: es => acted = false ∧ Alternating true es
  | acted, .observe _ _ _ _ :: es => acted = true ∧ Alternating false es
  | acted, .evalAct _ :: es => Alternating acted es
  | acted, .evalObserve _ _ :: es => Alternating acted es

/-- The training steps of a history: a step's action comes with the distribution it was drawn from and the outputs of
the model. -/
abbrev AStep (O A M F R H : Type*) := Step O (A × M × F) R H

def steps (recurrent : Bool) : Option H → Option (O × (A × M × F) × Option H) → List (Ev O A M F R H) →
    List (AStep O A M F R H)
  | _, _, [] => []
  | h, _, .act o a mu f h' :: es => steps recurrent (if recurrent then some h' else none) (some (o, (a, mu, f), h)) es
  | h, some (o, a, hb), .observe o' r d rs :: es =>
    ⟨o, a, r, o', d, rs, hb, h⟩ :: steps recurrent (if d || rs then none else h) none es
  | h, none, .observe _ _ _ _ :: es => steps recurrent h none es
  | h, p, .evalAct _ :: es => steps recurrent h p es
  | h, p, .evalObserve _ _ :: es => steps recurrent h p es

/-- The transition a step stores. -/
def stored (s : AStep O A M F R H) : Call O A M F R H := .append s.obs s.action.1 s.reward s.next s.done s.action.2.1

/-- The on-policy update of a segment, when the model has been changed `v` times. -/
def online (v : Nat) (seg : List (AStep O A M F R H)) : Call O A M F R H :=
  .online (seg.map fun s => ⟨s.action.2.2, s.before, v⟩) (seg.map fun s => s.action.1) (seg.map (·.reward))
    (seg.getLast?.bind fun l => if l.done then none else some (l.next, l.after))

/-- What the agent should do: store each step (and close the episode after its last one); after every segment, one on-policy
update with that segment, then `nReplay` times a replay if the buffer is ready. -/
def ideal (c : Config O A M F R H) : List (AStep O A M F R H) → List (AStep O A M F R H) → List (Call O A M F R H) →
    List (Call O A M F R H)
  | _, [], log => log
  | cur, s :: ss, log =>
    let log := if c.hasBuffer then log ++ [stored s] ++ (if s.done || s.reset then [.stop] else []) else log
    if cur.length + 1 = c.tMax ∨ s.done = true ∨ s.reset = true then
      let log := if c.disableOnline then log else log ++ [online (version log) (cur ++ [s])]
      ideal c [] ss (replays c.ready c.nReplay log)
    else ideal c (cur ++ [s]) ss log

/-! ## Lemmas -/

theorem version_append_other (log : List (Call O A M F R H)) (x : Call O A M F R H) (h : x.isUpdate = false) :
    version (log ++ [x]) = version log := by
  simp [version, h]

/-- The state between calls. -/
structure Inv (c : Config O A M F R H) (s : Acer O A M F R H) (cur : List (AStep O A M F R H)) (h : Option H)
    (pend : Option (O × (A × M × F) × Option H)) : Prop where
  t : s.t = s.tStart + cur.length
  act : ∀ i, i < cur.length → s.pastActions (s.tStart + i) = (cur.map fun x => x.action.1)[i]?
  rew : ∀ i, i < cur.length → s.pastRewards (s.tStart + i) = (cur.map (·.reward))[i]?
  fwd : ∀ i, i < cur.length → s.pastFwd (s.tStart + i) =
    (cur.map fun x => (⟨x.action.2.2, x.before, version s.log⟩ : Fwd F H))[i]?
  rec' : s.trainRec = h
  noRec : c.recurrent = false → h = none
  pendOk : ∀ o a hb, pend = some (o, a, hb) → s.lastState = some o ∧ s.lastAction = some a.1 ∧ s.lastMu = some a.2.1 ∧
    s.pastActions s.t = some a.1 ∧ s.pastFwd s.t = some ⟨a.2.2, hb, version s.log⟩

theorem inv_act {c : Config O A M F R H} {s : Acer O A M F R H} {cur : List (AStep O A M F R H)} {h : Option H}
    (hi : Inv c s cur h none) (o : O) (a : A) (mu : M) (f : F) (h' : H) :
    Inv c (s.actTrain c o a mu f h') cur (if c.recurrent then some h' else none) (some (o, (a, mu, f), h)) := by
  obtain ⟨ht, ha, hr, hf, hrec, hno, -⟩ := hi
  have hne : ∀ i, i < cur.length → s.tStart + i ≠ s.t := fun i hi => by omega
  have hlog : (s.actTrain c o a mu f h').log = s.log := by simp only [Acer.actTrain]; split <;> rfl
  have hts : (s.actTrain c o a mu f h').tStart = s.tStart := by simp only [Acer.actTrain]; split <;> rfl
  have htt : (s.actTrain c o a mu f h').t = s.t := by simp only [Acer.actTrain]; split <;> rfl
  have hpa : (s.actTrain c o a mu f h').pastActions = Function.update s.pastActions s.t (some a) := by
    simp only [Acer.actTrain]; split <;> rfl
  have hpf : (s.actTrain c o a mu f h').pastFwd =
      Function.update s.pastFwd s.t (some ⟨f, s.trainRec, version s.log⟩) := by
    simp only [Acer.actTrain]; split <;> rfl
  refine ⟨by rw [htt, hts]; exact ht, ?_, ?_, ?_, ?_, by intro hc; simp [hc], ?_⟩
  · intro i hi
    rw [hts, hpa, Function.update_of_ne (hne i hi)]
    exact ha i hi
  · intro i hi
    have : (s.actTrain c o a mu f h').pastRewards = s.pastRewards := by simp only [Acer.actTrain]; split <;> rfl
    rw [hts, this]
    exact hr i hi
  · intro i hi
    rw [hts, hpf, hlog, Function.update_of_ne (hne i hi)]
    exact hf i hi
  · cases hc : c.recurrent with
    | true => simp [Acer.actTrain, hc]
    | false => simp [Acer.actTrain, hc, hrec, hno hc]
  · intro o' a' hb' he
    simp only [Option.some.injEq, Prod.mk.injEq] at he
    obtain ⟨rfl, rfl, rfl⟩ := he
    refine ⟨rfl, rfl, rfl, ?_, ?_⟩
    · rw [htt, hpa, Function.update_self]
    · rw [htt, hpf, hlog, Function.update_self, hrec]

/-- The state after the transition is stored and counted. -/
theorem inv_extend {c : Config O A M F R H} {s : Acer O A M F R H} {cur : List (AStep O A M F R H)} {h : Option H}
    {o : O} {a : A × M × F} {hb : Option H} (hi : Inv c s cur h (some (o, a, hb))) (o' : O) (r : R) (d rs : Bool)
    (log : List (Call O A M F R H)) (hv : version log = version s.log) :
    Inv c { s with t := s.t + 1, pastRewards := Function.update s.pastRewards s.t (some r), log := log }
      (cur ++ [⟨o, a, r, o', d, rs, hb, h⟩]) h none := by
  obtain ⟨ht, ha, hr, hf, hrec, hno, hp⟩ := hi
  obtain ⟨-, -, -, hpa, hpf⟩ := hp o a hb rfl
  refine ⟨by simp only [List.length_append, List.length_cons, List.length_nil]; omega,
    dict_extend (fun x : AStep O A M F R H => x.action.1) _ _ ht ha hpa,
    dict_extend (·.reward) _ _ ht ?_ (Function.update_self ..),
    ?_, hrec, hno, by simp⟩
  · intro i hi
    have : s.tStart + i ≠ s.t := by omega
    simp only [Function.update_of_ne this]
    exact hr i hi
  · simp only [hv]
    exact dict_extend (fun x : AStep O A M F R H => (⟨x.action.2.2, x.before, version s.log⟩ : Fwd F H)) _ _ ht hf hpf

theorem update_eq {c : Config O A M F R H} {s : Acer O A M F R H} {cur : List (AStep O A M F R H)} {h : Option H}
    (hi : Inv c s cur h none) (l : AStep O A M F R H) (hl : cur.getLast? = some l) (hla : l.after = h) :
    ∃ s', s.updateOnPolicy c (if l.done then none else some l.next) = .ok s' ∧
      s'.log = (if c.disableOnline then s.log else s.log ++ [online (version s.log) cur]) ∧
      s'.tStart = s'.t ∧ s'.trainRec = h := by
  obtain ⟨ht, ha, hr, hf, hrec, hno, -⟩ := hi
  have hne : cur ≠ [] := by rintro rfl; simp at hl
  have hpos : 0 < cur.length := List.length_pos_iff.2 hne
  have hlt : ¬ ¬ s.tStart < s.t := by omega
  have e1 : lookups s.pastFwd s.tStart s.t =
      .ok (cur.map fun x => (⟨x.action.2.2, x.before, version s.log⟩ : Fwd F H)) := by
    rw [ht]
    simpa using lookups_eq s.pastFwd s.tStart
      (cur.map fun x => (⟨x.action.2.2, x.before, version s.log⟩ : Fwd F H)) (by simpa using hf)
  have e2 : lookups s.pastActions s.tStart s.t = .ok (cur.map fun x => x.action.1) := by
    rw [ht]; simpa using lookups_eq s.pastActions s.tStart (cur.map fun x => x.action.1) (by simpa using ha)
  have e3 : lookups s.pastRewards s.tStart s.t = .ok (cur.map (·.reward)) := by
    rw [ht]; simpa using lookups_eq s.pastRewards s.tStart (cur.map (·.reward)) (by simpa using hr)
  cases hd : c.disableOnline with
  | true =>
    exact ⟨s.clear, by simp only [Acer.updateOnPolicy, if_neg hlt, hd, if_true], by simp [Acer.clear], rfl, hrec⟩
  | false =>
    refine ⟨_, by simp only [Acer.updateOnPolicy, if_neg hlt, hd, Bool.false_eq_true, if_false, e1, e2, e3]; exact rfl, ?_, ?_, ?_⟩
    rotate_left
    · rfl
    · exact hrec
    simp only [Acer.clear, Bool.false_eq_true, if_false, List.append_cancel_left_eq, List.cons.injEq, and_true, online, hl,
      Option.bind_some, hla, hrec, Call.online.injEq, true_and]
    cases l.done <;> simp

theorem run_log (c : Config O A M F R H) (es : List (Ev O A M F R H)) (s : Acer O A M F R H)
    (cur : List (AStep O A M F R H)) (h : Option H) (pend : Option (O × (A × M × F) × Option H))
    (hi : Inv c s cur h pend) (halt : Alternating pend.isSome es) :
    ∃ s', run c s es = .ok s' ∧ s'.log = ideal c cur (steps c.recurrent h pend es) s.log := by
  induction es generalizing s cur h pend with
  | nil => exact ⟨s, rfl, by simp [steps, ideal]⟩
  | cons e es ih =>
    cases e with
    | act o a mu f h' =>
      obtain ⟨hn, halt⟩ := halt
      cases pend with
      | some p => simp at hn
      | none =>
        obtain ⟨s', h1, h2⟩ := ih _ cur _ _ (inv_act hi o a mu f h') halt
        refine ⟨s', h1, ?_⟩
        rw [h2]
        have : (s.actTrain c o a mu f h').log = s.log := by simp only [Acer.actTrain]; split <;> rfl
        rw [this]
        simp only [steps]
    | observe o' r d rs =>
      obtain ⟨hn, halt⟩ := halt
      cases pend with
      | none => simp at hn
      | some p =>
        obtain ⟨o, a, hb⟩ := p
        obtain ⟨q1, q2, q3, -, -⟩ := hi.pendOk o a hb rfl
        -- storing
        obtain ⟨log1, hs1⟩ : ∃ log1, log1 = storeCalls c.hasBuffer s.log (.append o a.1 r o' d a.2.1) (d || rs) := ⟨_, rfl⟩
        have hlog1 : log1 = (if c.hasBuffer then s.log ++ [stored ⟨o, a, r, o', d, rs, hb, h⟩] ++
            (if d || rs then [.stop] else []) else s.log) := by
          rw [hs1]
          cases c.hasBuffer <;> cases d <;> cases rs <;> simp [stored, storeCalls]
        have hv : version log1 = version s.log := by
          rw [hlog1]
          cases c.hasBuffer <;> cases d <;> cases rs <;> simp [version, stored, Call.isUpdate]
        have hx := inv_extend hi o' r d rs log1 hv
        have ht := hi.t
        have hobs : s.observeTrain c o' r d rs =
            match (if s.t + 1 - s.tStart = c.tMax ∨ d = true ∨ rs = true then
              match ({ s with t := s.t + 1, pastRewards := Function.update s.pastRewards s.t (some r), log := log1 } :
                Acer O A M F R H).updateOnPolicy c (if d then none else some o') with
              | .error e => Except.error e
              | .ok s => .ok { s with log := replays c.ready c.nReplay s.log }
            else .ok { s with t := s.t + 1, pastRewards := Function.update s.pastRewards s.t (some r), log := log1 }) with
            | .error e => .error e
            | .ok s =>
              .ok { (if d || rs then { s with trainRec := none } else s) with
                lastState := none, lastAction := none, lastMu := none } := by
          simp only [Acer.observeTrain, q1, q2, q3, ← hs1]
        by_cases hc : cur.length + 1 = c.tMax ∨ d = true ∨ rs = true
        · obtain ⟨s1, u1, u2, u3, u4⟩ := update_eq hx ⟨o, a, r, o', d, rs, hb, h⟩ (by simp) rfl
          have hcond : s.t + 1 - s.tStart = c.tMax ∨ d = true ∨ rs = true := by
            rcases hc with hc | hc
            · left; omega
            · exact Or.inr hc
          rw [if_pos hcond, u1] at hobs
          obtain ⟨s2, hs2⟩ : ∃ s2, s2 = { (if d || rs then
              ({ s1 with log := replays c.ready c.nReplay s1.log, trainRec := none } : Acer O A M F R H)
              else { s1 with log := replays c.ready c.nReplay s1.log }) with
                lastState := none, lastAction := none, lastMu := none } := ⟨_, rfl⟩
          have hobs2 : s.observeTrain c o' r d rs = .ok s2 := by
            rw [hobs, hs2]
          have hlog2 : s2.log = replays c.ready c.nReplay s1.log := by rw [hs2]; split <;> rfl
          have hi2 : Inv c s2 [] (if d || rs then none else h) none := by
            refine ⟨?_, by simp, by simp, by simp, ?_, ?_, by simp⟩
            · rw [hs2]; split <;> simp [u3]
            · rw [hs2]
              cases d || rs <;> simp [u4]
            · intro hc
              have := hi.noRec hc
              split <;> simp [this]
          obtain ⟨s', h1, h2⟩ := ih s2 [] _ none hi2 halt
          refine ⟨s', ?_, ?_⟩
          · simp only [run, hobs2]; exact h1
          · rw [h2, hlog2, u2]
            simp only [steps, ideal, if_pos hc, ← hlog1]
        · have hcond : ¬ (s.t + 1 - s.tStart = c.tMax ∨ d = true ∨ rs = true) := by
            rintro (hc' | hc')
            · exact hc (Or.inl (by omega))
            · exact hc (Or.inr hc')
          have hdr : (d || rs) = false := by
            cases d <;> cases rs <;> simp_all
          rw [if_neg hcond] at hobs
          simp only [hdr, Bool.false_eq_true, if_false] at hobs
          obtain ⟨s', h1, h2⟩ := ih { s with t := s.t + 1, pastRewards := Function.update s.pastRewards s.t (some r),
                                             log := log1, lastState := none, lastAction := none, lastMu := none }
            _ h none ⟨hx.t, hx.act, hx.rew, hx.fwd, hx.rec', hx.noRec, by simp⟩ halt
          refine ⟨s', ?_, ?_⟩
          · simp only [run, hobs]; exact h1
          · rw [h2]
            simp only [hdr, Bool.false_eq_true, if_false, List.append_nil] at hlog1
            simp only [steps, ideal, if_neg hc, hdr, Bool.false_eq_true, if_false, List.append_nil, ← hlog1]
    | evalAct h' =>
      obtain ⟨s', h1, h2⟩ := ih (if c.recurrent then { s with testRec := some h' } else s) cur h pend (by
        split
        · exact ⟨hi.t, hi.act, hi.rew, hi.fwd, hi.rec', hi.noRec, hi.pendOk⟩
        · exact hi) halt
      refine ⟨s', h1, ?_⟩
      rw [h2]
      have : (if c.recurrent then { s with testRec := some h' } else s).log = s.log := by split <;> rfl
      rw [this]
      cases pend <;> simp [steps]
    | evalObserve d rs =>
      obtain ⟨s', h1, h2⟩ := ih (if d || rs then { s with testRec := none } else s) cur h pend (by
        split
        · exact ⟨hi.t, hi.act, hi.rew, hi.fwd, hi.rec', hi.noRec, hi.pendOk⟩
        · exact hi) halt
      refine ⟨s', h1, ?_⟩
      rw [h2]
      have : (if d || rs then { s with testRec := none } else s).log = s.log := by split <;> rfl
      rw [this]
      cases pend <;> simp [steps]

/-! ## C92: ACER stores every transition once, trains once on it, and replays as configured -/

/-- C92.  Any history of a new agent in which acts and observes of the training alternate, with evaluation calls anywhere,
runs without an error, and the calls the agent makes are the ideal ones. -/
theorem acer_calls (c : Config O A M F R H) (es : List (Ev O A M F R H)) (halt : Alternating false es) :
    ∃ s, run c Acer.new es = .ok s ∧ s.log = ideal c [] (steps c.recurrent none none es) [] := by
  have hi : Inv c (Acer.new : Acer O A M F R H) [] none none :=
    ⟨rfl, by simp, by simp, by simp, rfl, by simp, by simp⟩
  exact run_log c es Acer.new [] none none hi halt

/-- The stored transitions of a log. -/
def isAppend : Call O A M F R H → Bool
  | .append _ _ _ _ _ _ => true
  | _ => false

/-- The on-policy updates of a log. -/
def isOnline : Call O A M F R H → Bool
  | .online _ _ _ _ => true
  | _ => false

theorem replays_eq (ready : List (Call O A M F R H) → Bool) (n : Nat) (log : List (Call O A M F R H)) :
    ∃ k, k ≤ n ∧ replays ready n log = log ++ List.replicate k .replay := by
  induction n generalizing log with
  | zero => exact ⟨0, Nat.le_refl _, by simp [replays]⟩
  | succ n ih =>
    simp only [replays]
    split
    · obtain ⟨k, hk, h⟩ := ih (log ++ [.replay])
      exact ⟨k + 1, by omega, by rw [h, List.replicate_succ]; simp⟩
    · obtain ⟨k, hk, h⟩ := ih log
      exact ⟨k, by omega, h⟩

/-- C92, the replay buffer: every training step is stored exactly once and in order, with its own distribution. -/
theorem acer_stores (c : Config O A M F R H) (hb : c.hasBuffer = true) (ss cur : List (AStep O A M F R H))
    (log : List (Call O A M F R H)) :
    (ideal c cur ss log).filter isAppend = log.filter isAppend ++ ss.map stored := by
  induction ss generalizing cur log with
  | nil => simp [ideal]
  | cons s ss ih =>
    simp only [ideal, hb, if_true]
    split
    · obtain ⟨k, -, hk⟩ := replays_eq c.ready c.nReplay
        (if c.disableOnline then log ++ [stored s] ++ (if s.done || s.reset then [.stop] else [])
         else log ++ [stored s] ++ (if s.done || s.reset then [.stop] else []) ++
          [online (version (log ++ [stored s] ++ (if s.done || s.reset then [.stop] else []))) (cur ++ [s])])
      rw [ih, hk]
      have h1 : (List.replicate k (Call.replay : Call O A M F R H)).filter isAppend = [] := by
        simp [isAppend]
      cases c.disableOnline <;> cases s.done || s.reset <;>
        simp [List.filter_append, List.filter_cons, stored, h1, isAppend, online]
    · rw [ih]
      cases s.done || s.reset <;> simp [List.filter_append, List.filter_cons, stored, isAppend]

/-- C92, on-policy updates: one per segment of the training steps (see `a3c_segments` for what these are), in order, each
with the model outputs, actions and rewards of its own steps.  The versions are the subject of `acer_on_policy`. -/
theorem acer_online (c : Config O A M F R H) (hd : c.disableOnline = false) (ss cur : List (AStep O A M F R H))
    (log : List (Call O A M F R H)) :
    ∃ vs : List Nat, vs.length = (cut c.tMax cur ss).1.length ∧
      (ideal c cur ss log).filter isOnline = log.filter isOnline ++ List.zipWith online vs (cut c.tMax cur ss).1 := by
  induction ss generalizing cur log with
  | nil => exact ⟨[], by simp [cut], by simp [ideal]⟩
  | cons s ss ih =>
    simp only [ideal, hd, Bool.false_eq_true, if_false, cut]
    generalize hl : (if c.hasBuffer then log ++ [stored s] ++ (if s.done || s.reset then [.stop] else []) else log) = l1
    have hl1 : l1.filter isOnline = log.filter isOnline := by
      rw [← hl]
      cases c.hasBuffer <;> cases s.done || s.reset <;> simp [List.filter_append, stored, isOnline]
    split
    · obtain ⟨k, -, hk⟩ := replays_eq c.ready c.nReplay (l1 ++ [online (version l1) (cur ++ [s])])
      obtain ⟨vs, hv1, hv2⟩ := ih [] (replays c.ready c.nReplay (l1 ++ [online (version l1) (cur ++ [s])]))
      refine ⟨version l1 :: vs, by simp [hv1], ?_⟩
      rw [hv2, hk]
      simp [List.filter_append, List.filter_cons, isOnline, online, hl1]
    · obtain ⟨vs, hv1, hv2⟩ := ih (cur ++ [s]) l1
      exact ⟨vs, hv1, by rw [hv2, hl1]⟩

/-- The forward passes of an on-policy update all have the given version. -/
def OnlineAt (v : Nat) : Call O A M F R H → Prop
  | .online fwds _ _ _ => ∀ f ∈ fwds, f.version = v
  | _ => True

/-- C92, the gradient is on-policy: wherever an on-policy update stands in the log, its forward passes were made with the
model as it is then: no update of any kind happened between the acts of the segment and the update. -/
theorem acer_on_policy (c : Config O A M F R H) (ss cur : List (AStep O A M F R H)) (log : List (Call O A M F R H))
    (h : ∀ l1 x l2, log = l1 ++ x :: l2 → OnlineAt (version l1) x) (l1 : List (Call O A M F R H))
    (x : Call O A M F R H) (l2 : List (Call O A M F R H)) (he : ideal c cur ss log = l1 ++ x :: l2) :
    OnlineAt (version l1) x := by
  have ext : ∀ (log : List (Call O A M F R H)) (y : Call O A M F R H),
      (∀ l1 x l2, log = l1 ++ x :: l2 → OnlineAt (version l1) x) → OnlineAt (version log) y →
      ∀ l1 x l2, log ++ [y] = l1 ++ x :: l2 → OnlineAt (version l1) x := by
    intro log y hlog hy l1 x l2 he
    rcases List.eq_nil_or_concat l2 with rfl | ⟨l3, z, rfl⟩
    · have := List.append_inj' he rfl
      obtain ⟨rfl, h2⟩ := this
      simp only [List.cons.injEq, and_true] at h2
      subst h2
      exact hy
    · have he' : log ++ [y] = (l1 ++ x :: l3) ++ [z] := by simpa using he
      have := List.append_inj' he' rfl
      exact hlog l1 x l3 this.1
  induction ss generalizing cur log with
  | nil => exact h l1 x l2 he
  | cons s ss ih =>
    simp only [ideal] at he
    generalize hl : (if c.hasBuffer then log ++ [stored s] ++ (if s.done || s.reset then [.stop] else []) else log) = L
      at he
    have hL : ∀ l1 x l2, L = l1 ++ x :: l2 → OnlineAt (version l1) x := by
      rw [← hl]
      cases c.hasBuffer with
      | false => exact h
      | true =>
        simp only [if_true]
        have h1 := ext log (stored s) h trivial
        cases s.done || s.reset with
        | false => simpa using h1
        | true => simpa only [if_true] using ext _ .stop h1 trivial
    split at he
    · have hL2 : ∀ l1 x l2, (if c.disableOnline then L else L ++ [online (version L) (cur ++ [s])]) = l1 ++ x :: l2 →
          OnlineAt (version l1) x := by
        cases c.disableOnline with
        | true => exact hL
        | false =>
          simp only [Bool.false_eq_true, if_false]
          refine ext L _ hL ?_
          intro f hf
          obtain ⟨x, -, rfl⟩ := List.mem_map.1 hf
          rfl
      have hrep : ∀ n L, (∀ l1 x l2, L = l1 ++ x :: l2 → OnlineAt (version l1) x) →
          ∀ l1 x l2, replays c.ready n L = l1 ++ x :: l2 → OnlineAt (version l1) x := by
        intro n
        induction n with
        | zero => intro L hL; exact hL
        | succ n ihn =>
          intro L hL
          simp only [replays]
          apply ihn
          split
          · exact ext L .replay hL trivial
          · exact hL
      exact ih [] _ (hrep _ _ hL2) he
    · exact ih (cur ++ [s]) L hL he

/-- C92, replays: if the buffer is ready, every segment is followed by exactly `nReplay` updates from replay; if it is not,
by none. -/
theorem acer_replays (ready : List (Call O A M F R H) → Bool) (n : Nat) (log : List (Call O A M F R H)) :
    ((∀ k, ready (log ++ List.replicate k .replay) = true) →
      replays ready n log = log ++ List.replicate n .replay) ∧
    (ready log = false → replays ready n log = log) := by
  constructor
  · intro h
    induction n generalizing log with
    | zero => simp [replays]
    | succ n ih =>
      have h0 : ready log = true := by simpa using h 0
      simp only [replays, h0, if_true]
      rw [ih (log ++ [Call.replay])]
      · rw [List.replicate_succ]; simp
      · intro k
        have := h (k + 1)
        rw [List.replicate_succ] at this
        simpa using this
  · intro h
    induction n with
    | zero => rfl
    | succ n ih => simp [replays, h, ih]

/-- Two segments, the second ended by a time limit; one replay each once two transitions are stored. -/
example :
    let c : Config Nat Nat Nat Nat Nat Nat :=
      ⟨false, 2, true, false, 1, fun log => decide (2 ≤ (log.filter isAppend).length)⟩
    let es : List (Ev Nat Nat Nat Nat Nat Nat) :=
      [.act 0 10 20 30 0, .observe 1 7 false false, .evalAct 0, .act 1 11 21 31 0, .observe 2 8 false false,
       .act 2 12 22 32 0, .observe 3 9 false true]
    Alternating false es ∧
    (match run c Acer.new es with
     | .ok s => s.log
     | .error _ => []) =
      [.append 0 10 7 1 false 20, .append 1 11 8 2 false 21,
       .online [⟨30, none, 0⟩, ⟨31, none, 0⟩] [10, 11] [7, 8] (some (2, none)), .replay,
       .append 2 12 9 3 false 22, .stop, .online [⟨32, none, 2⟩] [12] [9] (some (3, none)), .replay] := by
  refine ⟨by simp [Alternating], by decide +kernel⟩

end Pfrl.AcerSegments
