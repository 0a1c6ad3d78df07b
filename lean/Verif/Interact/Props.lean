import Verif.Interact.Model
import Verif.Replay.Props
import Verif.Batch.Props
import Mathlib.Tactic.Linarith

/-!
# Step accounting and stored transitions of the replay-based agents (C35, C36)
-/

namespace Pfrl.Interact

variable {O A R W : Type _}

/-! ## Specification -/

/-- The event was made in training mode. -/
def Spec.isTraining : Ev O A R → Bool
  | .act tr _ _ => tr
  | .observe tr _ => tr

/-- The calls follow the protocol: each training `observe` follows a training `act` for the same
environments, with no other training `observe` in between.  Evaluation calls may come at any time.
`pending` is the `act` not yet followed by its `observe`. -/
def Spec.Protocol (pending : Option (List O × List A)) : List (Ev O A R) → Prop
  | [] => True
  | .act true obs acts :: h => obs.length = acts.length ∧ Spec.Protocol (some (obs, acts)) h
  | .act false _ _ :: h => Spec.Protocol pending h
  | .observe true rows :: h =>
    (∃ p, pending = some p ∧ p.1.length = rows.length) ∧ Spec.Protocol none h
  | .observe false _ :: h => Spec.Protocol pending h

/-- Number of environment steps observed in training mode. -/
def Spec.steps : List (Ev O A R) → Nat
  | [] => 0
  | .observe true rows :: h => rows.length + Spec.steps h
  | _ :: h => Spec.steps h

/-- What environment `i` went through in training mode: for each pair of an `act` and the following
`observe` the transition they describe, then `none` if the episode ended. -/
def Spec.experience (i : Nat) (pending : Option (List O × List A)) :
    List (Ev O A R) → List (Option (Tr O A R))
  | [] => []
  | .act true obs acts :: h => Spec.experience i (some (obs, acts)) h
  | .act false _ _ :: h => Spec.experience i pending h
  | .observe true rows :: h =>
    (match pending.bind (·.1[i]?), pending.bind (·.2[i]?), rows[i]? with
      | some o, some a, some row =>
        some ⟨o, a, row.reward, row.obs, row.done⟩ ::
          (if row.done = true ∨ row.reset = true then [none] else [])
      | _, _, _ => []) ++ Spec.experience i none h
  | .observe false _ :: h => Spec.experience i pending h

/-- Carry out a list of effects. -/
def performAll (perform : W → Eff O A R → Except PyErr W) : W → List (Eff O A R) → Except PyErr W
  | w, [] => .ok w
  | w, e :: es =>
    match perform w e with
    | .error err => .error err
    | .ok w => performAll perform w es

/-- The effects of environment step number `t`, made in environment `i`. -/
def Spec.stepEffects (interval : Option Nat) (t i : Nat) (o : O) (a : A) (row : Row O R) :
    List (Eff O A R) :=
  (match interval with
    | none => []
    | some k => if k ∣ t then [.sync t] else []) ++
  [.append i ⟨o, a, row.reward, row.obs, row.done⟩] ++
  (if row.done = true ∨ row.reset = true then [.stop i] else []) ++ [.update t]

/-- The effects of one training `observe` that starts with environment `i` after `t` steps. -/
def Spec.rowEffects (interval : Option Nat) : Nat → Nat → List (O × A × Row O R) → List (Eff O A R)
  | _, _, [] => []
  | t, i, x :: xs =>
    Spec.stepEffects interval (t + 1) i x.1 x.2.1 x.2.2 ++ Spec.rowEffects interval (t + 1) (i + 1) xs

/-- The effects of a history. -/
def Spec.trace (interval : Option Nat) (t : Nat) (pending : Option (List O × List A)) :
    List (Ev O A R) → List (Eff O A R)
  | [] => []
  | .act true obs acts :: h => Spec.trace interval t (some (obs, acts)) h
  | .act false _ _ :: h => Spec.trace interval t pending h
  | .observe true rows :: h =>
    (match pending with
      | none => []
      | some p => Spec.rowEffects interval t 0 (p.1.zip (p.2.zip rows))) ++
    Spec.trace interval (t + rows.length) none h
  | .observe false _ :: h => Spec.trace interval t pending h

/-- The step numbers at which the target was synchronised. -/
def Spec.syncs (l : List (Eff O A R)) : List Nat :=
  l.filterMap fun e => match e with | .sync t => some t | _ => none

/-- The step numbers at which the updater was asked. -/
def Spec.updates (l : List (Eff O A R)) : List Nat :=
  l.filterMap fun e => match e with | .update t => some t | _ => none

/-- What the replay buffer was told about environment `i`: `some` transition, or `none` for the end of
an episode. -/
def Spec.stored (i : Nat) (l : List (Eff O A R)) : List (Option (Tr O A R)) :=
  l.filterMap fun e => match e with
    | .append j tr => if j = i then some (some tr) else none
    | .stop j => if j = i then some none else none
    | _ => none

/-! ## Lemmas -/

theorem performAll_append (perform : W → Eff O A R → Except PyErr W) :
    ∀ (l1 l2 : List (Eff O A R)) (w : W), performAll perform w (l1 ++ l2) =
      match performAll perform w l1 with
      | .error e => .error e
      | .ok w => performAll perform w l2
  | [], _, _ => rfl
  | e :: l1, l2, w => by
    simp only [List.cons_append, performAll]
    cases perform w e with
    | error => rfl
    | ok w => exact performAll_append perform l1 l2 w

theorem performAll_single (perform : W → Eff O A R → Except PyErr W) (w : W) (e : Eff O A R) :
    performAll perform w [e] = perform w e := by
  simp only [performAll]
  cases perform w e <;> rfl

theorem drop_cons {α : Type _} {l : List α} {i : Nat} {x : α} {xs : List α}
    (h : l.drop i = x :: xs) : l[i]? = some x ∧ l.drop (i + 1) = xs := by
  have h1 : l[i]? = (l.drop i)[0]? := by rw [List.getElem?_drop]; simp
  have h2 : l.drop (i + 1) = (l.drop i).drop 1 := by rw [List.drop_drop]
  rw [h1, h2, h]
  exact ⟨rfl, rfl⟩

theorem observeRow_eq {interval : Option Nat} (hk : interval ≠ some 0)
    (perform : W → Eff O A R → Except PyErr W) (i : Nat) (row : Row O R) (a : Agent O A W)
    {los : List (Option O)} {o : O} {act : A} (h1 : a.lastObs = some los) (h2 : los[i]? = some (some o))
    (h3 : a.lastAction[i]? = some (some act)) :
    observeRow interval perform i row a =
      (performAll perform a.world (Spec.stepEffects interval (a.t + 1) i o act row)).map fun w =>
        { t := a.t + 1
          lastObs := some (if row.done = true ∨ row.reset = true then los.set i none else los)
          lastAction := if row.done = true ∨ row.reset = true then a.lastAction.set i none
            else a.lastAction
          world := w } := by
  obtain ⟨t, lo, la, w⟩ := a
  simp only at h1 h2 h3
  subst h1
  have hstore : ∀ w, store perform i row ⟨t + 1, some los, la, w⟩ =
      (performAll perform w ([.append i ⟨o, act, row.reward, row.obs, row.done⟩] ++
        (if row.done = true ∨ row.reset = true then [.stop i] else []))).map fun w =>
        { t := t + 1
          lastObs := some (if row.done = true ∨ row.reset = true then los.set i none else los)
          lastAction := if row.done = true ∨ row.reset = true then la.set i none else la
          world := w } := by
    intro w
    simp only [store, h2, h3, List.cons_append, List.nil_append, performAll]
    cases perform w (.append i ⟨o, act, row.reward, row.obs, row.done⟩) with
    | error e => rfl
    | ok w =>
      by_cases hd : row.done = true ∨ row.reset = true
      · have : (row.reset || row.done) = true := by
          rcases hd with h | h <;> simp [h]
        simp only [this, if_true, if_pos hd, performAll_single]
        cases perform w (.stop i) <;> rfl
      · have : (row.reset || row.done) = false := by
          rw [not_or] at hd
          simp [hd.1, hd.2]
        simp only [this, Bool.false_eq_true, if_false, if_neg hd]
        rfl
  have hrest : ∀ w, (match store perform i row ⟨t + 1, some los, la, w⟩ with
      | .error e => .error e
      | .ok a =>
        match perform a.world (.update a.t) with
        | .error e => .error e
        | .ok w => .ok { a with world := w }) =
      (performAll perform w (([.append i ⟨o, act, row.reward, row.obs, row.done⟩] ++
        (if row.done = true ∨ row.reset = true then [.stop i] else [])) ++ [.update (t + 1)])).map fun w =>
        { t := t + 1
          lastObs := some (if row.done = true ∨ row.reset = true then los.set i none else los)
          lastAction := if row.done = true ∨ row.reset = true then la.set i none else la
          world := w } := by
    intro w
    rw [hstore, performAll_append perform (_ ++ _) [.update (t + 1)]]
    cases performAll perform w ([.append i ⟨o, act, row.reward, row.obs, row.done⟩] ++
        (if row.done = true ∨ row.reset = true then [.stop i] else [])) with
    | error e => rfl
    | ok w =>
      simp only [Except.map, performAll_single]
      cases perform w (.update (t + 1)) <;> rfl
  unfold observeRow Spec.stepEffects
  cases interval with
  | none =>
    simp only [syncIfDue, List.nil_append]
    exact hrest w
  | some k =>
    have hk0 : k ≠ 0 := fun h => hk (by rw [h])
    simp only [syncIfDue, if_neg hk0]
    by_cases hd : k ∣ t + 1
    · rw [if_pos (Nat.mod_eq_zero_of_dvd hd), if_pos hd, List.append_assoc, List.append_assoc,
        performAll_append, performAll_single, ← List.append_assoc]
      cases perform w (.sync (t + 1)) with
      | error e => rfl
      | ok w => exact hrest w
    · rw [if_neg (fun h => hd (Nat.dvd_of_mod_eq_zero h)), if_neg hd]
      simp only [List.nil_append]
      exact hrest w

theorem observeLoop_eq {interval : Option Nat} (hk : interval ≠ some 0)
    (perform : W → Eff O A R → Except PyErr W) : ∀ (rows : List (Row O R)) (i t : Nat)
    (los : List (Option O)) (las : List (Option A)) (obs : List O) (acts : List A),
    obs.length = rows.length → acts.length = rows.length → los.drop i = obs.map some →
    las.drop i = acts.map some → ∃ los' las', ∀ w,
      observeLoop interval perform i rows ⟨t, some los, las, w⟩ =
        (performAll perform w (Spec.rowEffects interval t i (obs.zip (acts.zip rows)))).map fun w =>
          ⟨t + rows.length, some los', las', w⟩
  | [], i, t, los, las, obs, acts, h1, h2, _, _ => by
    refine ⟨los, las, fun w => ?_⟩
    have : obs = [] := List.length_eq_zero_iff.mp h1
    subst this
    rfl
  | row :: rows, i, t, los, las, obs, acts, h1, h2, h3, h4 => by
    cases obs with
    | nil => simp at h1
    | cons o obs =>
      cases acts with
      | nil => simp at h2
      | cons act acts =>
        obtain ⟨k1, k2⟩ := drop_cons (x := some o) (xs := obs.map some) h3
        obtain ⟨k3, k4⟩ := drop_cons (x := some act) (xs := acts.map some) h4
        let los1 := if row.done = true ∨ row.reset = true then los.set i none else los
        let las1 := if row.done = true ∨ row.reset = true then las.set i none else las
        have g1 : los1.drop (i + 1) = obs.map some := by
          simp only [los1]
          split
          · rw [List.drop_set_of_lt (by omega)]; exact k2
          · exact k2
        have g2 : las1.drop (i + 1) = acts.map some := by
          simp only [las1]
          split
          · rw [List.drop_set_of_lt (by omega)]; exact k4
          · exact k4
        obtain ⟨los', las', hih⟩ := observeLoop_eq hk perform rows (i + 1) (t + 1) los1 las1 obs acts
          (by simpa using h1) (by simpa using h2) g1 g2
        refine ⟨los', las', fun w => ?_⟩
        simp only [observeLoop, List.zip_cons_cons, Spec.rowEffects]
        rw [observeRow_eq hk perform i row ⟨t, some los, las, w⟩ rfl k1 k3, performAll_append]
        cases performAll perform w (Spec.stepEffects interval (t + 1) i o act row) with
        | error e => rfl
        | ok w =>
          have := hih w
          simp only [los1, las1] at this
          simp only [Except.map, this]
          rw [show t + 1 + rows.length = t + (row :: rows).length by simp; omega]

theorem run_eq {interval : Option Nat} (hk : interval ≠ some 0)
    (perform : W → Eff O A R → Except PyErr W) : ∀ (h : List (Ev O A R)) (t : Nat)
    (los : Option (List (Option O))) (las : List (Option A)) (pending : Option (List O × List A)),
    Spec.Protocol pending h →
    (∀ p, pending = some p → los = some (p.1.map some) ∧ las = p.2.map some ∧
      p.1.length = p.2.length) →
    ∃ los' las', ∀ w, run interval perform ⟨t, los, las, w⟩ h =
      (performAll perform w (Spec.trace interval t pending h)).map fun w =>
        ⟨t + Spec.steps h, los', las', w⟩
  | [], t, los, las, pending, _, _ => ⟨los, las, fun w => rfl⟩
  | .act true obs acts :: h, t, los, las, pending, hp, hi => by
    obtain ⟨los', las', ih⟩ := run_eq hk perform h t (some (obs.map some)) (acts.map some)
      (some (obs, acts)) hp.2 (by
        intro p hpe
        cases hpe
        exact ⟨rfl, rfl, hp.1⟩)
    exact ⟨los', las', fun w => ih w⟩
  | .act false obs acts :: h, t, los, las, pending, hp, hi => run_eq hk perform h t los las pending hp hi
  | .observe false rows :: h, t, los, las, pending, hp, hi => run_eq hk perform h t los las pending hp hi
  | .observe true rows :: h, t, los, las, pending, hp, hi => by
    obtain ⟨⟨p, hpe, hlen⟩, hp'⟩ := hp
    obtain ⟨h1, h2, h3⟩ := hi p hpe
    subst hpe h1 h2
    obtain ⟨los1, las1, hloop⟩ := observeLoop_eq hk perform rows 0 t (p.1.map some) (p.2.map some)
      p.1 p.2 hlen (by omega) rfl rfl
    obtain ⟨los', las', ih⟩ := run_eq hk perform h (t + rows.length) (some los1) las1 none hp'
      (by intro p hpe; cases hpe)
    refine ⟨los', las', fun w => ?_⟩
    simp only [run, Agent.observe, if_true, hloop w, Spec.trace, Spec.steps]
    rw [performAll_append]
    cases performAll perform w (Spec.rowEffects interval t 0 (p.1.zip (p.2.zip rows))) with
    | error e => rfl
    | ok w =>
      simp only [Except.map, ih w]
      rw [Nat.add_assoc]

theorem syncs_append (a b : List (Eff O A R)) : Spec.syncs (a ++ b) = Spec.syncs a ++ Spec.syncs b :=
  List.filterMap_append

theorem updates_append (a b : List (Eff O A R)) :
    Spec.updates (a ++ b) = Spec.updates a ++ Spec.updates b := List.filterMap_append

theorem stored_append (i : Nat) (a b : List (Eff O A R)) :
    Spec.stored i (a ++ b) = Spec.stored i a ++ Spec.stored i b := List.filterMap_append

theorem updates_step (interval : Option Nat) (t i : Nat) (o : O) (a : A) (row : Row O R) :
    Spec.updates (Spec.stepEffects interval t i o a row) = [t] := by
  unfold Spec.stepEffects
  simp only [updates_append]
  have h1 : Spec.updates (match interval with
      | none => []
      | some k => if k ∣ t then [Eff.sync t] else [] : List (Eff O A R)) = [] := by
    cases interval with
    | none => rfl
    | some k => simp only; split <;> rfl
  rw [h1]
  split <;> rfl

theorem syncs_step (k t i : Nat) (o : O) (a : A) (row : Row O R) :
    Spec.syncs (Spec.stepEffects (some k) t i o a row) = if k ∣ t then [t] else [] := by
  unfold Spec.stepEffects
  simp only [syncs_append]
  split <;> split <;> rfl

theorem stored_step (interval : Option Nat) (t i j : Nat) (o : O) (a : A) (row : Row O R) :
    Spec.stored j (Spec.stepEffects interval t i o a row) = if i = j then
      some ⟨o, a, row.reward, row.obs, row.done⟩ ::
          (if row.done = true ∨ row.reset = true then [none] else []) else [] := by
  unfold Spec.stepEffects
  simp only [stored_append]
  have h1 : Spec.stored j (match interval with
      | none => []
      | some k => if k ∣ t then [Eff.sync t] else [] : List (Eff O A R)) = [] := by
    cases interval with
    | none => rfl
    | some k => simp only; split <;> rfl
  rw [h1]
  by_cases hij : i = j
  · split <;> simp [Spec.stored, hij]
  · split <;> simp [Spec.stored, hij]

theorem updates_rows (interval : Option Nat) : ∀ (xs : List (O × A × Row O R)) (t i : Nat),
    Spec.updates (Spec.rowEffects interval t i xs) = List.range' (t + 1) xs.length
  | [], _, _ => rfl
  | x :: xs, t, i => by
    rw [Spec.rowEffects, updates_append, updates_step, updates_rows interval xs, List.length_cons,
      List.range'_succ]
    rfl

theorem syncs_rows (k : Nat) : ∀ (xs : List (O × A × Row O R)) (t i : Nat),
    Spec.syncs (Spec.rowEffects (some k) t i xs)
      = (List.range' (t + 1) xs.length).filter fun t => decide (k ∣ t)
  | [], _, _ => rfl
  | x :: xs, t, i => by
    rw [Spec.rowEffects, syncs_append, syncs_step, syncs_rows k xs, List.length_cons,
      List.range'_succ, List.filter_cons]
    by_cases h : k ∣ t + 1 <;> simp [h]

theorem stored_rows (interval : Option Nat) (j : Nat) : ∀ (xs : List (O × A × Row O R)) (t i : Nat),
    Spec.stored j (Spec.rowEffects interval t i xs) =
      if i ≤ j then
        match xs[j - i]? with
        | none => []
        | some x => some ⟨x.1, x.2.1, x.2.2.reward, x.2.2.obs, x.2.2.done⟩ ::
          (if x.2.2.done = true ∨ x.2.2.reset = true then [none] else [])
      else []
  | [], _, i => by
    split <;> rfl
  | x :: xs, t, i => by
    rw [Spec.rowEffects, stored_append, stored_step, stored_rows interval j xs]
    by_cases h : i = j
    · subst h
      rw [if_pos rfl, if_neg (show ¬ i + 1 ≤ i by omega), if_pos (Nat.le_refl i), Nat.sub_self]
      simp
    · rw [if_neg h, List.nil_append]
      by_cases hle : i ≤ j
      · rw [if_pos (by omega), if_pos hle]
        obtain ⟨d, rfl⟩ : ∃ d, j = i + 1 + d := ⟨j - (i + 1), by omega⟩
        rw [show i + 1 + d - (i + 1) = d by omega, show i + 1 + d - i = d + 1 by omega,
          List.getElem?_cons_succ]
      · rw [if_neg (by omega), if_neg hle]

theorem trace_updates (interval : Option Nat) : ∀ (h : List (Ev O A R)) (t : Nat)
    (pending : Option (List O × List A)), Spec.Protocol pending h →
    (∀ p, pending = some p → p.1.length = p.2.length) →
    Spec.updates (Spec.trace interval t pending h) = List.range' (t + 1) (Spec.steps h)
  | [], _, _, _, _ => rfl
  | .act true obs acts :: h, t, _, hp, _ =>
    trace_updates interval h t (some (obs, acts)) hp.2 (by intro p hp'; cases hp'; exact hp.1)
  | .act false _ _ :: h, t, p, hp, hl => trace_updates interval h t p hp hl
  | .observe false _ :: h, t, p, hp, hl => trace_updates interval h t p hp hl
  | .observe true rows :: h, t, pending, hp, hl => by
    obtain ⟨⟨p, hpe, hlen⟩, hp'⟩ := hp
    have := hl p hpe
    subst hpe
    simp only [Spec.trace, Spec.steps]
    rw [updates_append, updates_rows, trace_updates interval h _ none hp' (by intro p h; cases h)]
    rw [show (p.1.zip (p.2.zip rows)).length = rows.length by simp; omega,
      show t + rows.length + 1 = t + 1 + rows.length by omega, List.range'_append_1]

theorem trace_syncs (k : Nat) : ∀ (h : List (Ev O A R)) (t : Nat)
    (pending : Option (List O × List A)), Spec.Protocol pending h →
    (∀ p, pending = some p → p.1.length = p.2.length) →
    Spec.syncs (Spec.trace (some k) t pending h)
      = (List.range' (t + 1) (Spec.steps h)).filter fun t => decide (k ∣ t)
  | [], _, _, _, _ => rfl
  | .act true obs acts :: h, t, _, hp, _ =>
    trace_syncs k h t (some (obs, acts)) hp.2 (by intro p hp'; cases hp'; exact hp.1)
  | .act false _ _ :: h, t, p, hp, hl => trace_syncs k h t p hp hl
  | .observe false _ :: h, t, p, hp, hl => trace_syncs k h t p hp hl
  | .observe true rows :: h, t, pending, hp, hl => by
    obtain ⟨⟨p, hpe, hlen⟩, hp'⟩ := hp
    have := hl p hpe
    subst hpe
    simp only [Spec.trace, Spec.steps]
    rw [syncs_append, syncs_rows, trace_syncs k h _ none hp' (by intro p h; cases h),
      show (p.1.zip (p.2.zip rows)).length = rows.length by simp; omega,
      show t + rows.length + 1 = t + 1 + rows.length by omega, ← List.filter_append,
      List.range'_append_1]

theorem trace_stored (interval : Option Nat) (i : Nat) : ∀ (h : List (Ev O A R)) (t : Nat)
    (pending : Option (List O × List A)), Spec.Protocol pending h →
    (∀ p, pending = some p → p.1.length = p.2.length) →
    Spec.stored i (Spec.trace interval t pending h) = Spec.experience i pending h
  | [], _, _, _, _ => rfl
  | .act true obs acts :: h, t, _, hp, _ =>
    trace_stored interval i h t (some (obs, acts)) hp.2 (by intro p hp'; cases hp'; exact hp.1)
  | .act false _ _ :: h, t, p, hp, hl => trace_stored interval i h t p hp hl
  | .observe false _ :: h, t, p, hp, hl => trace_stored interval i h t p hp hl
  | .observe true rows :: h, t, pending, hp, hl => by
    obtain ⟨⟨p, hpe, hlen⟩, hp'⟩ := hp
    have := hl p hpe
    subst hpe
    simp only [Spec.trace, Spec.experience]
    rw [stored_append, stored_rows, trace_stored interval i h _ none hp' (by intro p h; cases h),
      if_pos (Nat.zero_le _), Nat.sub_zero]
    congr 1
    by_cases hi : i < rows.length
    · have e1 : p.1[i]? = some p.1[i] := List.getElem?_eq_getElem (by omega)
      have e2 : p.2[i]? = some p.2[i] := List.getElem?_eq_getElem (by omega)
      have e3 : rows[i]? = some rows[i] := List.getElem?_eq_getElem hi
      have e4 : (p.1.zip (p.2.zip rows))[i]? = some (p.1[i], p.2[i], rows[i]) := by
        rw [List.getElem?_zip_eq_some]
        exact ⟨e1, by rw [List.getElem?_zip_eq_some]; exact ⟨e2, e3⟩⟩
      simp only [e4, Option.bind_some, e1, e2, e3]
    · have e3 : rows[i]? = none := List.getElem?_eq_none (by omega)
      have e1 : p.1[i]? = none := List.getElem?_eq_none (by omega)
      have e4 : (p.1.zip (p.2.zip rows))[i]? = none :=
        List.getElem?_eq_none (by simp; omega)
      simp only [e4, Option.bind_some, e1, e3]

/-! ## C35 -/

/-- **C35.** For every history that follows the protocol, over any number of environments, with
training and evaluation interleaved in any way, and whatever the replay buffer, the target network and
the updater do (including raising): the agent carries out the effects listed by `Spec.trace`, in order,
and stops at the first one that raises; if none does it has counted one step per environment step.  In
that list, the target is synchronised once at each multiple of the interval and at no other step, and
the updater is asked exactly once after each step, with the step's number.  When the updater then
updates is C22.  The count starts at the `step_offset` of the training, see `Agent.resumed`; 0 for a new agent. -/
theorem interaction_schedule {interval : Option Nat} (hk : interval ≠ some 0)
    (perform : W → Eff O A R → Except PyErr W) (offset : Nat) (h : List (Ev O A R)) (hp : Spec.Protocol none h) :
    (∃ los las, ∀ w, run interval perform ((Agent.new w).resumed offset) h
      = (performAll perform w (Spec.trace interval offset none h)).map fun w =>
          ⟨offset + Spec.steps h, los, las, w⟩) ∧
    (∀ k, interval = some k → Spec.syncs (Spec.trace interval offset none h)
      = (List.range' (offset + 1) (Spec.steps h)).filter fun t => decide (k ∣ t)) ∧
    Spec.updates (Spec.trace interval offset none h) = List.range' (offset + 1) (Spec.steps h) := by
  have hnone : ∀ p : List O × List A, (none : Option (List O × List A)) = some p →
      p.1.length = p.2.length := by intro p h; cases h
  refine ⟨?_, ?_, ?_⟩
  · obtain ⟨los, las, hrun⟩ := run_eq hk perform h offset none [] none hp (by intro p h; cases h)
    exact ⟨los, las, hrun⟩
  · intro k hk'
    subst hk'
    exact trace_syncs k h offset none hp hnone
  · exact trace_updates interval h offset none hp hnone

/-- **C35** (evaluation).  Calls made in evaluation mode change nothing: leaving them out of any history,
whether it follows the protocol or not, gives the same agent, the same effects on the rest of the world
and the same exception. -/
theorem evaluation_changes_nothing (interval : Option Nat) (perform : W → Eff O A R → Except PyErr W) :
    ∀ (h : List (Ev O A R)) (a : Agent O A W),
      run interval perform a h = run interval perform a (h.filter Spec.isTraining)
  | [], _ => rfl
  | .act true _ _ :: h, a => by
    simp only [List.filter, Spec.isTraining, run]
    exact evaluation_changes_nothing interval perform h _
  | .act false _ _ :: h, a => by
    simp only [List.filter, Spec.isTraining, run, Agent.act]
    exact evaluation_changes_nothing interval perform h a
  | .observe false _ :: h, a => by
    simp only [List.filter, Spec.isTraining, run, Agent.observe]
    exact evaluation_changes_nothing interval perform h a
  | .observe true rows :: h, a => by
    simp only [List.filter, Spec.isTraining, run]
    cases a.observe interval perform true rows with
    | error e => rfl
    | ok a => exact evaluation_changes_nothing interval perform h a

/-- **C35 fails for `target_update_interval = 0`**, which the constructor of DQN accepts (0 is a multiple
of every `update_interval`): the first observed step raises `ZeroDivisionError`. -/
theorem target_interval_zero_raises (perform : W → Eff O A R → Except PyErr W) (row : Row O R)
    (rows : List (Row O R)) (a : Agent O A W) :
    a.observe (some 0) perform true (row :: rows) = .error .zeroDivision := by
  simp [Agent.observe, observeLoop, observeRow, syncIfDue]

/-- Two environments, an evaluation between an act and its observe, target interval 2. -/
def exHistory : List (Ev Nat Nat Int) :=
  [.act true [10, 20] [1, 2], .act false [99] [9], .observe false [⟨98, 5, true, false⟩],
    .observe true [⟨11, 3, false, false⟩, ⟨21, 4, true, false⟩],
    .act true [11, 30] [5, 6], .observe true [⟨12, 7, false, true⟩, ⟨31, 8, false, false⟩]]

example : Spec.Protocol none exHistory := by
  simp [exHistory, Spec.Protocol]

example : run (some 2) (fun w e => .ok (w ++ [e])) (Agent.new []) exHistory = .ok
    ⟨4, some [none, some 30], [none, some 6],
      [.append 0 ⟨10, 1, 3, 11, false⟩, .update 1,
       .sync 2, .append 1 ⟨20, 2, 4, 21, true⟩, .stop 1, .update 2,
       .append 0 ⟨11, 5, 7, 12, false⟩, .stop 0, .update 3,
       .sync 4, .append 1 ⟨30, 6, 8, 31, false⟩, .update 4]⟩ := by decide

/-! ## C36 -/

/-- **C36.** In the list of effects of `interaction_schedule`, what the replay buffer is told about
environment `i` is exactly what environment `i` went through: one transition for each pair of an act and
the following observe, made of that act's observation and action and that observe's reward, next
observation and done flag, and the end of the episode exactly after done or reset. -/
theorem stored_transitions (interval : Option Nat) (offset : Nat) (h : List (Ev O A R))
    (hp : Spec.Protocol none h) (i : Nat) :
    Spec.stored i (Spec.trace interval offset none h) = Spec.experience i none h :=
  trace_stored interval i h offset none hp (by intro p h; cases h)

/-- The call of the replay buffer an effect makes, if any. -/
def Spec.bufferOp : Eff O A R → Option (Replay.Op Nat (O × A × R × O))
  | .append i tr => some (.append i ⟨(tr.state, tr.action, tr.reward, tr.nextState), tr.terminal⟩)
  | .stop i => some (.stop i)
  | _ => none

/-- The world of an agent with a `ReplayBuffer`: `other` is what synchronisation and updates do to the
rest, reading the buffer but not changing its contents. -/
def withBuffer {M V : Type _} (push : M → List (Replay.Tr (O × A × R × O)) → Except PyErr M)
    (other : Replay.RB Nat (O × A × R × O) M → V → Eff O A R → Except PyErr V)
    (w : Replay.RB Nat (O × A × R × O) M × V) (e : Eff O A R) :
    Except PyErr (Replay.RB Nat (O × A × R × O) M × V) :=
  match Spec.bufferOp e with
  | some op => (w.1.step push op).map fun b => (b, w.2)
  | none => (other w.1 w.2 e).map fun v => (w.1, v)

theorem withBuffer_run {M V : Type _} (push : M → List (Replay.Tr (O × A × R × O)) → Except PyErr M)
    (other : Replay.RB Nat (O × A × R × O) M → V → Eff O A R → Except PyErr V) :
    ∀ (es : List (Eff O A R)) (b : Replay.RB Nat (O × A × R × O) M) (v : V) {w'},
      performAll (withBuffer push other) (b, v) es = .ok w' →
      b.run push (es.filterMap Spec.bufferOp) = .ok w'.1
  | [], b, v, w', h => by cases h; rfl
  | e :: es, b, v, w', h => by
    simp only [performAll, withBuffer] at h
    cases ho : Spec.bufferOp e with
    | none =>
      rw [List.filterMap_cons_none ho]
      rw [ho] at h
      simp only at h
      cases hv : other b v e with
      | error err => rw [hv] at h; cases h
      | ok v' =>
        rw [hv] at h
        exact withBuffer_run push other es b v' h
    | some op =>
      rw [List.filterMap_cons_some ho]
      rw [ho] at h
      simp only at h
      cases hb : b.step push op with
      | error err => rw [hb] at h; cases h
      | ok b' =>
        rw [hb] at h
        simp only [Replay.RB.run, hb]
        exact withBuffer_run push other es b' v h

/-- The payload of a stored transition. -/
def Spec.asBufferTr (tr : Tr O A R) : Replay.Tr (O × A × R × O) :=
  ⟨(tr.state, tr.action, tr.reward, tr.nextState), tr.terminal⟩

theorem calls_bufferOps (i : Nat) : ∀ es : List (Eff O A R),
    Replay.Spec.calls i (es.filterMap Spec.bufferOp) = (Spec.stored i es).map (Option.map Spec.asBufferTr)
  | [] => rfl
  | .sync _ :: es => calls_bufferOps i es
  | .update _ :: es => calls_bufferOps i es
  | .append j tr :: es => by
    rw [List.filterMap_cons_some (f := Spec.bufferOp) (b := .append j (Spec.asBufferTr tr)) rfl]
    simp only [Replay.Spec.calls, Spec.stored, List.filterMap_cons]
    have := calls_bufferOps i es
    simp only [Spec.stored] at this
    by_cases h : j = i
    · simp [h, this]
    · simp [h, this]
  | .stop j :: es => by
    rw [List.filterMap_cons_some (f := Spec.bufferOp) (b := .stop j) rfl]
    simp only [Replay.Spec.calls, Spec.stored, List.filterMap_cons]
    have := calls_bufferOps i es
    simp only [Spec.stored] at this
    by_cases h : j = i
    · simp [h, this]
    · simp [h, this]

/-- **C36** (with the buffer).  An agent with a `ReplayBuffer` of any capacity and `num_steps = n`: after
every history in which no update raises, the buffer holds what its capacity leaves of a log whose part
for environment `i` is exactly the list of windows of the episodes environment `i` went through. -/
theorem agent_buffer_contents {interval : Option Nat} (hk : interval ≠ some 0) (c : Option Nat) {n : Nat}
    (hn : 0 < n) {V : Type _}
    (other : Replay.RB Nat (O × A × R × O) (Queue.RAQ (List (Replay.Tr (O × A × R × O)))) → V →
      Eff O A R → Except PyErr V) (v : V) (offset : Nat) (h : List (Ev O A R)) (hp : Spec.Protocol none h) :
    ∃ b0, Replay.RB.new (c.map Int.ofNat) n = .ok b0 ∧
      ∀ a, run interval (withBuffer Queue.RAQ.append other) ((Agent.new (b0, v)).resumed offset) h = .ok a →
        a.t = offset + Spec.steps h ∧ ∃ log : List (Nat × List (Replay.Tr (O × A × R × O))),
          a.world.1.memory.iter = Queue.Spec.keep c (log.map Prod.snd) ∧
          ∀ i, Replay.Spec.ofEnv i log = Replay.Spec.stored n
            ((Spec.experience i none h).map (Option.map Spec.asBufferTr)) := by
  obtain ⟨⟨los, las, hrun⟩, _⟩ := interaction_schedule hk (withBuffer Queue.RAQ.append other) offset h hp
  let ops := (Spec.trace interval offset none h).filterMap Spec.bufferOp
  obtain ⟨b0, b, g1, g2, g3, g4⟩ := Replay.replay_buffer_stores_windows c hn ops
  refine ⟨b0, g1, ?_⟩
  intro a ha
  rw [hrun] at ha
  cases hw : performAll (withBuffer Queue.RAQ.append other) (b0, v) (Spec.trace interval offset none h) with
  | error e => rw [hw] at ha; cases ha
  | ok w =>
    rw [hw] at ha
    cases ha
    refine ⟨rfl, Replay.Spec.log n [] ops, ?_, ?_⟩
    · have := withBuffer_run Queue.RAQ.append other _ b0 v hw
      rw [show (Spec.trace interval offset none h).filterMap Spec.bufferOp = ops from rfl, g2] at this
      cases this
      exact g3
    · intro i
      rw [g4 i, calls_bufferOps, stored_transitions interval offset h hp]

end Pfrl.Interact
