import Verif.PBuf.Props
import Verif.Weights.Props
import Verif.Value.Losses

/-!
# Training with prioritized experience replay (C86)

`PrioritizedReplayBuffer` together with the update of `DQN`: storing experiences, drawing minibatches with weights, computing errors and giving them
back as priorities.  How transitions become n-step experiences is C11; here an experience is an item.  The networks change with every
update, so each update comes with its own function `net`, giving the prediction and the target for an experience.  Numbers are exact.
-/

namespace Pfrl.Weights.Training

open Pfrl.PBuf (PB Rnd)
open Pfrl.Value.Loss (Row weightedValueLoss errors)

variable {T : Type _}

/-! ## Model -/

/-- `PrioritizedReplayBuffer`: its memory and what it inherits from `PriorityWeightError`, `pfrl/replay_buffers/prioritized.py:69-112`. -/
structure Sys (T : Type _) where
  mem : PB T ℝ
  pwe : PWE

/-- `PrioritizedReplayBuffer.__init__`, lines 86-112; `PrioritizedBuffer` has `wait_priority_after_sampling=True` and
`initial_max_priority=1.0` by default. -/
noncomputable def Sys.new (capacity : Option Int) (pwe : PWE) : Sys T := ⟨PB.new capacity true 1, pwe⟩

/-- A finished experience enters the memory, `pfrl/replay_buffers/replay_buffer.py` (`self.memory.append`). -/
noncomputable def Sys.store (s : Sys T) (x : T) : Except PyErr (Sys T) :=
  match s.mem.append x none with
  | .error e => .error e
  | .ok mem => .ok { s with mem := mem }

/-- `sample`, lines 114-121: the experiences with the weights written into them. -/
noncomputable def Sys.sample (s : Sys T) (n : Nat) (r : Rnd ℝ) : Except PyErr (Sys T × List (T × ℝ)) :=
  if s.mem.data.length < n then .error .assertionError
  else
    match s.mem.sample n 0 r with
    | .error e => .error e
    | .ok (mem, sampled, probs, minProb) =>
      match s.pwe.weightsFromProbabilities mem.data.length probs minProb with
      | .error e => .error e
      | .ok (ws, pwe) => .ok (⟨mem, pwe⟩, sampled.zip ws)

/-- `update_errors`, lines 123-124. -/
noncomputable def Sys.updateErrors (s : Sys T) (errs : List ℝ) : Except PyErr (Sys T) :=
  match s.mem.setLastPriority (s.pwe.priorityFromErrors errs) with
  | .error e => .error e
  | .ok mem => .ok { s with mem := mem }

/-- `DQN.update` on the experiences sampled for it, `pfrl/agents/dqn.py:316-364`: the rows of the minibatch, with the weights found in the
experiences, and the loss.  `experiences[0]` fails if there is none. -/
noncomputable def Sys.update (s : Sys T) (n : Nat) (r : Rnd ℝ) (clipDelta mean : Bool) (net : T → ℝ × ℝ) :
    Except PyErr (Sys T × List (T × Row ℝ ℝ) × ℝ) :=
  match s.sample n r with
  | .error e => .error e
  | .ok (s, experiences) =>
    if experiences.isEmpty then .error .indexError
    else
      let rows : List (Row ℝ ℝ) := experiences.map fun e => ⟨(net e.1).1, (net e.1).2, e.2⟩
      match s.updateErrors (errors rows) with
      | .error e => .error e
      | .ok s => .ok (s, (experiences.map (·.1)).zip rows, weightedValueLoss clipDelta mean rows)

/-- What the agent does. -/
inductive Op (T : Type _) where
  | store (x : T)
  | update (n : Nat) (r : Rnd ℝ) (clipDelta mean : Bool) (net : T → ℝ × ℝ)

/-- One operation; the result of an update is its minibatch and its loss. -/
noncomputable def Sys.step (s : Sys T) : Op T → Except PyErr (Sys T × Option (List (T × Row ℝ ℝ) × ℝ))
  | .store x => (s.store x).map fun s => (s, none)
  | .update n r c m net => (s.update n r c m net).map fun x => (x.1, some x.2)

/-- A history. -/
noncomputable def Sys.run (s : Sys T) : List (Op T) → Except PyErr (Sys T × List (Option (List (T × Row ℝ ℝ) × ℝ)))
  | [] => .ok (s, [])
  | op :: ops =>
    match s.step op with
    | .error e => .error e
    | .ok (s, out) =>
      match Sys.run s ops with
      | .error e => .error e
      | .ok (s, outs) => .ok (s, out :: outs)

/-! ## Specification -/

/-- The stored experiences with their priorities, oldest first; the largest priority ever given; and the exponent of the weights. -/
structure Spec.St (T : Type _) where
  entries : List (T × ℝ)
  maxp : ℝ
  beta : ℝ

/-- `m` is the least number of the list. -/
def Spec.Least (l : List ℝ) (m : ℝ) : Prop := m ∈ l ∧ ∀ x ∈ l, m ≤ x

/-- The priority for the error `d`: clipped, shifted by `eps`, to the power `alpha`. -/
noncomputable def Spec.priority (w : PWE) (d : ℝ) : ℝ := (w.clip d + w.eps) ^ w.alpha

/-- The weight of an experience with priority `p`, where `m` is the least priority of the minibatch or of the memory. -/
noncomputable def Spec.weight (w : PWE) (beta : ℝ) (prios : List ℝ) (m p : ℝ) : ℝ :=
  match w.norm with
  | .off => (prios.length * (p / prios.sum)) ^ (-beta)
  | _ => (m / p) ^ beta

/-- What each operation does. -/
inductive Spec.Step (w : PWE) (cap : Option Int) : Spec.St T → Op T → Option (List (T × Row ℝ ℝ) × ℝ) → Spec.St T → Prop
  /-- A new experience gets the largest priority; it pushes out the oldest one if the buffer is full. -/
  | store (s : Spec.St T) (x : T) : Spec.Step w cap s (.store x) none
      { s with entries := (if cap = some (s.entries.length : Int) then s.entries.tail else s.entries) ++ [(x, s.maxp)] }
  /-- `n` different experiences are drawn according to the priorities; each gets the priority of its own TD error, no other
  priority changes. -/
  | update (s : Spec.St T) (n : Nat) (r : Rnd ℝ) (c mean : Bool) (net : T → ℝ × ℝ) (is : List Nat) (vs ws : List ℝ) (drawn : List (T × ℝ))
      (m : ℝ) (entries : List (T × ℝ)) (rows : List (T × Row ℝ ℝ)) :
      Tree.Spec.Drawn r.rng 0 (s.entries.map (·.2)) is vs ws → is.Nodup → is.length = n →
      is.map (fun i => s.entries[i]?) = drawn.map some →
      Spec.Least (if w.norm = .batch then drawn.map (·.2) else s.entries.map (·.2)) m →
      rows = drawn.map (fun e => (e.1, ⟨(net e.1).1, (net e.1).2, Spec.weight w s.beta (s.entries.map (·.2)) m e.2⟩)) →
      entries.length = s.entries.length →
      (∀ (k i : Nat) e, is[k]? = some i → drawn[k]? = some e →
        entries[i]? = some (e.1, Spec.priority w |(net e.1).1 - (net e.1).2|)) →
      (∀ i, i ∉ is → entries[i]? = s.entries[i]?) →
      Spec.Step w cap s (.update n r c mean net) (some (rows, weightedValueLoss c mean (rows.map (·.2))))
        ⟨entries, (drawn.map fun e => Spec.priority w |(net e.1).1 - (net e.1).2|).foldl max s.maxp, min 1 (s.beta + w.betaAdd)⟩

/-- Updates are made with a non-empty minibatch that is not larger than the buffer, and proper random numbers. -/
def Spec.Valid (s : Spec.St T) : Op T → Prop
  | .store _ => True
  | .update n r _ _ _ => 1 ≤ n ∧ n ≤ s.entries.length ∧ Tree.Spec.UniformRng r.rng

/-- All operations of the history are valid, whatever is drawn. -/
def Spec.Allowed (w : PWE) (cap : Option Int) (s : Spec.St T) : List (Op T) → Prop
  | [] => True
  | op :: ops => Spec.Valid s op ∧ ∀ out s', Spec.Step w cap s op out s' → Spec.Allowed w cap s' ops

/-- Several operations. -/
inductive Spec.Steps (w : PWE) (cap : Option Int) : Spec.St T → List (Op T) → List (Option (List (T × Row ℝ ℝ) × ℝ)) → Spec.St T → Prop
  | nil (s : Spec.St T) : Spec.Steps w cap s [] [] s
  | cons {s s' s'' : Spec.St T} {op : Op T} {ops : List (Op T)} {out} {outs} :
      Spec.Step w cap s op out s' → Spec.Steps w cap s' ops outs s'' → Spec.Steps w cap s (op :: ops) (out :: outs) s''

/-- Settings that make sense: those of the defaults, for instance. -/
structure Spec.Settings (w : PWE) : Prop where
  alpha : 0 ≤ w.alpha
  eps : 0 < w.eps
  errorMin : ∃ m, w.errorMin = some m ∧ 0 ≤ m
  errorMax : ∀ m, w.errorMax = some m → 0 ≤ m

/-! ## Lemmas -/

/-- The buffer and its specification agree. -/
structure Sim (w : PWE) (cap : Option Int) (s : Sys T) (a : Spec.St T) : Prop where
  pwe : s.pwe = { w with beta := a.beta }
  mem : ∃ p : PBuf.Spec.St T ℝ, PBuf.Sim s.mem p ∧ p.cap = cap ∧ p.wait = true ∧ p.waiting = false ∧ p.entries = a.entries ∧ p.maxp = a.maxp

theorem store_sim {w : PWE} {cap : Option Int} {s : Sys T} {a : Spec.St T} (h : Sim w cap s a) (x : T) :
    ∃ s' out a', s.step (.store x) = .ok (s', out) ∧ Spec.Step w cap a (.store x) out a' ∧ Sim w cap s' a' := by
  obtain ⟨p, h1, h2, h3, h4, h5, h6⟩ := h.mem
  obtain ⟨b', out, p', g1, g2, g3⟩ := PBuf.step_sim h1 (.append x none) (show _ ∧ _ from ⟨fun v hv => (by cases hv), fun hw => (by rw [h4] at hw; cases hw)⟩)
  cases g2
  have g1' : s.mem.append x none = .ok b' := by
    simp only [PB.step] at g1
    cases ha : s.mem.append x none with
    | error e => rw [ha] at g1; cases g1
    | ok m =>
      rw [ha] at g1
      simp only [Except.map] at g1
      cases g1
      rfl
  refine ⟨{ s with mem := b' }, none, _, ?_, .store a x, ?_⟩
  · unfold Sys.step Sys.store
    simp only [g1', Except.map]
  · refine ⟨h.pwe, _, g3, h2, h3, h4, ?_, h6⟩
    simp only [PBuf.Spec.St.full, decide_eq_true_eq, h2, h5, h6, Option.getD_none]

theorem entries_exist {α : Type _} (es : List α) : ∀ is : List Nat, (∀ i ∈ is, i < es.length) →
    ∃ drawn : List α, is.map (fun i => es[i]?) = drawn.map some := by
  intro is
  induction is with
  | nil => intro _; exact ⟨[], rfl⟩
  | cons i is ih =>
    intro h
    obtain ⟨d, hd⟩ := ih fun j hj => h j (List.mem_cons_of_mem _ hj)
    exact ⟨es[i]'(h i List.mem_cons_self) :: d, by
      rw [List.map_cons, List.map_cons, hd, List.getElem?_eq_getElem (h i List.mem_cons_self)]⟩

theorem map_some_inj {α : Type _} {l l' : List α} (h : l.map some = l'.map some) : l = l' :=
  List.map_injective_iff.mpr (Option.some_injective _) h

theorem least_scaled {l : List ℝ} {m S : ℝ} (hS : 0 < S) (h : m ∈ l.map (fun p => p / S) ∧ ∀ x ∈ l.map (fun p => p / S), m ≤ x) :
    ∃ m', Spec.Least l m' ∧ m = m' / S := by
  obtain ⟨m', hm', rfl⟩ := List.mem_map.mp h.1
  refine ⟨m', ⟨hm', fun x hx => ?_⟩, rfl⟩
  have := h.2 (x / S) (List.mem_map.mpr ⟨x, hx, rfl⟩)
  exact (div_le_div_iff_of_pos_right hS).mp this

/-- The weights of the minibatch. -/
theorem weights_spec (w : PWE) (beta : ℝ) (prios drawn : List ℝ) (mn : ℝ) (hne : drawn ≠ []) (hpos : ∀ p ∈ prios, 0 < p)
    (hsub : ∀ p ∈ drawn, p ∈ prios) (hmn : Spec.Least prios mn) :
    ∃ m, Spec.Least (if w.norm = .batch then drawn else prios) m ∧
      ({ w with beta := beta } : PWE).weightsFromProbabilities prios.length (drawn.map fun p => p / prios.sum) (mn / prios.sum) =
        .ok (drawn.map (Spec.weight w beta prios m), { w with beta := min 1 (beta + w.betaAdd) }) := by
  have hS : 0 < prios.sum := by
    refine lt_of_lt_of_le (hpos mn hmn.1) (List.single_le_sum (fun p hp => (hpos p hp).le) mn hmn.1)
  have key : ∀ m, 0 < m → ∀ p ∈ drawn, (p / prios.sum / (m / prios.sum)) ^ (-beta) = (m / p) ^ beta := by
    intro m hm p hp
    have hp := hpos p (hsub p hp)
    rw [rpow_div_neg (by positivity) (by positivity)]
    congr 1
    field_simp
  obtain ⟨al, be, ba, ep, nm, e1, e2⟩ := w
  cases nm with
  | off =>
    refine ⟨mn, hmn, ?_⟩
    unfold PWE.weightsFromProbabilities
    simp only [List.map_map]
    rfl
  | memory =>
    refine ⟨mn, hmn, ?_⟩
    unfold PWE.weightsFromProbabilities
    simp only [List.map_map]
    congr 2
    apply List.map_congr_left
    intro p hp
    exact key mn (hpos mn hmn.1) p hp
  | batch =>
    obtain ⟨p0, ps, rfl⟩ := List.exists_cons_of_ne_nil hne
    have h1 := foldl_min_spec (p0 / prios.sum) (ps.map fun p => p / prios.sum)
    obtain ⟨m, hm1, hm2⟩ := least_scaled (l := p0 :: ps) hS h1
    refine ⟨m, hm1, ?_⟩
    unfold PWE.weightsFromProbabilities
    simp only [List.map_cons, npMin, hm2]
    have := key m (hpos m (hsub m hm1.1))
    simp only [List.map_map]
    congr 3
    · exact this p0 List.mem_cons_self
    · apply List.map_congr_left
      intro p hp
      exact this p (List.mem_cons_of_mem _ hp)

theorem drawn_prio {T : Type _} {es : List (T × ℝ)} {is : List Nat} {drawn : List (T × ℝ)} (h : is.map (fun i : Nat => es[i]?) = drawn.map some) :
    (is.map fun i : Nat => ((es.map (·.2))[i]?).getD 0) = drawn.map (·.2) := by
  have := congrArg (List.map fun o : Option (T × ℝ) => (o.map (·.2)).getD 0) h
  rw [List.map_map, List.map_map] at this
  have e : ((fun o : Option (T × ℝ) => (o.map (·.2)).getD 0) ∘ fun i : Nat => es[i]?) = fun i : Nat => ((es.map (·.2))[i]?).getD 0 := by
    funext i
    simp only [Function.comp_apply, List.getElem?_map]
  rw [e] at this
  rw [this]
  rfl

theorem update_sim {w : PWE} (hw : Spec.Settings w) {cap : Option Int} {s : Sys T} {a : Spec.St T} (h : Sim w cap s a) (n : Nat) (r : Rnd ℝ)
    (c mean : Bool) (net : T → ℝ × ℝ) (hv : Spec.Valid a (.update n r c mean net)) :
    ∃ s' out a', s.step (.update n r c mean net) = .ok (s', out) ∧ Spec.Step w cap a (.update n r c mean net) out a' ∧ Sim w cap s' a' := by
  obtain ⟨p, h1, h2, h3, h4, h5, h6⟩ := h.mem
  obtain ⟨hn1, hn2, hrng⟩ := hv
  have hne : p.entries ≠ [] := by
    rw [h5]
    intro hc
    rw [hc] at hn2
    simp at hn2
    omega
  obtain ⟨b1, out1, p1, g1, g2, g3⟩ := PBuf.step_sim h1 (.sample n 0 r)
    ⟨fun _ => h4, hne, by rw [h5]; exact hn2, hrng, fun hc => absurd hc (lt_irrefl _)⟩
  cases g2 with
  | sample _ _ _ us is vs ws mn items hus1 hus2 hus3 hdr hlen hitems hmn1 hmn2 =>
    rw [if_neg (lt_irrefl _)] at hus2
    obtain rfl := List.eq_nil_of_length_eq_zero hus2
    rw [List.nil_append] at hitems g1 g3
    rw [List.length_nil, zero_add] at hlen
    have hz : Tree.Spec.zeroAt p.prios [] = p.prios := by
      unfold Tree.Spec.zeroAt
      apply List.ext_getElem?
      intro i
      simp
    rw [h3, if_pos rfl, hz] at hdr
    -- the sampled entries
    have hixs : ∀ i ∈ is, i < p.entries.length := g3.ixs is rfl
    obtain ⟨drawn, hdrawn⟩ := entries_exist p.entries is hixs
    have hitems' : items = drawn.map (·.1) := by
      apply map_some_inj
      rw [← hitems]
      have := congrArg (List.map fun o : Option (T × ℝ) => o.map (·.1)) hdrawn
      rw [List.map_map, List.map_map] at this
      rw [List.map_map]
      exact this
    have hdlen : drawn.length = n := by
      have := congrArg List.length hdrawn
      rw [List.length_map, List.length_map] at this
      omega
    have hdne : drawn ≠ [] := by
      rintro rfl
      simp at hdlen
      omega
    have hsub : ∀ e ∈ drawn, e ∈ p.entries := by
      intro e he
      have : some e ∈ drawn.map some := List.mem_map_of_mem he
      rw [← hdrawn] at this
      obtain ⟨i, _, hi⟩ := List.mem_map.mp this
      exact List.mem_of_getElem? hi
    have hprobs : (is.map fun i => (0 : ℝ) / (p.entries.length : ℝ) + (1 - 0) * ((p.prios[i]?).getD 0) / p.prios.sum) =
        (drawn.map (·.2)).map fun q => q / p.prios.sum := by
      rw [← drawn_prio hdrawn, List.map_map]
      apply List.map_congr_left
      intro i _
      simp only [zero_div, zero_add, sub_zero, one_mul, Function.comp_apply, PBuf.Spec.St.prios]
    rw [hprobs, if_neg (lt_irrefl _)] at g1
    -- the model's sample
    have hsample : s.mem.sample n 0 r = .ok (b1, items, (drawn.map (·.2)).map (fun q => q / p.prios.sum), mn / p.prios.sum) := by
      simp only [PB.step] at g1
      cases hs : s.mem.sample n 0 r with
      | error e => rw [hs] at g1; cases g1
      | ok x =>
        rw [hs] at g1
        obtain ⟨x1, x2, x3, x4⟩ := x
        simp only [Except.map] at g1
        cases g1
        rfl
    obtain ⟨m, hm1, hm2⟩ := weights_spec w a.beta p.prios (drawn.map (·.2)) mn (by simpa using hdne) h1.pos
      (fun q hq => by
        obtain ⟨e, he, rfl⟩ := List.mem_map.mp hq
        exact List.mem_map_of_mem (hsub e he)) ⟨hmn1, hmn2⟩
    have hdata : b1.data.length = p.prios.length := by
      rw [g3.data]
      simp only [List.length_map, PBuf.Spec.St.prios]
    have hdata0 : s.mem.data.length = p.entries.length := by
      rw [h1.data, List.length_map]
    let rows : List (T × Row ℝ ℝ) := drawn.map fun e => (e.1, ⟨(net e.1).1, (net e.1).2, Spec.weight w a.beta p.prios m e.2⟩)
    have hzip : items.zip ((drawn.map (·.2)).map (Spec.weight w a.beta p.prios m)) =
        drawn.map fun e => (e.1, Spec.weight w a.beta p.prios m e.2) := by
      rw [hitems', List.map_map, List.zip_map']
      rfl
    have hs1 : s.sample n r = .ok (⟨b1, { w with beta := min 1 (a.beta + w.betaAdd) }⟩,
        drawn.map fun e => (e.1, Spec.weight w a.beta p.prios m e.2)) := by
      unfold Sys.sample
      rw [if_neg (by rw [hdata0, h5]; omega), hsample]
      simp only [h.pwe, hdata, hm2, hzip]
    -- the priorities
    let ps : List ℝ := drawn.map fun e => Spec.priority w |(net e.1).1 - (net e.1).2|
    have hps : ({ w with beta := min 1 (a.beta + w.betaAdd) } : PWE).priorityFromErrors (errors (rows.map (·.2))) = ps := by
      unfold PWE.priorityFromErrors errors
      rw [List.map_map, List.map_map, List.map_map]
      rfl
    have hpos : ∀ q ∈ ps, 0 < q := by
      rw [← hps]
      exact (priority_positive (w := { w with beta := min 1 (a.beta + w.betaAdd) }) hw.eps hw.alpha hw.errorMin hw.errorMax _).1
    have hnd : is.Nodup := g3.nodup h3 is rfl
    obtain ⟨b2, out2, p2, f1, f2, f3⟩ := PBuf.step_sim g3 (.setLast ps)
      ⟨fun _ => rfl, hpos, is, rfl, by rw [List.length_map, hlen, hdlen]⟩
    cases f2 with
    | setLast _ is' hs' =>
      cases hs'
      have hset : b1.setLastPriority ps = .ok b2 := by
        simp only [PB.step] at f1
        cases hs : b1.setLastPriority ps with
        | error e => rw [hs] at f1; cases f1
        | ok x =>
          rw [hs] at f1
          simp only [Except.map] at f1
          cases f1
          rfl
      have hrows : (drawn.map fun e => (e.1, Spec.weight w a.beta p.prios m e.2)).map
          (fun e => (⟨(net e.1).1, (net e.1).2, e.2⟩ : Row ℝ ℝ)) = rows.map (·.2) := by
        rw [List.map_map, List.map_map]
        rfl
      have hfst : ((drawn.map fun e => (e.1, Spec.weight w a.beta p.prios m e.2)).map (·.1)).zip (rows.map (·.2)) = rows := by
        have : (drawn.map fun e => (e.1, Spec.weight w a.beta p.prios m e.2)).map (·.1) = rows.map (·.1) := by
          rw [List.map_map, List.map_map]
          rfl
        rw [this, List.zip_map']
        simp
      have hentlen : (PBuf.Spec.assign p.entries (is.zip ps)).length = p.entries.length := by
        have := congrArg List.length (PBuf.assign_fst (is.zip ps) p.entries)
        simpa using this
      refine ⟨⟨b2, { w with beta := min 1 (a.beta + w.betaAdd) }⟩, some (rows, weightedValueLoss c mean (rows.map (·.2))),
        ⟨PBuf.Spec.assign p.entries (is.zip ps), ps.foldl max a.maxp, min 1 (a.beta + w.betaAdd)⟩, ?_, ?_, ?_⟩
      · simp only [Sys.step, Sys.update, hs1]
        have hemp : (drawn.map fun e => (e.1, Spec.weight w a.beta p.prios m e.2)).isEmpty = false := by
          cases drawn with
          | nil => exact absurd rfl hdne
          | cons x xs => rfl
        simp only [hemp, Bool.false_eq_true, if_false, hrows]
        unfold Sys.updateErrors
        simp only [hps, hset, hfst, Except.map]
      · refine Spec.Step.update a n r c mean net is vs ws drawn m _ rows ?_ hnd hlen ?_ ?_ ?_ ?_ ?_ ?_
        · rw [← h5]; exact hdr
        · rw [← h5]; exact hdrawn
        · rw [← h5]; exact hm1
        · rw [← h5]; rfl
        · rw [hentlen, h5]
        · intro k i e hk he
          have hei : p.entries[i]? = some e := by
            have h7 : (is.map fun i => p.entries[i]?)[k]? = (drawn.map some)[k]? := by rw [hdrawn]
            rw [List.getElem?_map, List.getElem?_map, hk, he] at h7
            simpa using h7
          exact PBuf.assign_getElem?_mem hnd hk (by
            show ps[k]? = some (Spec.priority w |(net e.1).1 - (net e.1).2|)
            rw [List.getElem?_map, he]
            rfl) hei
        · intro i hi
          rw [← h5]
          apply PBuf.assign_getElem?_not_mem
          intro hc
          rw [List.map_fst_zip (by rw [List.length_map, hlen, hdlen])] at hc
          exact hi hc
      · refine ⟨rfl, _, f3, h2, h3, rfl, rfl, ?_⟩
        show ps.foldl max p.maxp = ps.foldl max a.maxp
        rw [h6]

theorem step_sim {w : PWE} (hw : Spec.Settings w) {cap : Option Int} {s : Sys T} {a : Spec.St T} (h : Sim w cap s a) (op : Op T)
    (hv : Spec.Valid a op) :
    ∃ s' out a', s.step op = .ok (s', out) ∧ Spec.Step w cap a op out a' ∧ Sim w cap s' a' := by
  cases op with
  | store x => exact store_sim h x
  | update n r c mean net => exact update_sim hw h n r c mean net hv

/-! ## C86 -/

/-- **C86.** For every history of storing experiences and updating the agent, with any networks at any time: nothing fails; every minibatch consists of
different stored experiences, drawn according to the current priorities; each is used with the prediction and target of this very
experience and with its importance weight; afterwards each sampled experience has the priority of its own TD error and all others
keep theirs; new experiences get the largest priority so far; and the weight exponent grows by its fixed step up to 1.  The items of the
memory are always those of the specification. -/
theorem prioritized_training {w : PWE} (hw : Spec.Settings w) {cap : Option Int} (hcap : ∀ c, cap = some c → 1 ≤ c) (ops : List (Op T))
    (ha : Spec.Allowed w cap ⟨[], 1, w.beta⟩ ops) :
    ∃ s outs a, (Sys.new cap w : Sys T).run ops = .ok (s, outs) ∧ Spec.Steps w cap ⟨[], 1, w.beta⟩ ops outs a ∧
      s.mem.data = a.entries.map (·.1) ∧ Tree.Stores s.mem.sums (a.entries.map (·.2)) ∧ s.pwe = { w with beta := a.beta } ∧
      ∀ e ∈ a.entries, 0 < e.2 := by
  have key : ∀ (ops : List (Op T)) {s : Sys T} {a : Spec.St T}, Sim w cap s a → Spec.Allowed w cap a ops →
      ∃ s' outs a', s.run ops = .ok (s', outs) ∧ Spec.Steps w cap a ops outs a' ∧ Sim w cap s' a' := by
    intro ops
    induction ops with
    | nil => intro s a h _; exact ⟨s, [], a, rfl, .nil a, h⟩
    | cons op ops ih =>
      intro s a h hal
      obtain ⟨s1, out, a1, g1, g2, g3⟩ := step_sim hw h op hal.1
      obtain ⟨s2, outs, a2, f1, f2, f3⟩ := ih g3 (hal.2 out a1 g2)
      refine ⟨s2, out :: outs, a2, ?_, .cons g2 f2, f3⟩
      unfold Sys.run
      rw [g1]
      simp only [f1]
  have h0 : Sim w cap (Sys.new cap w : Sys T) ⟨[], 1, w.beta⟩ :=
    ⟨rfl, _, PBuf.new_sim hcap true one_pos, rfl, rfl, rfl, rfl, rfl⟩
  obtain ⟨s, outs, a, g1, g2, g3⟩ := key ops h0 ha
  obtain ⟨p, h1, h2, h3, h4, h5, h6⟩ := g3.mem
  refine ⟨s, outs, a, g1, g2, by rw [h1.data, h5], ?_, g3.pwe, ?_⟩
  · have := h1.sums
    simp only [PBuf.weights, h4, Bool.and_false, Bool.false_eq_true, if_false] at this
    rw [← h5]
    exact this.stores
  · intro e he
    rw [← h5] at he
    exact h1.pos e.2 (List.mem_map_of_mem he)

/-- The defaults of `PrioritizedReplayBuffer` satisfy the hypothesis. -/
example : ∃ w, PWE.new (6 / 10) (4 / 10) (some 200000) (1 / 100) .batch (some 0) (some 1) = .ok w ∧ Spec.Settings w := by
  refine ⟨_, by
    unfold PWE.new
    rw [if_neg (by norm_num), if_neg (by norm_num)]
    simp only
    rw [if_neg (by norm_num)], ⟨by norm_num, by norm_num, ⟨0, rfl, le_refl _⟩, fun m hm => by cases hm; norm_num⟩⟩

/-- A history with stores, an update of two experiences, an eviction and another update. -/
example (r : Rnd ℝ) (hr : Tree.Spec.UniformRng r.rng) (w : PWE) (net net' : Nat → ℝ × ℝ) :
    Spec.Allowed w (some 3) ⟨[], 1, w.beta⟩
      [.store 10, .store 11, .store 12, .update 2 r true true net, .store 13, .update 3 r true true net'] := by
  refine ⟨trivial, fun _ _ h => ?_⟩
  cases h
  refine ⟨trivial, fun _ _ h => ?_⟩
  cases h
  refine ⟨trivial, fun _ _ h => ?_⟩
  cases h
  refine ⟨⟨by decide, by simp, hr⟩, fun _ _ h => ?_⟩
  cases h with
  | update _ _ _ _ _ is vs ws drawn m entries rows h1 h2 h3 h4 h5 h6 h7 h8 h9 =>
    have hl : entries.length = 3 := by rw [h7]; simp
    refine ⟨trivial, fun _ _ h => ?_⟩
    cases h
    refine ⟨⟨by decide, ?_, hr⟩, fun _ _ _ => trivial⟩
    simp [hl]

end Pfrl.Weights.Training
