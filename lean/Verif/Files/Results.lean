import Verif.Files.OutputDir
import Verif.Train.Serial

/-!
# What a training leaves in its output directory (C87)

`scores.txt`, the checkpoints and the best agent, as written by `train_agent` and `Evaluator` (`pfrl/experiments/`), with a crash at any point.
-/

namespace Pfrl.Results

open Pfrl.Pretrained (Bytes Write extraction)
open Pfrl.Train (Suffix)

variable {Name S : Type} [DecidableEq Name] [LinearOrder S]

/-! ## Model -/

/-- The directories an agent is saved to, `save_agent`, `pfrl/experiments/evaluator.py:369-372`: `best` or `{t}{suffix}`. -/
inductive Dir where
  | best
  | stamped (t : Nat) (suffix : Suffix)
  deriving DecidableEq

/-- The files of the output directory; a file of an agent is named by its path in the directory of the agent (C59). -/
inductive File (Name : Type) where
  | scores
  | agent (dir : Dir) (name : Name)
  deriving DecidableEq

/-- The files and their contents. -/
abbrev Fs (Name : Type) := File Name → Option Bytes

/-- An agent at some time, as far as `save` is concerned: the files it writes, in order, and their contents. -/
abbrev Snapshot (Name : Type) := List (Name × Bytes)

/-- `agent.save(dirname)`, `pfrl/agent.py:83-105`: each `torch.save` opens its file, which empties it, and writes it.  Creating directories is not modelled. -/
def saveAgent (dir : Dir) (a : Snapshot Name) : List (Write (File Name)) := extraction (a.map fun m => (File.agent dir m.1, m.2))

/-- `write_header`, `evaluator.py:375-393`: mode `"w"`. -/
def writeHeader (header : Bytes) : List (Write (File Name)) := .truncate .scores :: header.map (Write.append .scores)

/-- `record_stats`, `evaluator.py:309-311`: mode `"a+"`. -/
def recordStats (line : Bytes) : List (Write (File Name)) := line.map (Write.append .scores)

/-- What happens in a training, as far as files are concerned. -/
inductive Ev (Name S : Type) where
  /-- an evaluation with its mean score, its line for `scores.txt`, and the agent at this time -/
  | eval (mean : S) (line : Bytes) (a : Snapshot Name)
  /-- `train_agent` saves the agent, `pfrl/experiments/train_agent.py:98-107` -/
  | save (t : Nat) (suffix : Suffix) (a : Snapshot Name)

/-- `evaluate_and_update_max_score`, `evaluator.py:463-514`, and `save_agent`: the new `max_score` and the writes. -/
def Ev.step (saveBest : Bool) (maxScore : S) : Ev Name S → S × List (Write (File Name))
  | .eval mean line a =>
    if mean > maxScore then (mean, recordStats line ++ if saveBest then saveAgent .best a else [])
    else (maxScore, recordStats line)
  | .save t suffix a => (maxScore, saveAgent (.stamped t suffix) a)

/-- The writes of a sequence of events. -/
def writes (saveBest : Bool) : S → List (Ev Name S) → List (Write (File Name))
  | _, [] => []
  | m, e :: es => (e.step saveBest m).2 ++ writes saveBest (e.step saveBest m).1 es

/-- A training: `Evaluator.__init__` writes the header, `evaluator.py:452-458`; `floatMin` is `np.finfo(np.float32).min`. -/
def training (saveBest : Bool) (floatMin : S) (header : Bytes) (evs : List (Ev Name S)) : List (Write (File Name)) :=
  writeHeader header ++ writes saveBest floatMin evs

/-- The files after some writes. -/
def applyAll (ws : List (Write (File Name))) (fs : Fs Name) : Fs Name := ws.foldl (fun f o => o.apply f) fs

/-! ## Specification -/

/-- The line of an event. -/
def Spec.line : Ev Name S → Bytes
  | .eval _ line _ => line
  | .save _ _ _ => []

/-- The directory `d` holds the agent `a`. -/
def Spec.Holds (fs : Fs Name) (d : Dir) (a : Snapshot Name) : Prop :=
  ∀ n b, Pretrained.Spec.content a n = some b → fs (.agent d n) = some b

/-- The event saves an agent to `{t}{suffix}`. -/
def Spec.stamp : Ev Name S → Option (Nat × Suffix)
  | .eval _ _ _ => none
  | .save t suffix _ => some (t, suffix)

/-- The score of an event, if it is an evaluation. -/
def Spec.score : Ev Name S → Option S
  | .eval mean _ _ => some mean
  | .save _ _ _ => none

/-- `a` was evaluated with a score above `low`, above all scores before and at least all scores after. -/
def Spec.IsBest (low : S) (evs : List (Ev Name S)) (a : Snapshot Name) : Prop :=
  ∃ before after mean line, evs = before ++ .eval mean line a :: after ∧ low < mean ∧
    (∀ e ∈ before, ∀ s, Spec.score e = some s → s < mean) ∧ (∀ e ∈ after, ∀ s, Spec.score e = some s → s ≤ mean)

/-- The event is a new best evaluation after `evs`. -/
def Spec.Improves (low : S) (evs : List (Ev Name S)) (e : Ev Name S) : Prop :=
  ∃ s, Spec.score e = some s ∧ low < s ∧ ∀ e' ∈ evs, ∀ s', Spec.score e' = some s' → s' < s

/-! ## Lemmas -/

/-- The file of a write. -/
def target : Write (File Name) → File Name
  | .truncate n => n
  | .append n _ => n

theorem applyAll_append (a b : List (Write (File Name))) (fs : Fs Name) : applyAll (a ++ b) fs = applyAll b (applyAll a fs) := by
  simp [applyAll]

theorem applyAll_frame {n : File Name} : ∀ {ws : List (Write (File Name))}, (∀ w ∈ ws, target w ≠ n) → ∀ fs : Fs Name, applyAll ws fs n = fs n
  | [], _, _ => rfl
  | w :: ws, h, fs => by
    rw [applyAll, List.foldl_cons, ← applyAll, applyAll_frame (fun x hx => h x (List.mem_cons_of_mem _ hx))]
    have := h w List.mem_cons_self
    cases w with
    | truncate m => exact Function.update_of_ne (Ne.symm this) _ _
    | append m b => exact Function.update_of_ne (Ne.symm this) _ _

omit [DecidableEq Name] in
theorem saveAgent_target {dir : Dir} {a : Snapshot Name} {w : Write (File Name)} (h : w ∈ saveAgent dir a) : ∃ n, target w = .agent dir n := by
  obtain ⟨m, hm, hw⟩ := OutputDir.mem_extraction h
  obtain ⟨x, _, rfl⟩ := List.mem_map.mp hm
  rcases hw with rfl | ⟨b, rfl⟩ <;> exact ⟨x.1, rfl⟩

omit [DecidableEq Name] in
theorem recordStats_target {line : Bytes} {w : Write (File Name)} (h : w ∈ recordStats line) : target w = .scores := by
  obtain ⟨b, _, rfl⟩ := List.mem_map.mp h
  rfl

omit [DecidableEq Name] in
theorem step_new {saveBest : Bool} {m mean : S} {line : Bytes} {a : Snapshot Name} (h : mean > m) :
    (Ev.eval mean line a).step saveBest m = (mean, recordStats line ++ if saveBest then saveAgent .best a else []) := if_pos h

omit [DecidableEq Name] in
theorem step_old {saveBest : Bool} {m mean : S} {line : Bytes} {a : Snapshot Name} (h : ¬ mean > m) :
    (Ev.eval mean line a).step saveBest m = (m, recordStats line) := if_neg h

omit [DecidableEq Name] in
/-- The files an event may write. -/
theorem step_target {saveBest : Bool} {m : S} {e : Ev Name S} {w : Write (File Name)} (h : w ∈ (e.step saveBest m).2) :
    target w = .scores ∨ (∃ n, target w = .agent .best n) ∨ ∃ t s n, Spec.stamp e = some (t, s) ∧ target w = .agent (.stamped t s) n := by
  cases e with
  | eval mean line a =>
    by_cases hm : mean > m
    · rw [step_new hm] at h
      rcases List.mem_append.mp h with h | h
      · exact Or.inl (recordStats_target h)
      · cases saveBest
        · simp at h
        · obtain ⟨n, hn⟩ := saveAgent_target h
          exact Or.inr (Or.inl ⟨n, hn⟩)
    · rw [step_old hm] at h
      exact Or.inl (recordStats_target h)
  | save t s a =>
    obtain ⟨n, hn⟩ := saveAgent_target h
    exact Or.inr (Or.inr ⟨t, s, n, rfl, hn⟩)

theorem append_scores (b : Bytes) (fs : Fs Name) {c : Bytes} (h : fs .scores = some c) :
    applyAll (recordStats b) fs .scores = some (c ++ b) := by
  unfold applyAll recordStats
  rw [OutputDir.append_line _ b fs c h, Function.update_self]

theorem header_scores (b : Bytes) (fs : Fs Name) : applyAll (writeHeader b) fs = Function.update fs .scores (some b) := by
  unfold applyAll writeHeader
  rw [Pretrained.write_member]

theorem content_map (d : Dir) (a : Snapshot Name) (n : Name) :
    Pretrained.Spec.content (a.map fun m => (File.agent d m.1, m.2)) (File.agent d n) = Pretrained.Spec.content a n := by
  induction a using List.reverseRecOn with
  | nil => rfl
  | append_singleton a m ih =>
    rw [List.map_append, List.map_cons, List.map_nil, Pretrained.content_append, Pretrained.content_append, ih]
    by_cases h : m.1 = n
    · rw [if_pos h, if_pos (by rw [h])]
    · rw [if_neg h, if_neg (by simpa using h)]

theorem save_holds (d : Dir) (a : Snapshot Name) (fs : Fs Name) : Spec.Holds (applyAll (saveAgent d a) fs) d a := by
  intro n b h
  unfold applyAll saveAgent
  rw [OutputDir.extraction_over, content_map, h]
  rfl

theorem save_scores (d : Dir) (a : Snapshot Name) (fs : Fs Name) {ws : List (Write (File Name))} (h : ws <+: saveAgent d a) :
    applyAll ws fs .scores = fs .scores :=
  applyAll_frame (fun w hw => by
    obtain ⟨n, hn⟩ := saveAgent_target (h.subset hw)
    rw [hn]
    simp) fs

omit [DecidableEq Name] in
theorem prefix_append_cases {a b done : List (Write (File Name))} (h : done <+: a ++ b) :
    done <+: a ∨ ∃ rest, done = a ++ rest ∧ rest <+: b := by
  rcases List.prefix_or_prefix_of_prefix h (List.prefix_append a b) with h1 | ⟨rest, rfl⟩
  · exact Or.inl h1
  · exact Or.inr ⟨rest, rfl, (List.prefix_append_right_inj a).mp h⟩

omit [DecidableEq Name] in
theorem recordStats_prefix {line : Bytes} {ws : List (Write (File Name))} (h : ws <+: recordStats line) :
    ∃ l, l <+: line ∧ ws = recordStats l := by
  obtain ⟨l, hl, rfl⟩ := List.prefix_map_iff.mp h
  exact ⟨l, hl, rfl⟩

/-- `scores.txt` during an event. -/
theorem step_scores {saveBest : Bool} {m : S} {e : Ev Name S} {ws : List (Write (File Name))} (h : ws <+: (e.step saveBest m).2) (fs : Fs Name)
    {c : Bytes} (hc : fs .scores = some c) : ∃ l, l <+: Spec.line e ∧ applyAll ws fs .scores = some (c ++ l) := by
  cases e with
  | eval mean line a =>
    have key : ∀ rest, ws <+: recordStats line ++ rest → (∀ r, r <+: rest → ∀ fs : Fs Name, applyAll r fs .scores = fs .scores) →
        ∃ l, l <+: line ∧ applyAll ws fs .scores = some (c ++ l) := by
      intro rest h' hr
      rcases prefix_append_cases h' with h | ⟨r, h1, h⟩
      · obtain ⟨l, hl, rfl⟩ := recordStats_prefix h
        exact ⟨l, hl, append_scores l fs hc⟩
      · exact ⟨line, List.prefix_refl _, by rw [h1, applyAll_append, hr r h, append_scores line fs hc]⟩
    have nil : ∀ r : List (Write (File Name)), r <+: [] → ∀ fs : Fs Name, applyAll r fs .scores = fs .scores := by
      intro r hr fs
      rw [List.prefix_nil.mp hr]
      rfl
    by_cases hm : mean > m
    · rw [step_new hm] at h
      cases saveBest
      · exact key [] h nil
      · exact key _ h fun r hr fs => save_scores .best a fs hr
    · rw [step_old hm] at h
      exact key [] (by simpa using h) nil
  | save t s a => exact ⟨[], List.prefix_refl _, by rw [save_scores _ _ fs h, hc, List.append_nil]⟩

theorem step_scores_all {saveBest : Bool} {m : S} {e : Ev Name S} (fs : Fs Name) {c : Bytes} (hc : fs .scores = some c) :
    applyAll (e.step saveBest m).2 fs .scores = some (c ++ Spec.line e) := by
  cases e with
  | eval mean line a =>
    by_cases hm : mean > m
    · rw [step_new hm]
      simp only [applyAll_append]
      cases saveBest
      · exact append_scores line fs hc
      · rw [if_pos rfl, save_scores _ _ _ (List.prefix_refl _)]
        exact append_scores line fs hc
    · rw [step_old hm]
      exact append_scores line fs hc
  | save t s a =>
    show applyAll (saveAgent (.stamped t s) a) fs .scores = some (c ++ [])
    rw [save_scores _ _ fs (List.prefix_refl _), hc, List.append_nil]

/-- The best score after some events. -/
def finalScore (saveBest : Bool) : S → List (Ev Name S) → S
  | m, [] => m
  | m, e :: es => finalScore saveBest (e.step saveBest m).1 es

omit [DecidableEq Name] in
theorem writes_append (saveBest : Bool) : ∀ (a b : List (Ev Name S)) (m : S),
    writes saveBest m (a ++ b) = writes saveBest m a ++ writes saveBest (finalScore saveBest m a) b
  | [], _, _ => rfl
  | e :: a, b, m => by
    rw [List.cons_append, writes, writes, finalScore, writes_append saveBest a b, List.append_assoc]

omit [DecidableEq Name] in
theorem finalScore_append (saveBest : Bool) : ∀ (a b : List (Ev Name S)) (m : S),
    finalScore saveBest m (a ++ b) = finalScore saveBest (finalScore saveBest m a) b
  | [], _, _ => rfl
  | e :: a, b, m => by rw [List.cons_append, finalScore, finalScore, finalScore_append saveBest a b]

omit [DecidableEq Name] in
/-- A crash: some events are finished, the next one is under way. -/
theorem crash_cases (saveBest : Bool) : ∀ (evs : List (Ev Name S)) (m : S) (done : List (Write (File Name))), done <+: writes saveBest m evs →
    ∃ fin rest part, evs = fin ++ rest ∧ done = writes saveBest m fin ++ part ∧
      (part = [] ∨ ∃ e es, rest = e :: es ∧ part <+: (e.step saveBest (finalScore saveBest m fin)).2)
  | [], m, done, h => ⟨[], [], [], rfl, by rw [List.prefix_nil.mp h]; rfl, Or.inl rfl⟩
  | e :: evs, m, done, h => by
    rw [writes] at h
    rcases prefix_append_cases h with h | ⟨r, rfl, hr⟩
    · exact ⟨[], e :: evs, done, rfl, rfl, Or.inr ⟨e, evs, rfl, h⟩⟩
    · obtain ⟨fin, rest, part, h1, h2, h3⟩ := crash_cases saveBest evs _ r hr
      exact ⟨e :: fin, rest, part, by rw [h1]; rfl, by rw [h2, writes, List.append_assoc], h3⟩

theorem writes_scores (saveBest : Bool) : ∀ (evs : List (Ev Name S)) (m : S) (fs : Fs Name) (c : Bytes), fs .scores = some c →
    applyAll (writes saveBest m evs) fs .scores = some (c ++ (evs.map Spec.line).flatten)
  | [], _, _, c, h => by
    show _ = some (c ++ [])
    rw [List.append_nil]
    exact h
  | e :: evs, m, fs, c, h => by
    rw [writes, applyAll_append, writes_scores saveBest evs _ _ _ (step_scores_all fs h), List.map_cons, List.flatten_cons, List.append_assoc]

omit [DecidableEq Name] in
theorem writes_target {saveBest : Bool} : ∀ {evs : List (Ev Name S)} {m : S} {w : Write (File Name)}, w ∈ writes saveBest m evs →
    ∃ e ∈ evs, ∃ m', w ∈ (e.step saveBest m').2
  | [], _, _, h => by simp [writes] at h
  | e :: evs, m, w, h => by
    rw [writes] at h
    rcases List.mem_append.mp h with h | h
    · exact ⟨e, List.mem_cons_self, m, h⟩
    · obtain ⟨e', he, m', hm⟩ := writes_target h
      exact ⟨e', List.mem_cons_of_mem _ he, m', hm⟩

/-- A directory that the events do not save to is left alone. -/
theorem stamped_frame {t : Nat} {s : Suffix} {n : Name} {ws : List (Write (File Name))} {saveBest : Bool} {evs : List (Ev Name S)}
    (hws : ∀ w ∈ ws, ∃ e ∈ evs, ∃ m', w ∈ (e.step saveBest m').2) (h : ∀ e ∈ evs, Spec.stamp e ≠ some (t, s)) (fs : Fs Name) :
    applyAll ws fs (.agent (.stamped t s) n) = fs (.agent (.stamped t s) n) := by
  apply applyAll_frame
  intro w hw
  obtain ⟨e, he, m', hm⟩ := hws w hw
  rcases step_target hm with h1 | ⟨n', h1⟩ | ⟨t', s', n', h1, h2⟩
  · rw [h1]; simp
  · rw [h1]; simp
  · rw [h2]
    intro hc
    injection hc with hc _
    injection hc with h3 h4
    subst h3 h4
    exact h e he h1

omit [DecidableEq Name] in
/-- The best score so far. -/
theorem finalScore_spec (saveBest : Bool) : ∀ (evs : List (Ev Name S)) (m : S),
    m ≤ finalScore saveBest m evs ∧ (∀ e ∈ evs, ∀ s, Spec.score e = some s → s ≤ finalScore saveBest m evs) ∧
      (finalScore saveBest m evs = m ∨ ∃ e ∈ evs, Spec.score e = some (finalScore saveBest m evs))
  | [], m => ⟨le_refl _, fun _ h => (List.not_mem_nil h).elim, Or.inl rfl⟩
  | e :: evs, m => by
    obtain ⟨h1, h2, h3⟩ := finalScore_spec saveBest evs (e.step saveBest m).1
    have key : m ≤ (e.step saveBest m).1 ∧ (∀ s, Spec.score e = some s → s ≤ (e.step saveBest m).1) ∧
        ((e.step saveBest m).1 = m ∨ Spec.score e = some (e.step saveBest m).1) := by
      cases e with
      | eval mean line a =>
        by_cases hm : mean > m
        · rw [step_new hm]
          exact ⟨hm.le, fun s hs => by cases hs; exact le_refl _, Or.inr rfl⟩
        · rw [step_old hm]
          exact ⟨le_refl _, fun s hs => by cases hs; exact not_lt.mp hm, Or.inl rfl⟩
      | save t s a => exact ⟨le_refl _, fun s hs => (by cases hs), Or.inl rfl⟩
    rw [finalScore]
    refine ⟨key.1.trans h1, fun e' he s hs => ?_, ?_⟩
    · rcases List.mem_cons.mp he with rfl | he
      · exact (key.2.1 s hs).trans h1
      · exact h2 e' he s hs
    · rcases h3 with h3 | ⟨e', he, h3⟩
      · rcases key.2.2 with h4 | h4
        · exact Or.inl (h3.trans h4)
        · exact Or.inr ⟨e, List.mem_cons_self, by rw [h3]; exact h4⟩
      · exact Or.inr ⟨e', List.mem_cons_of_mem _ he, h3⟩

omit [DecidableEq Name] in
theorem improves_iff {low : S} {evs : List (Ev Name S)} {mean : S} {line : Bytes} {a : Snapshot Name} (saveBest : Bool) :
    Spec.Improves low evs (.eval mean line a) ↔ mean > finalScore saveBest low evs := by
  obtain ⟨h1, h2, h3⟩ := finalScore_spec saveBest evs low
  constructor
  · rintro ⟨s, hs, hl, h⟩
    cases hs
    rcases h3 with h3 | ⟨e, he, h3⟩
    · rw [h3]; exact hl
    · exact h e he _ h3
  · intro h
    exact ⟨mean, rfl, lt_of_le_of_lt h1 h, fun e he s hs => lt_of_le_of_lt (h2 e he s hs) h⟩

/-- The writes of an event that is no new best do not touch `best`. -/
theorem step_best_frame {m : S} {e : Ev Name S} {saveBest : Bool} {ws : List (Write (File Name))} (h : ws <+: (e.step saveBest m).2)
    (he : ∀ mean line a, e = .eval mean line a → ¬ mean > m) (fs : Fs Name) (n : Name) :
    applyAll ws fs (.agent .best n) = fs (.agent .best n) := by
  apply applyAll_frame
  intro w hw
  have hw := h.subset hw
  cases e with
  | eval mean line a =>
    rw [step_old (he mean line a rfl)] at hw
    rw [recordStats_target hw]
    simp
  | save t s a =>
    obtain ⟨n', hn⟩ := saveAgent_target hw
    rw [hn]
    simp

/-- The best agent after complete events. -/
theorem best_holds : ∀ (evs : List (Ev Name S)) (low : S) (fs : Fs Name) (a : Snapshot Name), Spec.IsBest low evs a →
    Spec.Holds (applyAll (writes true low evs) fs) .best a := by
  intro evs low fs a ⟨before, after, mean, line, h, hl, hb, ha⟩
  subst h
  have hs : mean > finalScore true low before := (improves_iff (a := a) (line := line) true).mp ⟨mean, rfl, hl, hb⟩
  rw [writes_append, writes, applyAll_append, applyAll_append]
  have he : (Ev.eval mean line a).step true (finalScore true low before) = (mean, recordStats line ++ saveAgent .best a) := by
    rw [step_new hs, if_pos rfl]
  rw [he, applyAll_append]
  have key : ∀ (after : List (Ev Name S)) (fs : Fs Name), (∀ e ∈ after, ∀ s, Spec.score e = some s → s ≤ mean) → Spec.Holds fs .best a →
      Spec.Holds (applyAll (writes true mean after) fs) .best a := by
    intro after
    induction after with
    | nil => intro fs _ h; exact h
    | cons e after ih =>
      intro fs h hfs
      have hno : ∀ mean' line' a', e = .eval mean' line' a' → ¬ mean' > mean := by
        rintro m' l' a' rfl
        exact not_lt.mpr (h _ List.mem_cons_self m' rfl)
      have hm : (e.step true mean).1 = mean := by
        cases e with
        | eval m' l' a' =>
          rw [step_old (hno _ _ _ rfl)]
        | save t s a' => rfl
      rw [writes, hm, applyAll_append]
      apply ih _ fun e' he' => h e' (List.mem_cons_of_mem _ he')
      intro n b hc
      rw [step_best_frame (List.prefix_refl _) hno]
      exact hfs n b hc
  exact key after _ ha (save_holds _ _ _)

/-! ## C87 -/

/-- **C87 (scores and checkpoints).** Let a training be killed at any point.  Then, apart from the very beginning, `scores.txt` is the header, the
complete lines of all finished evaluations, and possibly the beginning of the line of the next one; every agent saved before under `{t}_checkpoint`,
`{t}_except` or `{t}_finish` is complete; and at most the one that was just being saved is not. -/
theorem crash_keeps_results (saveBest : Bool) (floatMin : S) (header : Bytes) (evs : List (Ev Name S)) (hd : (evs.filterMap Spec.stamp).Nodup)
    (fs : Fs Name) (done : List (Write (File Name))) (h : done <+: training saveBest floatMin header evs) :
    (done <+: writeHeader header ∧ ∀ d n, applyAll done fs (.agent d n) = fs (.agent d n)) ∨
    ∃ fin rest l, evs = fin ++ rest ∧ l <+: ((rest.head?).map Spec.line).getD [] ∧
      applyAll done fs .scores = some (header ++ (fin.map Spec.line).flatten ++ l) ∧
      (∀ t s a, Ev.save t s a ∈ fin → Spec.Holds (applyAll done fs) (.stamped t s) a) ∧
      (∀ t s, (∀ e ∈ fin ++ rest.take 1, Spec.stamp e ≠ some (t, s)) →
        ∀ n, applyAll done fs (.agent (.stamped t s) n) = fs (.agent (.stamped t s) n)) := by
  rcases prefix_append_cases h with h | ⟨r, rfl, hr⟩
  · refine Or.inl ⟨h, fun d n => applyAll_frame (fun w hw => ?_) fs⟩
    rcases List.mem_cons.mp (h.subset hw) with rfl | hw
    · simp [target]
    · obtain ⟨b, _, rfl⟩ := List.mem_map.mp hw
      simp [target]
  · right
    obtain ⟨fin, rest, part, rfl, rfl, hpart⟩ := crash_cases saveBest evs floatMin r hr
    rw [applyAll_append, applyAll_append, header_scores]
    set fs1 : Fs Name := Function.update fs .scores (some header) with hfs1
    have hsc := writes_scores saveBest fin floatMin fs1 header (by rw [hfs1, Function.update_self])
    have hag : ∀ d n, fs1 (.agent d n) = fs (.agent d n) := fun d n => by
      rw [hfs1, Function.update_of_ne (by simp)]
    have hpw : ∀ w ∈ part, ∃ e ∈ rest.take 1, ∃ m', w ∈ (e.step saveBest m').2 := by
      intro w hw
      rcases hpart with rfl | ⟨e, es, rfl, hp⟩
      · exact (List.not_mem_nil hw).elim
      · exact ⟨e, by simp, _, hp.subset hw⟩
    obtain ⟨l, hl1, hl2⟩ : ∃ l, l <+: ((rest.head?).map Spec.line).getD [] ∧
        applyAll part (applyAll (writes saveBest floatMin fin) fs1) .scores = some (header ++ (fin.map Spec.line).flatten ++ l) := by
      rcases hpart with rfl | ⟨e, es, rfl, hp⟩
      · exact ⟨[], List.nil_prefix, by rw [List.append_nil]; exact hsc⟩
      · exact step_scores hp _ hsc
    refine ⟨fin, rest, l, rfl, hl1, hl2, ?_, ?_⟩
    · intro t s a ha
      obtain ⟨b, c, rfl⟩ := List.append_of_mem ha
      have hno : ∀ e ∈ c ++ rest, Spec.stamp e ≠ some (t, s) := by
        intro e he hc
        rw [List.append_assoc, List.filterMap_append, List.cons_append, List.filterMap_cons] at hd
        have hd := (List.nodup_append.mp hd).2.1
        have hd := (List.nodup_cons.mp hd).1
        exact hd (List.mem_filterMap.mpr ⟨e, he, hc⟩)
      intro n bts hcont
      rw [stamped_frame hpw (fun e he => hno e (List.mem_append.mpr (Or.inr (List.mem_of_mem_take he)))), writes_append, applyAll_append, writes,
        applyAll_append, stamped_frame (evs := c) (fun w hw => writes_target hw) (fun e he => hno e (List.mem_append.mpr (Or.inl he)))]
      exact save_holds _ _ _ n bts hcont
    · intro t s hno n
      rw [stamped_frame hpw (fun e he => hno e (List.mem_append.mpr (Or.inr he))),
        stamped_frame (evs := fin) (fun w hw => writes_target hw) (fun e he => hno e (List.mem_append.mpr (Or.inl he))), hag]

/-- **C87 (best agent, partial).** Let a training be killed at any point after writing the header, when the events `fin` are finished.  If it was between two events, or
during one that is no new best, then `best` holds the agent with the highest score of this training (the first one, if there are several).  Missing: a
crash while `best` is being overwritten, see `best_torn_by_crash`; and scores of earlier trainings in the same directory, see
`restart_forgets_best`. -/
theorem best_agent_after_crash_partial (floatMin : S) (header : Bytes) (evs : List (Ev Name S)) (fs : Fs Name) (done : List (Write (File Name)))
    (h : done <+: training true floatMin header evs) :
    done <+: writeHeader header ∨
    ∃ fin rest, evs = fin ++ rest ∧ training true floatMin header fin <+: done ∧ done <+: training true floatMin header (fin ++ rest.take 1) ∧
      ((done = training true floatMin header fin ∨ ∀ e ∈ rest.take 1, ¬ Spec.Improves floatMin fin e) →
        ∀ a, Spec.IsBest floatMin fin a → Spec.Holds (applyAll done fs) .best a) := by
  rcases prefix_append_cases h with h | ⟨r, rfl, hr⟩
  · exact Or.inl h
  · right
    obtain ⟨fin, rest, part, rfl, rfl, hpart⟩ := crash_cases true evs floatMin r hr
    have h0 : ∀ a, Spec.IsBest floatMin fin a → Spec.Holds (applyAll (training true floatMin header fin) fs) .best a := by
      intro a ha
      unfold training
      rw [applyAll_append]
      exact best_holds fin floatMin _ a ha
    refine ⟨fin, rest, rfl, ?_, ?_, ?_⟩
    · exact (List.prefix_append_right_inj _).mpr (List.prefix_append _ _)
    · apply (List.prefix_append_right_inj _).mpr
      rw [writes_append]
      apply (List.prefix_append_right_inj _).mpr
      rcases hpart with rfl | ⟨e, es, rfl, hp⟩
      · exact List.nil_prefix
      · simp only [List.take_succ_cons, List.take_zero, writes, List.append_nil]
        exact hp
    · intro hcase a ha
      rw [← List.append_assoc, applyAll_append]
      rcases hcase with hcase | hcase
      · have : part = [] := by
          unfold training at hcase
          rw [← List.append_assoc] at hcase
          simpa using hcase
        rw [this]
        exact h0 a ha
      · rcases hpart with rfl | ⟨e, es, rfl, hp⟩
        · exact h0 a ha
        · intro n b hc
          rw [step_best_frame hp]
          · exact h0 a ha n b hc
          · rintro mean line a' rfl hgt
            exact hcase (.eval mean line a') (by simp) ((improves_iff true).mpr hgt)

/-- **C87 (violated for `best`).** Whenever a training is about to overwrite `best` with a better agent, there is a moment at which a crash leaves the
first file of `best` empty, whatever good agent was there. -/
theorem best_torn_by_crash (floatMin : S) (header : Bytes) (fin rest : List (Ev Name S)) (mean : S) (line : Bytes) (n : Name) (b : Bytes)
    (a : Snapshot Name) (h : Spec.Improves floatMin fin (.eval mean line ((n, b) :: a))) (fs : Fs Name) :
    ∃ done, done <+: training true floatMin header (fin ++ .eval mean line ((n, b) :: a) :: rest) ∧
      applyAll done fs (.agent .best n) = some [] := by
  refine ⟨training true floatMin header fin ++ (recordStats line ++ [.truncate (.agent .best n)]), ?_, ?_⟩
  · unfold training
    rw [writes_append, ← List.append_assoc (writeHeader header)]
    apply (List.prefix_append_right_inj _).mpr
    have he : (Ev.eval mean line ((n, b) :: a)).step true (finalScore true floatMin fin) =
        (mean, recordStats line ++ saveAgent .best ((n, b) :: a)) := by
      rw [step_new ((improves_iff true).mp h), if_pos rfl]
    rw [writes, he]
    refine List.IsPrefix.trans ?_ (List.prefix_append _ _)
    apply (List.prefix_append_right_inj _).mpr
    exact ⟨(b.map (Write.append (.agent .best n))) ++ saveAgent .best a, rfl⟩
  · rw [applyAll_append, applyAll_append]
    exact Function.update_self _ _ _

/-- **C87 (violated by a restart: scores).** A training that is started again in the same directory, as one does with `step_offset`, deletes the scores recorded
there before: what is in `scores.txt` afterwards does not depend on what was. -/
theorem restart_truncates_scores (saveBest : Bool) (floatMin : S) (header : Bytes) (evs : List (Ev Name S)) (fs : Fs Name) :
    applyAll (training saveBest floatMin header evs) fs .scores = some (header ++ (evs.map Spec.line).flatten) := by
  unfold training
  rw [applyAll_append, header_scores]
  exact writes_scores saveBest evs floatMin _ header (Function.update_self _ _ _)

/-- **C87 (violated by a restart: best agent).** The first evaluation after the restart replaces `best`, whatever the scores before. -/
theorem restart_forgets_best (floatMin : S) (header : Bytes) (old : List (Ev Name S)) (mean : S) (hm : floatMin < mean) (line : Bytes)
    (a : Snapshot Name) (fs : Fs Name) :
    Spec.Holds (applyAll (training true floatMin header old ++ training true floatMin header [.eval mean line a]) fs) .best a := by
  rw [applyAll_append, training, applyAll_append]
  exact best_holds _ floatMin _ a ⟨[], [], mean, line, rfl, hm, fun _ h => (List.not_mem_nil h).elim, fun _ h => (List.not_mem_nil h).elim⟩

/-- A training with two evaluations, the second one better, and a checkpoint. -/
def demo : List (Ev String Int) :=
  [.eval 3 [1, 10] [("model.pt", [7, 7]), ("optimizer.pt", [8])], .save 5 .checkpoint [("model.pt", [5])],
    .eval 4 [2, 10] [("model.pt", [9, 9]), ("optimizer.pt", [6])], .save 9 .finish [("model.pt", [4])]]

/-- The hypothesis of `crash_keeps_results`. -/
example : (demo.filterMap Spec.stamp).Nodup := by decide

/-- The hypotheses of `best_agent_after_crash_partial`, with a crash during the checkpoint after the first evaluation. -/
example : Spec.IsBest (-100) (demo.take 1) [("model.pt", [7, 7]), ("optimizer.pt", [8])] ∧
    ¬ Spec.Improves (-100) (demo.take 1) (.save 5 .checkpoint [("model.pt", [5])]) := by
  refine ⟨⟨[], [], 3, [1, 10], rfl, by decide, fun _ h => (List.not_mem_nil h).elim, fun _ h => (List.not_mem_nil h).elim⟩, ?_⟩
  rintro ⟨s, hs, _⟩
  cases hs

/-- The hypothesis of `best_torn_by_crash`: the second evaluation of `demo`. -/
example : Spec.Improves (-100) (demo.take 2) (.eval 4 [2, 10] [("model.pt", [9, 9]), ("optimizer.pt", [6])]) := by
  refine ⟨4, rfl, by decide, ?_⟩
  intro e he s hs
  rcases List.mem_cons.mp he with rfl | he
  · cases hs; decide
  · rcases List.mem_cons.mp he with rfl | he
    · cases hs
    · cases he

end Pfrl.Results
