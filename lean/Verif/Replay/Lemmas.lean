import Verif.Replay.Spec
import Verif.Queue.Props
import Verif.Sample.Props

namespace Pfrl.Replay

open Spec

variable {ε π M : Type _} [DecidableEq ε]

/-- Push a list of experiences one after another. -/
def pushAll {α : Type _} (push : M → α → Except PyErr M) : M → List α → Except PyErr M
  | m, [] => .ok m
  | m, x :: xs =>
    match push m x with
    | .error e => .error e
    | .ok m' => pushAll push m' xs

theorem pushAll_append {α : Type _} (push : M → α → Except PyErr M) (m : M) (xs ys : List α) :
    pushAll push m (xs ++ ys) = match pushAll push m xs with
      | .error e => .error e
      | .ok m' => pushAll push m' ys := by
  induction xs generalizing m with
  | nil => rfl
  | cons x xs ih =>
    simp only [List.cons_append, pushAll]
    cases push m x with
    | error e => rfl
    | ok m' => exact ih m'

theorem drain_eq (push : M → List (Tr π) → Except PyErr M) (w : List (Tr π)) (m : M) :
    drain push w m = pushAll push m ((List.range w.length).map fun i => w.drop i) := by
  induction w generalizing m with
  | nil => rfl
  | cons t rest ih =>
    rw [List.length_cons, List.range_succ_eq_map, List.map_cons, List.map_map]
    simp only [drain, pushAll, List.drop_zero]
    cases push m (t :: rest) with
    | error e => rfl
    | ok m' => simp only [ih]; rfl

theorem calls_append (e : ε) (a b : List (Op ε π)) : calls e (a ++ b) = calls e a ++ calls e b := by
  induction a with
  | nil => rfl
  | cons op a ih =>
    cases op <;> simp only [List.cons_append, calls] <;> split <;> simp [ih]

theorem episodes_snoc (cs : List (Option (Tr π))) (c : Option (Tr π)) :
    episodes (cs ++ [c]) = (episodes cs).next c := by
  simp [episodes]

/-- The deque of an environment holds the newest `n` transitions of its unfinished episode. -/
def tailN (n : Nat) (l : List (Tr π)) : List (Tr π) := l.drop (l.length - n)

theorem filter_range (n k : Nat) :
    (List.range k).filter (fun i => i + n ≤ k) = List.range (min k (k + 1 - n)) := by
  by_cases hn : n = 0
  · subst hn
    rw [List.filter_eq_self.2]
    · congr 1; omega
    · intro a ha; simp at ha ⊢; omega
  · have : List.range k = List.range (k + 1 - n) ++ (List.range (k - (k + 1 - n))).map
        (fun i => k + 1 - n + i) := by
      rw [← List.range_add]; congr 1; omega
    rw [this, List.filter_append, List.filter_eq_self.2, List.filter_eq_nil_iff.2]
    · rw [List.append_nil]; congr 1; omega
    · intro a ha
      simp only [List.mem_map, List.mem_range] at ha
      obtain ⟨i, h1, rfl⟩ := ha
      simp only [decide_eq_true_eq]; omega
    · intro a ha
      simp only [List.mem_range] at ha
      simp only [decide_eq_true_eq]; omega

/-- The windows of the unfinished episode that are due. -/
theorem stored_eq {n : Nat} (hn : 0 < n) (cs : List (Option (Tr π))) :
    stored n cs = (episodes cs).finished.flatMap
        (fun ep => (List.range ep.length).map (window n ep)) ++
      (List.range ((episodes cs).current.length + 1 - n)).map (window n (episodes cs).current) := by
  unfold stored
  rw [filter_range]
  congr 3
  omega

theorem dequeAppend_tailN {n : Nat} (cur : List (Tr π)) (t : Tr π) :
    dequeAppend n (tailN n cur) t = tailN n (cur ++ [t]) := by
  unfold dequeAppend tailN
  simp only [List.length_append, List.length_drop, List.length_singleton]
  by_cases h : cur.length - (cur.length - n) + 1 > n
  · rw [if_pos h, ← List.drop_append_of_le_length (by omega), List.drop_drop]
    congr 1; omega
  · rw [if_neg h, ← List.drop_append_of_le_length (by omega)]
    congr 1; omega

theorem window_prefix {n i : Nat} (cur x : List (Tr π)) (h : i + n ≤ cur.length) :
    window n (cur ++ x) i = window n cur i := by
  unfold window
  rw [List.drop_append_of_le_length (by omega), List.take_append_of_le_length]
  simp; omega

theorem windows_prefix {n : Nat} (cur x : List (Tr π)) :
    (List.range (cur.length + 1 - n)).map (window n (cur ++ x))
      = (List.range (cur.length + 1 - n)).map (window n cur) := by
  apply List.map_congr_left
  intro i hi
  rw [List.mem_range] at hi
  exact window_prefix _ _ (by omega)

theorem range_split (a b : Nat) (h : a ≤ b) :
    List.range b = List.range a ++ (List.range (b - a)).map (a + ·) := by
  rw [← List.range_add]; congr 1; omega

/-- The windows starting in the last `k` positions of an episode are its short suffixes. -/
theorem suffix_windows {n k : Nat} (ep : List (Tr π)) (hk : k ≤ n) (hk' : k ≤ ep.length) :
    (List.range k).map (fun i => (tailN k ep).drop i)
      = (List.range k).map (fun i => window n ep (ep.length - k + i)) := by
  apply List.map_congr_left
  intro i hi
  rw [List.mem_range] at hi
  unfold tailN window
  rw [List.drop_drop, List.take_of_length_le]
  simp; omega

theorem tailN_length (n : Nat) (l : List (Tr π)) : (tailN n l).length = min n l.length := by
  unfold tailN; simp; omega

theorem tailN_min (n : Nat) (l : List (Tr π)) : tailN n l = tailN (min n l.length) l := by
  unfold tailN; congr 1; omega

/-- New experiences due after one more call of an environment. -/
def fresh (n : Nat) (s : Episodes π) : Option (Tr π) → List (List (Tr π))
  | some t =>
    let w := tailN n (s.current ++ [t])
    if t.terminal then (List.range w.length).map fun i => w.drop i
    else if w.length = n then [w] else []
  | none =>
    let w := tailN n s.current
    if w.length < n then (List.range w.length).map fun i => w.drop i
    else (List.range (w.drop 1).length).map fun i => (w.drop 1).drop i

theorem stored_snoc {n : Nat} (hn : 0 < n) (cs : List (Option (Tr π))) (c : Option (Tr π)) :
    stored n (cs ++ [c]) = stored n cs ++ fresh n (episodes cs) c := by
  rw [stored_eq hn, stored_eq hn, episodes_snoc]
  obtain ⟨fin, cur⟩ := episodes cs
  cases c with
  | some t =>
    simp only [Episodes.next, fresh]
    by_cases ht : t.terminal
    · simp only [ht, if_true, List.flatMap_append, List.flatMap_cons, List.flatMap_nil,
        List.append_nil, List.length_nil, Nat.zero_add]
      have h0 : 1 - n = 0 := by omega
      rw [h0, List.range_zero, List.map_nil, List.append_nil, List.append_assoc]
      congr 1
      rw [tailN_length, tailN_min, suffix_windows (n := n) _ (Nat.min_le_left _ _)
        (Nat.min_le_right _ _)]
      rw [range_split (cur.length + 1 - n) (cur ++ [t]).length (by simp),
        List.map_append, windows_prefix, List.map_map]
      congr 1
      simp only [List.length_append, List.length_singleton]
      have e1 : cur.length + 1 - (cur.length + 1 - n) = min n (cur.length + 1) := by omega
      rw [e1]
      apply List.map_congr_left
      intro i _
      simp only [Function.comp]
      congr 1; omega
    · simp only [ht, Bool.false_eq_true, if_false, List.append_assoc]
      congr 1
      rw [tailN_length]
      simp only [List.length_append, List.length_singleton]
      by_cases hl : min n (cur.length + 1) = n
      · rw [if_pos hl]
        have e1 : cur.length + 1 + 1 - n = (cur.length + 1 - n) + 1 := by omega
        rw [e1, List.range_succ, List.map_append, windows_prefix]
        congr 1
        simp only [List.map_cons, List.map_nil, window, tailN, List.length_append,
          List.length_singleton]
        rw [List.take_of_length_le]
        simp; omega
      · rw [if_neg hl]
        have e1 : cur.length + 1 + 1 - n = 0 := by omega
        have e2 : cur.length + 1 - n = 0 := by omega
        rw [e1, e2]; simp
  | none =>
    simp only [Episodes.next, fresh]
    by_cases hc : cur = []
    · subst hc
      have h0 : 1 - n = 0 := by omega
      simp [tailN, hn, h0]
    · simp only [hc, if_false, List.flatMap_append, List.flatMap_cons, List.flatMap_nil,
        List.append_nil, List.length_nil, Nat.zero_add]
      have h0 : 1 - n = 0 := by omega
      rw [h0, List.range_zero, List.map_nil, List.append_nil, List.append_assoc]
      congr 1
      rw [tailN_length]
      by_cases hl : min n cur.length < n
      · rw [if_pos hl, tailN_min, suffix_windows (n := n) _ (Nat.min_le_left _ _)
          (Nat.min_le_right _ _)]
        have e1 : cur.length + 1 - n = 0 := by omega
        rw [e1, List.range_zero, List.map_nil, List.nil_append]
        have e2 : min n cur.length = cur.length := by omega
        rw [e2]
        apply List.map_congr_left
        intro i _
        congr 1; omega
      · rw [if_neg hl]
        have e0 : (tailN n cur).drop 1 = tailN (n - 1) cur := by
          unfold tailN; rw [List.drop_drop]; congr 1; omega
        have e3 : min (n - 1) cur.length = n - 1 := by omega
        rw [e0, tailN_length, e3, suffix_windows _ (by omega : n - 1 ≤ n) (by omega)]
        rw [range_split (cur.length + 1 - n) cur.length (by omega), List.map_append, List.map_map]
        congr 1
        have e1 : cur.length - (cur.length + 1 - n) = n - 1 := by omega
        rw [e1]
        apply List.map_congr_left
        intro i _
        simp only [Function.comp]
        congr 1; omega

/-- The deques hold the newest transitions of the unfinished episodes. -/
def Inv (n : Nat) (past : List (Op ε π)) (b : RB ε π M) : Prop :=
  b.numSteps = n ∧ ∀ e, b.last e = tailN n (episodes (calls e past)).current

theorem stop_drain (push : M → List (Tr π) → Except PyErr M) {n : Nat} (hn : 0 < n)
    (w : List (Tr π)) (hw : w.length ≤ n) (m : M) :
    (match (if 0 < w.length ∧ w.length < n then push m w else .ok m) with
      | .error e => .error e
      | .ok m => drain push (if 0 < w.length ∧ w.length ≤ n then w.drop 1 else w) m) =
    pushAll push m (if w.length < n then (List.range w.length).map fun i => w.drop i
      else (List.range (w.drop 1).length).map fun i => (w.drop 1).drop i) := by
  cases w with
  | nil => simp [drain, pushAll, hn]
  | cons t rest =>
    have h0 : 0 < (t :: rest).length := by simp
    by_cases h : (t :: rest).length < n
    · rw [if_pos ⟨h0, h⟩, if_pos h, if_pos ⟨h0, hw⟩, ← drain_eq]
      rfl
    · rw [if_neg (by simp_all), if_neg h, if_pos ⟨h0, hw⟩]
      simp only [List.drop_succ_cons, List.drop_zero]
      rw [drain_eq]

theorem calls_single (e : ε) (op : Op ε π) :
    calls e [op] = if op.env = e then
      (match op with | .append _ t => [some t] | .stop _ => [none]) else [] := by
  cases op <;> simp only [calls, Op.env] <;> split <;> simp_all

/-- One call pushes exactly the newly due windows of its environment. -/
theorem step_spec (push : M → List (Tr π) → Except PyErr M) {n : Nat} (hn : 0 < n)
    {past : List (Op ε π)} {b : RB ε π M} (hb : Inv n past b) (op : Op ε π) :
    ∃ new, stored n (calls op.env (past ++ [op])) = stored n (calls op.env past) ++ new ∧
      match pushAll push b.memory new with
      | .error er => b.step push op = .error er
      | .ok m => ∃ b', b.step push op = .ok b' ∧ b'.memory = m ∧ Inv n (past ++ [op]) b' := by
  obtain ⟨h1, h2⟩ := hb
  have hother : ∀ e, op.env ≠ e → calls e (past ++ [op]) = calls e past := by
    intro e he
    rw [calls_append, calls_single, if_neg he, List.append_nil]
  cases op with
  | append env t =>
    have hc : calls env (past ++ [.append env t]) = calls env past ++ [some t] := by
      rw [calls_append]; simp [calls]
    refine ⟨fresh n (episodes (calls env past)) (some t), ?_, ?_⟩
    · simp only [Op.env]; rw [hc, stored_snoc hn]
    · have hw : dequeAppend b.numSteps (b.last env) t
          = tailN n ((episodes (calls env past)).current ++ [t]) := by
        rw [h1, h2, dequeAppend_tailN]
      have hinv : ∀ (m : M) (w : List (Tr π)), w = tailN n (episodes (calls env (past ++ [.append env t]))).current →
          Inv n (past ++ [.append env t]) { b with memory := m, last := Function.update b.last env w } := by
        intro m w hw
        refine ⟨h1, fun e => ?_⟩
        by_cases he : e = env
        · subst he; simp [hw]
        · rw [hother e (by simpa [Op.env] using fun h => he h.symm)]
          simp [Function.update_of_ne he, h2]
      simp only [RB.step, RB.append, hw, fresh]
      by_cases ht : t.terminal
      · simp only [ht, if_true]
        rw [drain_eq]
        cases pushAll push b.memory _ with
        | error e => rfl
        | ok m =>
          refine ⟨_, rfl, rfl, hinv m [] ?_⟩
          rw [hc, episodes_snoc]; simp [Episodes.next, ht, tailN]
      · have hcur : (episodes (calls env (past ++ [.append env t]))).current
            = (episodes (calls env past)).current ++ [t] := by
          rw [hc, episodes_snoc]; simp [Episodes.next, ht]
        simp only [ht, Bool.false_eq_true, if_false, h1]
        by_cases hl : (tailN n ((episodes (calls env past)).current ++ [t])).length = n
        · simp only [if_pos hl, pushAll]
          cases push b.memory _ with
          | error e => rfl
          | ok m => exact ⟨_, rfl, rfl, by simpa [h1] using hinv m _ (by rw [hcur])⟩
        · simp only [if_neg hl, pushAll]
          exact ⟨_, rfl, rfl, by simpa [h1] using hinv b.memory _ (by rw [hcur])⟩
  | stop env =>
    have hc : calls env (past ++ [.stop env]) = calls env past ++ [none] := by
      rw [calls_append]; simp [calls]
    refine ⟨fresh n (episodes (calls env past)) none, ?_, ?_⟩
    · simp only [Op.env]; rw [hc, stored_snoc hn]
    · have hl : (tailN n (episodes (calls env past)).current).length ≤ n := by
        rw [tailN_length]; omega
      have key := stop_drain push hn _ hl b.memory
      simp only [RB.step, RB.stop, h1, h2, fresh]
      rw [← key]
      generalize (if 0 < (tailN n (episodes (calls env past)).current).length ∧
          (tailN n (episodes (calls env past)).current).length < n then
          push b.memory (tailN n (episodes (calls env past)).current)
        else Except.ok b.memory) = g
      cases g with
      | error e => rfl
      | ok m1 =>
        simp only
        generalize drain push _ m1 = g2
        cases g2 with
        | error e => rfl
        | ok m =>
          simp only
          refine ⟨_, rfl, rfl, rfl, fun e => ?_⟩
          by_cases he : e = env
          · subst he
            rw [hc, episodes_snoc]
            simp only [Function.update_self, Episodes.next]
            split
            · rename_i h; rw [h]; simp [tailN]
            · simp [tailN]
          · rw [hother e (by simpa [Op.env] using fun h => he h.symm)]
            simp [Function.update_of_ne he, h2]

theorem run_spec (push : M → List (Tr π) → Except PyErr M) {n : Nat} (hn : 0 < n)
    (ops : List (Op ε π)) : ∀ {past : List (Op ε π)} {b : RB ε π M}, Inv n past b →
      match pushAll push b.memory ((log n past ops).map Prod.snd) with
      | .error er => b.run push ops = .error er
      | .ok m => ∃ b', b.run push ops = .ok b' ∧ b'.memory = m ∧ Inv n (past ++ ops) b' := by
  induction ops with
  | nil => intro past b hb; exact ⟨b, rfl, rfl, by simpa using hb⟩
  | cons op ops ih =>
    intro past b hb
    obtain ⟨new, h1, h2⟩ := step_spec push hn hb op
    have hlog : (log n past (op :: ops)).map Prod.snd
        = new ++ (log n (past ++ [op]) ops).map Prod.snd := by
      simp only [log, h1, List.drop_left, List.map_append, List.map_map]
      congr 1
      simp [Function.comp_def]
    rw [hlog, pushAll_append]
    cases hp : pushAll push b.memory new with
    | error e =>
      rw [hp] at h2
      simp only at h2 ⊢
      simp only [RB.run, h2]
    | ok m =>
      rw [hp] at h2
      simp only at h2 ⊢
      obtain ⟨b', g1, g2, g3⟩ := h2
      have := ih g3
      rw [g2] at this
      simp only [RB.run, g1]
      rw [List.append_assoc, List.singleton_append] at this
      exact this

theorem stored_nil (n : Nat) : stored (π := π) n [] = [] := rfl

theorem log_ofEnv {n : Nat} (hn : 0 < n) (e : ε) (ops : List (Op ε π)) :
    ∀ past : List (Op ε π), stored n (calls e past) ++ ofEnv e (log n past ops)
      = stored n (calls e (past ++ ops)) := by
  induction ops with
  | nil => intro past; simp [log, ofEnv]
  | cons op ops ih =>
    intro past
    have h := ih (past ++ [op])
    rw [List.append_assoc, List.singleton_append] at h
    rw [← h]
    simp only [log, ofEnv, List.filterMap_append, List.filterMap_map]
    rw [← List.append_assoc]
    congr 1
    by_cases he : op.env = e
    · subst he
      have : ((fun x : ε × List (Tr π) => if x.1 = op.env then some x.2 else none) ∘
          fun w => (op.env, w)) = some := by funext w; simp
      rw [this, List.filterMap_some]
      have hpre : ∃ new, stored n (calls op.env (past ++ [op]))
          = stored n (calls op.env past) ++ new := by
        cases op with
        | append env t =>
          refine ⟨fresh n (episodes (calls env past)) (some t), ?_⟩
          simp only [Op.env]
          rw [calls_append, ← stored_snoc hn]; simp [calls]
        | stop env =>
          refine ⟨fresh n (episodes (calls env past)) none, ?_⟩
          simp only [Op.env]
          rw [calls_append, ← stored_snoc hn]; simp [calls]
      obtain ⟨new, hnew⟩ := hpre
      rw [hnew]; simp
    · have : ((fun x : ε × List (Tr π) => if x.1 = e then some x.2 else none) ∘
          fun w => (op.env, w)) = fun _ => none := by funext w; simp [he]
      rw [this, calls_append e past [op], calls_single, if_neg he]
      simp

end Pfrl.Replay
