import Verif.Replay.Props
import Mathlib.Data.List.Nodup
import Mathlib.Data.List.Sublists
import Mathlib.Data.List.Range
import Mathlib.Data.List.ReduceOption
import Mathlib.Data.List.GetD

/-!
# Importance weights are written into shared transitions (C153)

`PrioritizedReplayBuffer.sample` hands the importance weights to the agent by writing them into the first transition of every sampled
experience.  With n-step experiences a transition is one dict that up to `n` stored experiences share.  C10 and C100 treat weights as a
list beside the experiences.  Here the dicts are objects in memory, changed in place.
-/

set_option linter.unusedSectionVars false

namespace Pfrl.SharedWeights

open Pfrl.Replay (RB Tr)
open Queue.Spec (keep)

variable {ε π W : Type} [DecidableEq ε]

/-! ## Model -/

/-- The dict of a transition, `pfrl/replay_buffers/replay_buffer.py:45-53`: the entries given to `append`, and the entry `"weight"` if
there is one.  The entry `is_state_terminal` is kept beside the address, in `Tr`. -/
structure Cell (π W : Type) where
  payload : π
  weight : Option W
  deriving DecidableEq, Repr

/-- Memory and a `PrioritizedReplayBuffer`.  An address is a position in `heap`; the buffer keeps addresses.  `self.memory` is the list of
its experiences; that `PrioritizedBuffer` keeps this list is C08 and C11. -/
structure Sys (ε π W : Type) where
  heap : List (Cell π W)
  rb : RB ε ℕ (List (List (Tr ℕ)))

/-- `self.memory.append`, which drops the oldest experience of a full buffer, `pfrl/collections/prioritized.py:39-48`. -/
def push (c : Option ℕ) (m : List (List (Tr ℕ))) (w : List (Tr ℕ)) : Except PyErr (List (List (Tr ℕ))) := .ok (keep c (m ++ [w]))

/-- `PrioritizedReplayBuffer.__init__`, `pfrl/replay_buffers/prioritized.py:86-115`. -/
def Sys.new (n : ℕ) : Sys ε π W := ⟨[], ⟨n, [], fun _ => []⟩⟩

/-- `e[0]["weight"] = w`, `pfrl/replay_buffers/prioritized.py:122`.  (An empty experience would raise `IndexError`; none is stored.) -/
def setWeight (h : List (Cell π W)) (e : List (Tr ℕ)) (w : W) : List (Cell π W) :=
  match e with
  | [] => h
  | t :: _ => h.modify t.payload (fun c => { c with weight := some w })

/-- The loop of `sample`, `pfrl/replay_buffers/prioritized.py:121-122`. -/
def setWeights (h : List (Cell π W)) : List (List (Tr ℕ)) → List W → List (Cell π W)
  | e :: es, w :: ws => setWeights (setWeight h e w) es ws
  | _, _ => h

/-- `sample`, `pfrl/replay_buffers/prioritized.py:117-123`, given the positions drawn and the weights computed from their
probabilities. -/
def Sys.sample (s : Sys ε π W) (idx : List ℕ) (ws : List W) : Except PyErr (Sys ε π W × List (List (Tr ℕ))) :=
  if ∀ i ∈ idx, i < s.rb.memory.length then
    let sampled := idx.map (fun i => s.rb.memory.getD i [])
    .ok ({ s with heap := setWeights s.heap sampled ws }, sampled)
  else .error .indexError

/-- A call.  `update_errors`, which changes priorities only, is left out. -/
inductive Op (ε π W : Type) where
  | append (env : ε) (p : π) (terminal : Bool)
  | stop (env : ε)
  | sample (idx : List ℕ) (ws : List W)

/-- A call of the buffer.  `append` makes a new dict, `pfrl/replay_buffers/replay_buffer.py:45-54`. -/
def Sys.step (c : Option ℕ) (s : Sys ε π W) : Op ε π W → Except PyErr (Sys ε π W)
  | .append e p term =>
    match s.rb.append (push c) e ⟨s.heap.length, term⟩ with
    | .error er => .error er
    | .ok rb => .ok ⟨s.heap ++ [⟨p, none⟩], rb⟩
  | .stop e =>
    match s.rb.stop (push c) e with
    | .error er => .error er
    | .ok rb => .ok { s with rb := rb }
  | .sample idx ws =>
    match s.sample idx ws with
    | .error er => .error er
    | .ok r => .ok r.1

/-- A history of calls. -/
def Sys.run (c : Option ℕ) (s : Sys ε π W) : List (Op ε π W) → Except PyErr (Sys ε π W)
  | [] => .ok s
  | op :: ops =>
    match s.step c op with
    | .error er => .error er
    | .ok s' => Sys.run c s' ops

/-- `elem[0]["weight"]`; `none` if there is no such entry. -/
def headWeight (h : List (Cell π W)) : List (Tr ℕ) → Option W
  | [] => none
  | t :: _ => (h[t.payload]?).bind Cell.weight

/-- The weights `DQN.update` takes from the experiences, `pfrl/agents/dqn.py:337` and `345-350`: none if the first experience has
none. -/
def readWeights (h : List (Cell π W)) : List (List (Tr ℕ)) → Except PyErr (Option (List W))
  | [] => .error .indexError
  | e :: es =>
    match headWeight h e with
    | none => .ok none
    | some _ =>
      match (e :: es).mapM (headWeight h) with
      | none => .error .keyError
      | some ws => .ok (some ws)

/-- What `batch_experiences` reads of a transition. -/
def readTr (h : List (Cell π W)) (t : Tr ℕ) : Tr (Option π) := ⟨(h[t.payload]?).map Cell.payload, t.terminal⟩

/-! ## Specification -/

/-- The calls that store something. -/
def stores : List (Op ε π W) → List (Replay.Op ε π)
  | [] => []
  | .append e p term :: ops => .append e ⟨p, term⟩ :: stores ops
  | .stop e :: ops => .stop e :: stores ops
  | .sample _ _ :: ops => stores ops

/-- The experiences a buffer of capacity `c` should hold (C11, C12). -/
def experiences (c : Option ℕ) (n : ℕ) (ops : List (Op ε π W)) : List (List (Tr π)) :=
  keep c ((Replay.Spec.log n [] (stores ops)).map Prod.snd)

/-- A transition that was found in memory. -/
def found (t : Tr π) : Tr (Option π) := ⟨some t.payload, t.terminal⟩

def Op.isSample : Op ε π W → Bool
  | .sample _ _ => true
  | _ => false

/-! ## Lemmas -/

open Replay.Spec (log calls episodes Episodes stored window ofEnv)

section naturality
variable {α β : Type} (f : α → β)

def mapTr (t : Tr α) : Tr β := ⟨f t.payload, t.terminal⟩

def mapOp : Replay.Op ε α → Replay.Op ε β
  | .append e t => .append e (mapTr f t)
  | .stop e => .stop e

theorem calls_map (e : ε) (ops : List (Replay.Op ε α)) :
    calls e (ops.map (mapOp f)) = (calls e ops).map (Option.map (mapTr f)) := by
  induction ops with
  | nil => rfl
  | cons op ops ih =>
    cases op <;> simp only [List.map_cons, mapOp, calls] <;> split <;> simp [ih]

theorem episodes_map (cs : List (Option (Tr α))) :
    episodes (cs.map (Option.map (mapTr f))) =
      ⟨(episodes cs).finished.map (List.map (mapTr f)), (episodes cs).current.map (mapTr f)⟩ := by
  induction cs using List.reverseRecOn with
  | nil => rfl
  | append_singleton cs c ih =>
    rw [List.map_append, List.map_singleton, Replay.episodes_snoc, Replay.episodes_snoc, ih]
    cases c with
    | none =>
      simp only [Option.map_none, Episodes.next, List.map_eq_nil_iff]
      split <;> simp
    | some t =>
      have : (mapTr f t).terminal = t.terminal := rfl
      simp only [Option.map_some, Episodes.next, this]
      split <;> simp

theorem window_map (n : ℕ) (ep : List (Tr α)) (i : ℕ) : window n (ep.map (mapTr f)) i = (window n ep i).map (mapTr f) := by
  simp [window, List.map_drop, List.map_take]

theorem stored_map (n : ℕ) (cs : List (Option (Tr α))) :
    stored n (cs.map (Option.map (mapTr f))) = (stored n cs).map (List.map (mapTr f)) := by
  unfold stored
  rw [episodes_map]
  simp only [List.map_append, List.length_map, List.map_flatMap, List.flatMap_map, List.map_map]
  congr 1
  · apply List.flatMap_congr
    intro ep _
    apply List.map_congr_left
    intro i _
    exact window_map f n ep i
  · apply List.map_congr_left
    intro i _
    exact window_map f n _ i

theorem mapOp_env (op : Replay.Op ε α) : (mapOp f op).env = op.env := by cases op <;> rfl

theorem log_map (n : ℕ) (ops : List (Replay.Op ε α)) : ∀ past,
    log n (past.map (mapOp f)) (ops.map (mapOp f)) = (log n past ops).map (fun p => (p.1, p.2.map (mapTr f))) := by
  induction ops with
  | nil => intro past; rfl
  | cons op ops ih =>
    intro past
    have h : past.map (mapOp f) ++ [mapOp f op] = (past ++ [op]).map (mapOp f) := by simp
    rw [List.map_cons, log, log, h, ih, mapOp_env, calls_map, calls_map, stored_map, stored_map, List.length_map,
      ← List.map_drop, List.map_append, List.map_map, List.map_map]
    rfl

end naturality

/-- The calls with the addresses of the new dicts. -/
def addrs : ℕ → List (Op ε π W) → List (Replay.Op ε ℕ)
  | _, [] => []
  | k, .append e _ term :: ops => .append e ⟨k, term⟩ :: addrs (k + 1) ops
  | k, .stop e :: ops => .stop e :: addrs k ops
  | k, .sample _ _ :: ops => addrs k ops

def payloads : List (Op ε π W) → List π
  | [] => []
  | .append _ p _ :: ops => p :: payloads ops
  | .stop _ :: ops => payloads ops
  | .sample _ _ :: ops => payloads ops

theorem setWeight_payload (h : List (Cell π W)) (e w) : (setWeight h e w).map Cell.payload = h.map Cell.payload := by
  cases e with
  | nil => rfl
  | cons t e =>
    apply List.ext_getElem (by simp [setWeight])
    intro i h1 h2
    simp only [setWeight, List.getElem_map, List.getElem_modify]
    split <;> rfl

theorem setWeights_payload (es : List (List (Tr ℕ))) : ∀ (h : List (Cell π W)) (ws),
    (setWeights h es ws).map Cell.payload = h.map Cell.payload := by
  induction es with
  | nil => intro h ws; rfl
  | cons e es ih =>
    intro h ws
    cases ws with
    | nil => rfl
    | cons w ws => rw [setWeights, ih, setWeight_payload]

theorem run_inv (c : Option ℕ) (ops : List (Op ε π W)) : ∀ {s s' : Sys ε π W}, s.run c ops = .ok s' →
    s.rb.run (push c) (addrs s.heap.length ops) = .ok s'.rb ∧ s'.heap.map Cell.payload = s.heap.map Cell.payload ++ payloads ops := by
  induction ops with
  | nil => intro s s' h; cases h; exact ⟨rfl, by simp [payloads]⟩
  | cons op ops ih =>
    intro s s' h
    cases op with
    | append e p term =>
      simp only [Sys.run, Sys.step] at h
      simp only [addrs, RB.run, RB.step, payloads]
      cases hr : s.rb.append (push c) e ⟨s.heap.length, term⟩ with
      | error er => rw [hr] at h; cases h
      | ok rb =>
        rw [hr] at h
        have := ih h
        simp only [List.length_append, List.length_singleton, List.map_append, List.map_singleton, List.append_assoc] at this
        exact this
    | stop e =>
      simp only [Sys.run, Sys.step] at h
      simp only [addrs, RB.run, RB.step, payloads]
      cases hr : s.rb.stop (push c) e with
      | error er => rw [hr] at h; cases h
      | ok rb =>
        rw [hr] at h
        exact ih h
    | sample idx ws =>
      simp only [Sys.run, Sys.step, Sys.sample] at h
      simp only [addrs, payloads]
      split at h
      · cases h
      · rename_i r hr
        split at hr
        · rename_i r' hr'
          split at hr'
          · cases hr'
          · cases hr
        · rename_i r' hr'
          split at hr'
          · cases hr'
            cases hr
            have := ih h
            simp only [setWeights_payload] at this
            have hl : (setWeights s.heap (idx.map fun i => s.rb.memory.getD i []) ws).length = s.heap.length := by
              have := congrArg List.length (setWeights_payload (idx.map fun i => s.rb.memory.getD i []) s.heap ws)
              simpa using this
            rw [hl] at this
            exact this
          · cases hr'

theorem pushAll_push (c : Option ℕ) (xs : List (List (Tr ℕ))) : ∀ m, keep c m = m →
    Replay.pushAll (push c) m xs = .ok (keep c (m ++ xs)) := by
  induction xs with
  | nil => intro m h; simp [Replay.pushAll, h]
  | cons x xs ih =>
    intro m h
    simp only [Replay.pushAll, push]
    have hk : keep c (keep c (m ++ [x])) = keep c (m ++ [x]) := by
      have := Queue.keep_append_keep c (m ++ [x]) []
      simpa using this
    rw [ih _ hk, Queue.keep_append_keep]
    simp

theorem keep_nil {α : Type} (c : Option ℕ) : keep c ([] : List α) = [] := by cases c <;> simp [keep, Queue.Spec.newest]

theorem memory_eq (c : Option ℕ) {n : ℕ} (hn : 0 < n) {ops : List (Op ε π W)} {s : Sys ε π W} (h : (Sys.new n).run c ops = .ok s) :
    s.rb.memory = keep c ((log n [] (addrs 0 ops)).map Prod.snd) := by
  have h1 := (run_inv c ops h).1
  have h0 : Replay.Inv n ([] : List (Replay.Op ε ℕ)) (Sys.new (ε := ε) (π := π) (W := W) n).rb :=
    ⟨rfl, fun e => by simp [Replay.tailN, calls, episodes, Sys.new]⟩
  have h2 := Replay.run_spec (push c) hn (addrs 0 ops) h0
  have hm : (Sys.new (ε := ε) (π := π) (W := W) n).rb.memory = [] := rfl
  rw [hm, pushAll_push c _ [] (keep_nil c)] at h2
  obtain ⟨b', g1, g2, _⟩ := h2
  have hl : (Sys.new (ε := ε) (π := π) (W := W) n).heap.length = 0 := rfl
  rw [hl, g1] at h1
  cases h1
  simpa using g2

theorem addrs_map (ops : List (Op ε π W)) : ∀ pre : List π,
    (addrs pre.length ops).map (mapOp (fun a => (pre ++ payloads ops)[a]?)) = (stores ops).map (mapOp some) := by
  induction ops with
  | nil => intro pre; rfl
  | cons op ops ih =>
    intro pre
    cases op with
    | append e p term =>
      have := ih (pre ++ [p])
      simp only [List.length_append, List.length_singleton, List.append_assoc, List.singleton_append] at this
      simp only [addrs, payloads, stores, List.map_cons, this]
      simp [mapOp, mapTr]
    | stop e =>
      simp only [addrs, payloads, stores, List.map_cons, ih]
      rfl
    | sample idx ws => exact ih pre

theorem keep_map {α β : Type} (c : Option ℕ) (g : α → β) (l : List α) : keep c (l.map g) = (keep c l).map g := by
  cases c <;> simp [keep, Queue.Spec.newest, List.map_drop]

theorem read_memory (c : Option ℕ) {n : ℕ} (hn : 0 < n) {ops : List (Op ε π W)} {s : Sys ε π W} (h : (Sys.new n).run c ops = .ok s) :
    s.rb.memory.map (List.map (readTr s.heap)) = (experiences c n ops).map (List.map found) := by
  have h2 := (run_inv c ops h).2
  have hp : s.heap.map Cell.payload = payloads ops := by simpa [Sys.new] using h2
  have hr : readTr s.heap = mapTr (fun a => (payloads ops)[a]?) := by
    funext t
    simp [readTr, mapTr, ← hp]
  have hf : (found : Tr π → _) = mapTr some := rfl
  rw [memory_eq c hn h, experiences, ← keep_map, ← keep_map, hr, hf, List.map_map, List.map_map]
  have e1 := log_map (fun a => (payloads ops)[a]?) n (addrs 0 ops) []
  have e2 := log_map (some : π → Option π) n (stores ops) []
  have e3 := addrs_map ops []
  simp only [List.length_nil, List.nil_append] at e3
  rw [e3] at e1
  simp only [List.map_nil] at e1 e2
  rw [e2] at e1
  congr 1
  have := congrArg (List.map Prod.snd) e1
  simp only [List.map_map] at this
  exact this.symm

/-! ### The first transitions of the stored experiences are different dicts -/

def heads (l : List (List (Tr ℕ))) : List (Option ℕ) := l.map (fun e => e.head?.map Tr.payload)

/-- The appended addresses. -/
def pays : List (Replay.Op ε ℕ) → List ℕ
  | [] => []
  | .append _ t :: ops => t.payload :: pays ops
  | .stop _ :: ops => pays ops

def given (cs : List (Option (Tr ℕ))) : List ℕ := cs.reduceOption.map Tr.payload

theorem pays_addrs (ops : List (Op ε π W)) : ∀ k, (∀ a ∈ pays (addrs k ops), k ≤ a) ∧ (pays (addrs k ops)).Nodup := by
  induction ops with
  | nil => intro k; simp [addrs, pays]
  | cons op ops ih =>
    intro k
    cases op with
    | append e p term =>
      obtain ⟨h1, h2⟩ := ih (k + 1)
      simp only [addrs, pays, List.mem_cons, List.nodup_cons, forall_eq_or_imp]
      exact ⟨⟨le_refl _, fun a ha => by have := h1 a ha; omega⟩, fun hk => by have := h1 k hk; omega, h2⟩
    | stop e => exact ih k
    | sample idx ws => exact ih k

theorem given_sublist (e : ε) (ops : List (Replay.Op ε ℕ)) : (given (calls e ops)).Sublist (pays ops) := by
  induction ops with
  | nil => simp [given, calls, pays]
  | cons op ops ih =>
    cases op with
    | append e' t =>
      simp only [calls, pays]
      split
      · simpa [given] using ih
      · exact ih.cons _
    | stop e' =>
      simp only [calls, pays]
      split
      · simpa [given] using ih
      · exact ih

theorem given_env {ops : List (Replay.Op ε ℕ)} (h : (pays ops).Nodup) {e e' : ε} {a : ℕ} (h1 : a ∈ given (calls e ops))
    (h2 : a ∈ given (calls e' ops)) : e = e' := by
  induction ops with
  | nil => simp [given, calls] at h1
  | cons op ops ih =>
    cases op with
    | append e0 t =>
      simp only [pays, List.nodup_cons] at h
      by_cases ha : a = t.payload
      · have hn : ∀ e, a ∉ given (calls e ops) := fun e hm => h.1 (ha ▸ (given_sublist e ops).subset hm)
        have : ∀ e, a ∈ given (calls e (.append e0 t :: ops)) → e0 = e := by
          intro e hm
          by_contra hne
          simp only [calls, if_neg hne] at hm
          exact hn e hm
        rw [← this e h1, ← this e' h2]
      · have : ∀ e, a ∈ given (calls e (.append e0 t :: ops)) → a ∈ given (calls e ops) := by
          intro e hm
          simp only [calls] at hm
          split at hm
          · simpa [given, ha] using hm
          · exact hm
        exact ih h.2 (this e h1) (this e' h2)
    | stop e0 =>
      have : ∀ e, a ∈ given (calls e (.stop e0 :: ops)) → a ∈ given (calls e ops) := by
        intro e hm
        simp only [calls] at hm
        split at hm
        · simpa [given] using hm
        · exact hm
      exact ih h (this e h1) (this e' h2)

theorem episodes_given (cs : List (Option (Tr ℕ))) : (episodes cs).finished.flatten ++ (episodes cs).current = cs.reduceOption := by
  induction cs using List.reverseRecOn with
  | nil => rfl
  | append_singleton cs c ih =>
    rw [Replay.episodes_snoc, List.reduceOption_append, ← ih]
    cases c with
    | none =>
      simp only [Episodes.next]
      split
      · rename_i h
        simp [h]
      · simp
    | some t =>
      simp only [Episodes.next]
      split <;> simp

theorem window_heads {n : ℕ} (hn : 0 < n) (ep : List (Tr ℕ)) (k : ℕ) (hk : k ≤ ep.length) :
    heads ((List.range k).map (window n ep)) = ((ep.take k).map Tr.payload).map some := by
  apply List.ext_getElem
  · simp [heads, hk]
  · intro i h1 h2
    have hi : i < ep.length := by simp [heads] at h1; omega
    obtain ⟨m, rfl⟩ : ∃ m, n = m + 1 := ⟨n - 1, by omega⟩
    simp only [heads, window, List.getElem_map, List.getElem_range, List.drop_eq_getElem_cons hi, List.take_succ_cons, List.head?_cons,
      Option.map_some, List.getElem_take]

theorem stored_heads {n : ℕ} (hn : 0 < n) (cs : List (Option (Tr ℕ))) : (heads (stored n cs)).Sublist ((given cs).map some) := by
  rw [Replay.stored_eq hn, given, ← episodes_given]
  have h1 : ∀ fin : List (List (Tr ℕ)), heads (fin.flatMap fun ep => (List.range ep.length).map (window n ep))
      = (fin.flatten.map Tr.payload).map some := by
    intro fin
    induction fin with
    | nil => rfl
    | cons ep fin ih =>
      have := window_heads hn ep ep.length (le_refl _)
      simp only [heads, List.flatMap_cons, List.map_append, List.flatten_cons] at ih this ⊢
      rw [ih, this, List.take_length]
  have h2 : ∀ a b : List (List (Tr ℕ)), heads (a ++ b) = heads a ++ heads b := fun a b => by simp [heads]
  rw [h2, h1, window_heads hn _ _ (by omega), List.map_append, List.map_append]
  exact List.Sublist.append (List.Sublist.refl _) (((List.take_sublist _ _).map _).map _)

theorem nodup_of_envs {α : Type} (g : List (Tr ℕ) → α) (l : List (ε × List (Tr ℕ))) (h1 : ∀ e, ((ofEnv e l).map g).Nodup)
    (h2 : ∀ p ∈ l, ∀ q ∈ l, g p.2 = g q.2 → p.1 = q.1) : ((l.map Prod.snd).map g).Nodup := by
  induction l with
  | nil => simp
  | cons p l ih =>
    simp only [List.map_cons, List.nodup_cons]
    refine ⟨?_, ih (fun e => ?_) (fun a ha b hb => h2 a (List.mem_cons_of_mem _ ha) b (List.mem_cons_of_mem _ hb))⟩
    · intro hm
      obtain ⟨w, hw, hg⟩ := List.mem_map.1 hm
      obtain ⟨q, hq, rfl⟩ := List.mem_map.1 hw
      have he := h2 q (List.mem_cons_of_mem _ hq) p (List.mem_cons_self) hg
      have := h1 p.1
      simp only [ofEnv, List.filterMap_cons, if_true, List.map_cons, List.nodup_cons] at this
      apply this.1
      rw [← hg]
      apply List.mem_map_of_mem
      exact List.mem_filterMap.2 ⟨q, hq, by simp [he]⟩
    · have := h1 e
      simp only [ofEnv, List.filterMap_cons] at this
      split at this
      · exact this
      · exact (List.nodup_cons.1 this).2

theorem log_heads {n : ℕ} (hn : 0 < n) {ops : List (Replay.Op ε ℕ)} (h : (pays ops).Nodup) :
    (heads ((log n [] ops).map Prod.snd)).Nodup ∧ ∀ a ∈ heads ((log n [] ops).map Prod.snd), ∃ x ∈ pays ops, a = some x := by
  have hl : ∀ e, ofEnv e (log n [] ops) = stored n (calls e ops) := by
    intro e
    have := Replay.log_ofEnv hn e ops []
    simpa [calls, Replay.stored_nil] using this
  have hmem : ∀ p ∈ log n [] ops, ∃ x ∈ given (calls p.1 ops), p.2.head?.map Tr.payload = some x := by
    intro p hp
    have : p.2 ∈ stored n (calls p.1 ops) := by
      rw [← hl]
      exact List.mem_filterMap.2 ⟨p, hp, by simp⟩
    have := (stored_heads hn (calls p.1 ops)).subset (List.mem_map_of_mem (f := fun e => e.head?.map Tr.payload) this)
    obtain ⟨x, hx, hx'⟩ := List.mem_map.1 this
    exact ⟨x, hx, hx'.symm⟩
  constructor
  · apply nodup_of_envs (fun e => e.head?.map Tr.payload)
    · intro e
      rw [hl]
      apply (stored_heads hn (calls e ops)).nodup
      exact ((given_sublist e ops).nodup h).map (Option.some_injective _)
    · intro p hp q hq hpq
      obtain ⟨x, hx, hx'⟩ := hmem p hp
      obtain ⟨y, hy, hy'⟩ := hmem q hq
      rw [hx', hy'] at hpq
      cases hpq
      exact given_env h hx hy
  · intro a ha
    obtain ⟨w, hw, rfl⟩ := List.mem_map.1 ha
    obtain ⟨p, hp, rfl⟩ := List.mem_map.1 hw
    obtain ⟨x, hx, hx'⟩ := hmem p hp
    exact ⟨x, (given_sublist _ ops).subset hx, hx'⟩

theorem keep_sublist {α : Type} (c : Option ℕ) (l : List α) : (keep c l).Sublist l := by
  cases c with
  | none => exact List.Sublist.refl _
  | some m => exact List.drop_sublist _ _

theorem pays_lt (ops : List (Op ε π W)) : ∀ k, ∀ a ∈ pays (addrs k ops), a < k + (payloads ops).length := by
  induction ops with
  | nil => intro k; simp [addrs, pays]
  | cons op ops ih =>
    intro k
    cases op with
    | append e p term =>
      intro a ha
      simp only [addrs, pays, List.mem_cons] at ha
      simp only [payloads, List.length_cons]
      rcases ha with rfl | ha
      · omega
      · have := ih (k + 1) a ha; omega
    | stop e => exact ih k
    | sample idx ws => exact ih k

theorem memory_heads (c : Option ℕ) {n : ℕ} (hn : 0 < n) {ops : List (Op ε π W)} {s : Sys ε π W} (h : (Sys.new n).run c ops = .ok s) :
    (heads s.rb.memory).Nodup ∧ ∀ a ∈ heads s.rb.memory, ∃ x < s.heap.length, a = some x := by
  rw [memory_eq c hn h]
  obtain ⟨h1, h2⟩ := log_heads hn (pays_addrs ops 0).2
  have hs : (heads (keep c ((log n [] (addrs 0 ops)).map Prod.snd))).Sublist (heads ((log n [] (addrs 0 ops)).map Prod.snd)) :=
    (keep_sublist c _).map _
  refine ⟨hs.nodup h1, fun a ha => ?_⟩
  obtain ⟨x, hx, hx'⟩ := h2 a (hs.subset ha)
  refine ⟨x, ?_, hx'⟩
  have hl := congrArg List.length (run_inv c ops h).2
  simp [Sys.new] at hl
  have := pays_lt ops 0 x hx
  omega

theorem headWeight_setWeight_ne {h : List (Cell π W)} {e e' : List (Tr ℕ)} {w : W}
    (hne : e.head?.map Tr.payload ≠ e'.head?.map Tr.payload) : headWeight (setWeight h e' w) e = headWeight h e := by
  cases e with
  | nil => rfl
  | cons t e =>
    cases e' with
    | nil => rfl
    | cons t' e' =>
      simp only [List.head?_cons, Option.map_some, ne_eq, Option.some.injEq] at hne
      simp [headWeight, setWeight, Ne.symm hne]

theorem headWeight_setWeights_ne {e : List (Tr ℕ)} (es : List (List (Tr ℕ))) : ∀ (h : List (Cell π W)) (ws),
    e.head?.map Tr.payload ∉ heads es → headWeight (setWeights h es ws) e = headWeight h e := by
  induction es with
  | nil => intro h ws _; rfl
  | cons e' es ih =>
    intro h ws hn
    simp only [heads, List.map_cons, List.mem_cons, not_or] at hn
    cases ws with
    | nil => rfl
    | cons w ws => rw [setWeights, ih _ _ hn.2, headWeight_setWeight_ne hn.1]

theorem setWeight_length (h : List (Cell π W)) (e w) : (setWeight h e w).length = h.length := by
  simpa using congrArg List.length (setWeight_payload h e w)

theorem setWeights_length (h : List (Cell π W)) (es ws) : (setWeights h es ws).length = h.length := by
  simpa using congrArg List.length (setWeights_payload es h ws)

theorem weights_set (es : List (List (Tr ℕ))) : ∀ (h : List (Cell π W)) (ws : List W), ws.length = es.length → (heads es).Nodup →
    (∀ a ∈ heads es, ∃ x < h.length, a = some x) → es.map (headWeight (setWeights h es ws)) = ws.map some := by
  induction es with
  | nil => intro h ws hw _ _; simp at hw; simp [hw]
  | cons e es ih =>
    intro h ws hw hn hx
    cases ws with
    | nil => simp at hw
    | cons w ws =>
      simp only [heads, List.map_cons, List.nodup_cons] at hn
      simp only [setWeights, List.map_cons]
      rw [ih (setWeight h e w) ws (by simpa using hw) hn.2
        (fun a ha => by rw [setWeight_length]; exact hx a (by simp only [heads, List.map_cons]; exact List.mem_cons_of_mem _ ha)),
        headWeight_setWeights_ne es _ _ hn.1]
      obtain ⟨x, hx1, hx2⟩ := hx (e.head?.map Tr.payload) (by simp [heads])
      cases e with
      | nil => simp at hx2
      | cons t e =>
        simp only [List.head?_cons, Option.map_some, Option.some.injEq] at hx2
        subst hx2
        simp [headWeight, setWeight, hx1]

theorem drain_ok (c : Option ℕ) (w : List (Tr ℕ)) : ∀ m, ∃ m', Replay.drain (push c) w m = .ok m' := by
  induction w with
  | nil => intro m; exact ⟨m, rfl⟩
  | cons t w ih => intro m; simp only [Replay.drain, push]; exact ih _

theorem append_ok (c : Option ℕ) (b : RB ε ℕ (List (List (Tr ℕ)))) (e t) : ∃ b', b.append (push c) e t = .ok b' := by
  unfold RB.append
  dsimp only
  split
  · obtain ⟨m, hm⟩ := drain_ok c (Replay.dequeAppend b.numSteps (b.last e) t) b.memory
    rw [hm]; exact ⟨_, rfl⟩
  · split
    · exact ⟨_, rfl⟩
    · exact ⟨_, rfl⟩

theorem stop_ok (c : Option ℕ) (b : RB ε ℕ (List (List (Tr ℕ)))) (e) : ∃ b', b.stop (push c) e = .ok b' := by
  unfold RB.stop
  dsimp only
  split
  · rename_i er h
    split at h <;> cases h
  · rename_i m _
    obtain ⟨m', hm⟩ := drain_ok c (if 0 < (b.last e).length ∧ (b.last e).length ≤ b.numSteps then (b.last e).drop 1 else b.last e) m
    rw [hm]; exact ⟨_, rfl⟩

theorem later_ok (c : Option ℕ) (ops : List (Op ε π W)) : ∀ s : Sys ε π W, (∀ op ∈ ops, op.isSample = false) →
    ∃ s' extra, s.run c ops = .ok s' ∧ s'.heap = s.heap ++ extra := by
  induction ops with
  | nil => intro s _; exact ⟨s, [], rfl, by simp⟩
  | cons op ops ih =>
    intro s h
    have hops := fun o ho => h o (List.mem_cons_of_mem _ ho)
    cases op with
    | append e p term =>
      obtain ⟨b, hb⟩ := append_ok c s.rb e ⟨s.heap.length, term⟩
      obtain ⟨s', extra, h1, h2⟩ := ih ⟨s.heap ++ [⟨p, none⟩], b⟩ hops
      exact ⟨s', ⟨p, none⟩ :: extra, by simp only [Sys.run, Sys.step, hb, h1], by simp [h2]⟩
    | stop e =>
      obtain ⟨b, hb⟩ := stop_ok c s.rb e
      obtain ⟨s', extra, h1, h2⟩ := ih { s with rb := b } hops
      exact ⟨s', extra, by simp only [Sys.run, Sys.step, hb, h1], h2⟩
    | sample idx ws => have := h _ List.mem_cons_self; simp [Op.isSample] at this

theorem mapM_some {α β : Type} (g : α → Option β) (l : List α) (r : List β) (h : l.map g = r.map some) : l.mapM g = some r := by
  induction l generalizing r with
  | nil => cases r <;> simp_all
  | cons a l ih =>
    cases r with
    | nil => simp at h
    | cons b r =>
      simp only [List.map_cons, List.cons.injEq] at h
      simp [List.mapM_cons, h.1, ih r h.2]

/-! ## C153 -/

/-- **C153.** Take any capacity, any `n ≥ 1`, any history of `append`, `stop_current_episode` and `sample` over any environments.  Then
`sample` with different positions in the buffer succeeds, and whatever is appended or stopped before the experiences are used: the
transitions of the experiences are those stored at the drawn positions, and the weights read from them are the weights that were
computed for them, in this order. -/
theorem weights_reach_their_experiences (c : Option ℕ) {n : ℕ} (hn : 0 < n) {ops : List (Op ε π W)} {s : Sys ε π W}
    (hrun : (Sys.new n).run c ops = .ok s) {idx : List ℕ} (hne : idx ≠ []) (hnd : idx.Nodup)
    (hlt : ∀ i ∈ idx, i < (experiences c n ops).length) {ws : List W} (hw : ws.length = idx.length) {later : List (Op ε π W)}
    (hl : ∀ op ∈ later, op.isSample = false) :
    ∃ s' exps s'', s.sample idx ws = .ok (s', exps) ∧ s'.run c later = .ok s'' ∧
      exps.map (List.map (readTr s''.heap)) = idx.map (fun i => ((experiences c n ops).getD i []).map found) ∧
      readWeights s''.heap exps = .ok (some ws) := by
  have hread := read_memory c hn hrun
  have hlen : s.rb.memory.length = (experiences c n ops).length := by simpa using congrArg List.length hread
  obtain ⟨hn1, hn2⟩ := memory_heads c hn hrun
  set exps := idx.map (fun i => s.rb.memory.getD i []) with hexps
  have hsample : s.sample idx ws = .ok ({ s with heap := setWeights s.heap exps ws }, exps) := by
    rw [Sys.sample, if_pos (fun i hi => by rw [hlen]; exact hlt i hi)]
  obtain ⟨s'', extra, h1, h2⟩ := later_ok c later { s with heap := setWeights s.heap exps ws } hl
  have hh : heads exps = idx.map (fun i => (heads s.rb.memory).getD i none) := by
    rw [hexps, heads, heads, List.map_map]
    apply List.map_congr_left
    intro i hi
    have : i < s.rb.memory.length := by rw [hlen]; exact hlt i hi
    simp [this]
  have hhn : (heads exps).Nodup := by
    rw [hh]
    refine List.Nodup.map_on (fun i hi j hj hij => ?_) hnd
    have h3 : i < (heads s.rb.memory).length := by simp [heads, hlen, hlt i hi]
    have h4 : j < (heads s.rb.memory).length := by simp [heads, hlen, hlt j hj]
    rw [List.getD_eq_getElem _ _ h3, List.getD_eq_getElem _ _ h4] at hij
    exact (hn1.getElem_inj_iff).1 hij
  have hhx : ∀ a ∈ heads exps, ∃ x < s.heap.length, a = some x := by
    intro a ha
    rw [hh] at ha
    obtain ⟨i, hi, rfl⟩ := List.mem_map.1 ha
    have h3 : i < (heads s.rb.memory).length := by simp [heads, hlen, hlt i hi]
    rw [List.getD_eq_getElem _ _ h3]
    exact hn2 _ (List.getElem_mem h3)
  have hset := weights_set exps s.heap ws (by simp [hexps, hw]) hhn hhx
  have hset' : exps.map (headWeight s''.heap) = ws.map some := by
    rw [← hset]
    apply List.map_congr_left
    intro e he
    obtain ⟨x, hx1, hx2⟩ := hhx _ (List.mem_map_of_mem (f := fun e => e.head?.map Tr.payload) he)
    cases e with
    | nil => rfl
    | cons t e =>
      simp only [List.head?_cons, Option.map_some, Option.some.injEq] at hx2
      subst hx2
      simp only [headWeight, h2]
      rw [List.getElem?_append_left (by rw [setWeights_length]; exact hx1)]
  refine ⟨_, exps, s'', hsample, h1, ?_, ?_⟩
  · have hval : ∀ i ∈ idx, (s.rb.memory.getD i []).map (readTr s.heap) = ((experiences c n ops).getD i []).map found := by
      intro i hi
      have h3 : i < (experiences c n ops).length := hlt i hi
      have h4 : i < s.rb.memory.length := by rw [hlen]; exact h3
      have := congrArg (fun l => l[i]?) hread
      simp only [List.getElem?_map, List.getElem?_eq_getElem h3, List.getElem?_eq_getElem h4, Option.map_some, Option.some.injEq] at this
      rw [List.getD_eq_getElem _ _ h3, List.getD_eq_getElem _ _ h4, this]
    rw [hexps, List.map_map]
    apply List.map_congr_left
    intro i hi
    rw [← hval i hi]
    apply List.map_congr_left
    intro t ht
    have hsome : ((s.heap[t.payload]?).map Cell.payload).isSome := by
      have := List.mem_map_of_mem (f := readTr s.heap) ht
      rw [hval i hi] at this
      obtain ⟨u, _, hu⟩ := List.mem_map.1 this
      have := congrArg Tr.payload hu
      simp only [found, readTr] at this
      simp [← this]
    have ht' : t.payload < s.heap.length := by
      by_contra hcon
      simp [List.getElem?_eq_none (not_lt.1 hcon)] at hsome
    have hp := congrArg (fun l => l[t.payload]?) (setWeights_payload exps s.heap ws)
    simp only [List.getElem?_map] at hp
    simp only [readTr, h2]
    rw [List.getElem?_append_left (by rw [setWeights_length]; exact ht'), hp]
  · cases hE : exps with
    | nil => simp [hexps] at hE; exact absurd hE hne
    | cons e es =>
      have hm := mapM_some _ _ _ hset'
      rw [hE] at hm hset'
      cases ws with
      | nil => simp at hset'
      | cons w ws =>
        simp only [List.map_cons, List.cons.injEq] at hset'
        simp only [readWeights, hset'.1, hm]

/-- **C153.** Writing weights changes nothing else: after any history the experiences in the buffer, read from memory, are those the
history without its `sample` calls stores. -/
theorem sampling_keeps_experiences (c : Option ℕ) {n : ℕ} (hn : 0 < n) {ops : List (Op ε π W)} {s : Sys ε π W}
    (hrun : (Sys.new n).run c ops = .ok s) :
    s.rb.memory.map (List.map (readTr s.heap)) = (experiences c n ops).map (List.map found) := read_memory c hn hrun

/-- **C153.** A history fails only if a position that is not in the buffer is sampled. -/
theorem history_ok (c : Option ℕ) {n : ℕ} (hn : 0 < n) (ops : List (Op ε π W))
    (h : ∀ before idx ws after, ops = before ++ .sample idx ws :: after → ∀ i ∈ idx, i < (experiences c n before).length) :
    ∃ s : Sys ε π W, (Sys.new n).run c ops = .ok s := by
  induction ops using List.reverseRecOn with
  | nil => exact ⟨_, rfl⟩
  | append_singleton ops op ih =>
    obtain ⟨s, hs⟩ := ih (fun b idx ws a hb => h b idx ws (a ++ [op]) (by simp [hb]))
    have happ : ∀ (l : List (Op ε π W)) (s0 s1 : Sys ε π W), s0.run c l = .ok s1 → s0.run c (l ++ [op]) = s1.run c [op] := by
      intro l
      induction l with
      | nil => intro s0 s1 h; cases h; rfl
      | cons o l ih =>
        intro s0 s1 h
        simp only [Sys.run, List.cons_append] at h ⊢
        split at h
        · cases h
        · exact ih _ _ h
    rw [happ ops _ s hs]
    cases op with
    | append e p term =>
      obtain ⟨s', _, h1, _⟩ := later_ok c [.append e p term] s (by simp [Op.isSample])
      exact ⟨s', h1⟩
    | stop e =>
      obtain ⟨s', _, h1, _⟩ := later_ok c [.stop e] s (by simp [Op.isSample])
      exact ⟨s', h1⟩
    | sample idx ws =>
      have hi := h ops idx ws [] rfl
      have hlen : s.rb.memory.length = (experiences c n ops).length := by simpa using congrArg List.length (read_memory c hn hs)
      simp only [Sys.run, Sys.step, Sys.sample]
      rw [if_pos (fun i hi' => by rw [hlen]; exact hi i hi')]
      exact ⟨_, rfl⟩

/-! ## Limits -/

/-- A batch must be used before the next one is drawn: the experiences of the first batch show the weights of the second one. -/
theorem next_sample_overwrites : ∃ (s s' s'' : Sys ℕ ℕ ℕ) (exps exps' : _),
    (Sys.new 2).run none [.append 0 10 false, .append 0 11 true] = .ok s ∧ s.sample [0, 1] [5, 6] = .ok (s', exps) ∧
      readWeights s'.heap exps = .ok (some [5, 6]) ∧ s'.sample [1, 0] [7, 8] = .ok (s'', exps') ∧
      readWeights s''.heap exps = .ok (some [8, 7]) :=
  ⟨_, _, _, _, _, rfl, rfl, rfl, rfl, rfl⟩

/-! ## Non-vacuity -/

/-- Two environments, experiences of up to two transitions that share dicts, a full buffer. -/
def exampleOps : List (Op ℕ ℕ ℕ) :=
  [.append 0 10 false, .append 1 20 false, .append 0 11 false, .sample [0] [9], .append 0 12 true, .stop 1]

example : (experiences (some 3) 2 exampleOps).map (List.map Tr.payload) = [[11, 12], [12], [20]] := by decide

example : ∃ s : Sys ℕ ℕ ℕ, (Sys.new 2).run (some 3) exampleOps = .ok s ∧
    s.rb.memory.map (List.map Tr.payload) = [[2, 3], [3], [1]] ∧ s.heap.map Cell.weight = [some 9, none, none, none] ∧
    ∃ s' exps, s.sample [1, 0] [3, 4] = .ok (s', exps) ∧ s'.heap.map Cell.weight = [some 9, none, some 4, some 3] ∧
      readWeights s'.heap exps = .ok (some [3, 4]) :=
  ⟨_, rfl, rfl, rfl, _, _, rfl, rfl, rfl⟩

end Pfrl.SharedWeights
