import Verif.Replay.Lemmas
import Verif.PBuf.Props

/-!
# Properties of the n-step replay buffer (C11, C12, C13, C14, C64)
-/

set_option linter.unusedSectionVars false

namespace Pfrl.Replay

open Spec
open Queue (RAQ)
open Queue.Spec (keep)

variable {ε π M : Type _} [DecidableEq ε]

theorem pushAll_raq {α : Type _} {c : Option Nat} (xs : List α) : ∀ {q : RAQ α} {l : List α},
    Queue.Sim c q l → ∃ q', pushAll RAQ.append q xs = .ok q' ∧ Queue.Sim c q' (keep c (l ++ xs)) := by
  induction xs with
  | nil =>
    intro q l h
    refine ⟨q, rfl, ?_⟩
    have : keep c (l ++ []) = l := by
      rw [List.append_nil]
      cases c with
      | none => rfl
      | some m =>
        have := h.2.2 m rfl
        simp only [keep, Queue.Spec.newest]
        rw [Nat.sub_eq_zero_of_le this, List.drop_zero]
    rw [this]; exact h
  | cons x xs ih =>
    intro q l h
    obtain ⟨q1, h1, h2⟩ := RAQ.append_spec h x
    obtain ⟨q2, h3, h4⟩ := ih h2
    refine ⟨q2, by simp only [pushAll, h1, h3], ?_⟩
    rw [Queue.keep_append_keep] at h4
    simpa using h4

theorem new_ok (c : Option Nat) {n : Nat} (hn : 0 < n) :
    ∃ b0 : RB ε π (RAQ (List (Tr π))), RB.new (c.map Int.ofNat) n = .ok b0 ∧ Inv n [] b0 ∧
      Queue.Sim c b0.memory [] := by
  obtain ⟨q, h1, h2⟩ := RAQ.new_sim c ([] : List (List (Tr π)))
  refine ⟨⟨n, q, fun _ => []⟩, ?_, ⟨rfl, fun e => by simp [tailN, calls, episodes]⟩, ?_⟩
  · simp only [RB.new]
    rw [if_pos (by omega), h1]
    rfl
  · have : keep c ([] : List (List (Tr π))) = [] := by
      cases c <;> simp [keep, Queue.Spec.newest]
    rw [this] at h2; exact h2

theorem run_ok (c : Option Nat) {n : Nat} (hn : 0 < n) (ops : List (Op ε π)) :
    ∃ b0 b : RB ε π (RAQ (List (Tr π))), RB.new (c.map Int.ofNat) n = .ok b0 ∧
      b0.run RAQ.append ops = .ok b ∧
      Queue.Sim c b.memory (keep c ((log n [] ops).map Prod.snd)) ∧ Inv n ops b := by
  obtain ⟨b0, h1, h2, h3⟩ := new_ok (ε := ε) (π := π) c hn
  obtain ⟨q, h4, h5⟩ := pushAll_raq ((log n [] ops).map Prod.snd) h3
  have := run_spec RAQ.append hn ops h2
  rw [h4] at this
  obtain ⟨b, g1, g2, g3⟩ := this
  refine ⟨b0, b, h1, g1, by rw [g2]; simpa using h5, by simpa using g3⟩

/-- **C11.** For every capacity, every `num_steps = n ≥ 1` and every history of `append` and
`stop_current_episode` over any environments, no call fails, the buffer holds what the capacity
leaves of the log of stored experiences, and the part of the log that belongs to an environment is
exactly the list of windows of its episodes: every length-`n` window of each episode plus the
shorter suffix windows of the finished ones, each once, in order. -/
theorem replay_buffer_stores_windows (c : Option Nat) {n : Nat} (hn : 0 < n)
    (ops : List (Op ε π)) :
    ∃ b0 b : RB ε π (RAQ (List (Tr π))), RB.new (c.map Int.ofNat) n = .ok b0 ∧
      b0.run RAQ.append ops = .ok b ∧
      b.memory.iter = keep c ((log n [] ops).map Prod.snd) ∧
      ∀ e, ofEnv e (log n [] ops) = stored n (calls e ops) := by
  obtain ⟨b0, b, h1, h2, h3, _⟩ := run_ok (ε := ε) (π := π) c hn ops
  refine ⟨b0, b, h1, h2, h3.1, fun e => ?_⟩
  have := log_ofEnv hn e ops []
  simpa [calls, stored_nil] using this

/-- Two environments interleaved, `num_steps = 2`: the first finishes an episode of three, the
second one is stopped after one transition. -/
example : (match (RB.new (some 5) 2 : Except PyErr (RB Nat Nat _)) with
    | .error _ => []
    | .ok b => match b.run RAQ.append [.append 0 ⟨1, false⟩, .append 1 ⟨7, false⟩,
        .append 0 ⟨2, false⟩, .stop 1, .append 0 ⟨3, true⟩, .append 0 ⟨4, false⟩] with
      | .error _ => []
      | .ok b => b.memory.iter.map (List.map Tr.payload))
    = [[1, 2], [7], [2, 3], [3]] := by decide

/-- **C11 (no mixing).** Whatever is stored is a non-empty window of at most `n` consecutive
transitions of one episode of one environment. -/
theorem stored_experience_within_episode {n : Nat} (hn : 0 < n) (ops : List (Op ε π))
    {e : ε} {w : List (Tr π)} (h : (e, w) ∈ log n [] ops) :
    ∃ ep, (ep ∈ (episodes (calls e ops)).finished ∨ ep = (episodes (calls e ops)).current) ∧
      ∃ before after, ep = before ++ w ++ after ∧ w ≠ [] ∧ w.length ≤ n ∧
        (w.length < n → after = [] ∧ ep ∈ (episodes (calls e ops)).finished) := by
  have hl := log_ofEnv hn e ops []
  simp only [calls, stored_nil, List.nil_append] at hl
  have hw : w ∈ stored n (calls e ops) := by
    rw [← hl]
    exact List.mem_filterMap.2 ⟨(e, w), h, by simp⟩
  unfold stored at hw
  have hwin : ∀ (ep : List (Tr π)) (i : Nat), i < ep.length →
      ep = ep.take i ++ window n ep i ++ ep.drop (i + n) ∧ window n ep i ≠ [] ∧
      (window n ep i).length = min n (ep.length - i) := by
    intro ep i hi
    refine ⟨?_, ?_, by simp [window]⟩
    · rw [window, List.append_assoc, ← List.drop_drop, List.take_append_drop,
        List.take_append_drop]
    · intro hc
      have := congrArg List.length hc
      simp [window] at this; omega
  rcases List.mem_append.1 hw with hw | hw
  · obtain ⟨ep, h1, h2⟩ := List.mem_flatMap.1 hw
    obtain ⟨i, h3, rfl⟩ := List.mem_map.1 h2
    rw [List.mem_range] at h3
    obtain ⟨g1, g2, g3⟩ := hwin ep i h3
    refine ⟨ep, .inl h1, _, _, g1, g2, by omega, fun hlt => ⟨?_, h1⟩⟩
    apply List.drop_eq_nil_of_le; omega
  · obtain ⟨i, h2, rfl⟩ := List.mem_map.1 hw
    simp only [List.mem_filter, List.mem_range, decide_eq_true_eq] at h2
    obtain ⟨g1, g2, g3⟩ := hwin _ i h2.1
    exact ⟨_, .inr rfl, _, _, g1, g2, by omega, fun hlt => by omega⟩

/-- **C12.** The buffer is never longer than its capacity; it holds exactly the newest `c` of all
experiences ever stored. -/
theorem replay_buffer_capacity_fifo (c : Nat) {n : Nat} (hn : 0 < n) (ops : List (Op ε π)) :
    ∃ b0 b : RB ε π (RAQ (List (Tr π))), RB.new (some (c : Int)) n = .ok b0 ∧
      b0.run RAQ.append ops = .ok b ∧ b.memory.len = min c (log n [] ops).length ∧
      ∃ evicted, (log n [] ops).map Prod.snd = evicted ++ b.memory.iter := by
  obtain ⟨b0, b, h1, h2, h3, _⟩ := run_ok (ε := ε) (π := π) (some c) hn ops
  refine ⟨b0, b, h1, h2, ?_, ?_⟩
  · rw [← RAQ.iter_length, h3.1]
    simp [keep, Queue.Spec.newest]; omega
  · rw [h3.1]
    exact ⟨_, (List.take_append_drop _ _).symm⟩

/-- The histories of `replay_buffer_capacity_fifo` include ones that overflow the capacity. -/
example : (log 2 [] [.append 0 ⟨1, false⟩, .append 0 ⟨2, false⟩, .append 0 (⟨3, true⟩ : Tr Nat)]).length
    = 3 := by decide

/-- **C13.** Take two histories in which environment `e` makes the same calls, possibly interleaved
differently with different calls of other environments.  If every transition carries a tag telling
its environment, then the experiences of `e` stored by the two (unbounded) buffers are the same
list. -/
theorem environments_independent {n : Nat} (hn : 0 < n) {ops ops' : List (Op ε π)} {e : ε}
    (hsame : calls e ops = calls e ops') (tag : π → ε)
    (htag : ∀ e' t, Op.append e' t ∈ ops ++ ops' → tag t.payload = e') :
    ∃ b0 b b' : RB ε π (RAQ (List (Tr π))), RB.new none n = .ok b0 ∧
      b0.run RAQ.append ops = .ok b ∧ b0.run RAQ.append ops' = .ok b' ∧
      b.memory.iter.filter (fun w => ∀ t ∈ w, tag t.payload = e)
        = b'.memory.iter.filter (fun w => ∀ t ∈ w, tag t.payload = e) := by
  obtain ⟨b0, b, h1, h2, h3, _⟩ := run_ok (ε := ε) (π := π) none hn ops
  obtain ⟨b0', b', h1', h2', h3', _⟩ := run_ok (ε := ε) (π := π) none hn ops'
  rw [h1] at h1'; cases h1'
  have hcalls : ∀ (os : List (Op ε π)) (e : ε) (t : Tr π), some t ∈ calls e os →
      Op.append e t ∈ os := by
    intro os e t
    induction os with
    | nil => simp [calls]
    | cons op os ih =>
      intro h
      cases op with
      | append e' t' =>
        simp only [calls] at h
        split at h
        · rename_i he; subst he
          rcases List.mem_cons.1 h with h | h
          · cases h; simp
          · exact List.mem_cons_of_mem _ (ih h)
        · exact List.mem_cons_of_mem _ (ih h)
      | stop e' =>
        simp only [calls] at h
        split at h
        · rcases List.mem_cons.1 h with h | h
          · cases h
          · exact List.mem_cons_of_mem _ (ih h)
        · exact List.mem_cons_of_mem _ (ih h)
  have hep : ∀ (cs : List (Option (Tr π))) ep t,
      (ep ∈ (episodes cs).finished ∨ ep = (episodes cs).current) → t ∈ ep → some t ∈ cs := by
    intro cs
    induction cs using List.reverseRecOn with
    | nil => intro ep t h ht; rcases h with h | rfl <;> simp [episodes] at *
    | append_singleton cs c ih =>
      intro ep t h ht
      rw [episodes_snoc] at h
      cases c with
      | none =>
        simp only [Episodes.next] at h
        split at h
        · exact List.mem_append_left _ (ih ep t h ht)
        · rcases h with h | rfl
          · rcases List.mem_append.1 h with h | h
            · exact List.mem_append_left _ (ih ep t (.inl h) ht)
            · simp at h; exact List.mem_append_left _ (ih ep t (.inr h) ht)
          · simp at ht
      | some u =>
        simp only [Episodes.next] at h
        have hlast : ∀ t, t ∈ (episodes cs).current ++ [u] → some t ∈ cs ++ [some u] := by
          intro t ht
          rcases List.mem_append.1 ht with ht | ht
          · exact List.mem_append_left _ (ih _ t (.inr rfl) ht)
          · simp at ht; simp [ht]
        split at h
        · rcases h with h | rfl
          · rcases List.mem_append.1 h with h | h
            · exact List.mem_append_left _ (ih ep t (.inl h) ht)
            · simp at h; subst h; exact hlast t ht
          · simp at ht
        · rcases h with h | rfl
          · exact List.mem_append_left _ (ih ep t (.inl h) ht)
          · exact hlast t ht
  have key : ∀ os : List (Op ε π), (∀ e' t, Op.append e' t ∈ os → tag t.payload = e') →
      ((log n [] os).map Prod.snd).filter (fun w => ∀ t ∈ w, tag t.payload = e)
        = stored n (calls e os) := by
    intro os hos
    have hlog := log_ofEnv hn e os []
    simp only [calls, stored_nil, List.nil_append] at hlog
    rw [← hlog, ofEnv, List.filter_map, ← List.filterMap_eq_filter, List.map_filterMap]
    apply List.filterMap_congr
    rintro ⟨e', w⟩ hw
    obtain ⟨ep, hep1, before, after, heq, hne, _, _⟩ := stored_experience_within_episode hn os hw
    have htags : ∀ t ∈ w, tag t.payload = e' := by
      intro t ht
      exact hos e' t (hcalls os e' t (hep _ ep t hep1 (by rw [heq]; simp [ht])))
    by_cases he : e' = e
    · subst he
      simp only [Function.comp]
      rw [if_pos trivial, Option.guard, if_pos]
      · rfl
      · simpa using htags
    · simp only [Function.comp]
      rw [if_neg he, Option.guard, if_neg]
      · rfl
      · obtain ⟨t, ht⟩ := List.exists_mem_of_ne_nil w hne
        simp only [decide_eq_true_eq]
        intro hc
        exact he ((htags t ht).symm.trans (hc t ht))
  refine ⟨b0, b, b', h1, h2, h2', ?_⟩
  rw [h3.1, h3'.1]
  simp only [keep]
  rw [key ops (fun e' t h => htag e' t (List.mem_append_left _ h)),
    key ops' (fun e' t h => htag e' t (List.mem_append_right _ h)), hsame]

/-- Two interleavings with equal calls of environment 0. -/
example : calls 0 [.append 0 ⟨1, false⟩, .append 1 (⟨2, true⟩ : Tr Nat), .stop 0]
    = calls 0 [.append 1 ⟨8, false⟩, .append 0 ⟨1, false⟩, .stop 0] := by decide

/-- **C14.** After any history, `sample(k)` raises an assertion error when the buffer holds fewer
than `k` experiences; otherwise it returns the experiences at `k` distinct positions (or is still
drawing random numbers when the given fuel is used up); the buffer is not changed (the model's
`sample` returns no new buffer, as the code assigns nothing). -/
theorem replay_sample_distinct {b : RB ε π (RAQ (List (Tr π)))} (k : Nat) {perm : List Nat}
    {s : Nat → Nat} {fuel : Nat} (hperm : Sample.IsChoice b.memory.len k perm)
    (hs : ∀ i, s i < b.memory.len) :
    (b.memory.len < k → b.sample perm s fuel k = .error .assertionError) ∧
    (k ≤ b.memory.len → b.sample perm s fuel k = .error .timeout ∨
      ∃ (ixs : List Nat) (xs : List (List (Tr π))), b.sample perm s fuel k = .ok xs ∧ ixs.Nodup ∧
        ixs.length = k ∧ List.Forall₂ (fun i x => b.memory.iter[i]? = some x) ixs xs) := by
  constructor
  · intro h
    unfold RB.sample
    rw [if_neg (by omega)]
  · intro h
    unfold RB.sample
    rw [if_pos h]
    exact Sample.raq_sample_distinct_positions hperm hs h

example : ∃ b : RB Nat Nat (RAQ (List (Tr Nat))),
    Sample.IsChoice b.memory.len 1 [1] ∧ (∀ i, (fun i => i % 2) i < b.memory.len) ∧
    b.sample [1] (fun i => i % 2) 9 1 = .ok [[⟨5, true⟩]] :=
  ⟨⟨1, ⟨none, [], [[⟨4, false⟩], [⟨5, true⟩]]⟩, fun _ => []⟩, ⟨by decide, by decide, by decide⟩,
    fun i => Nat.mod_lt _ (by decide), by decide⟩

/-! ## C64 -/

/-- **C64.** For every history before saving, every buffer `b1` the file is loaded into (whatever
its own capacity and content) and every further history: loading succeeds, the loaded buffer holds
the saved experiences, and it goes on storing with the *saved* capacity. -/
theorem replay_save_load_round_trip (c c1 : Option Nat) {n n1 : Nat} (hn : 0 < n) (hn1 : 0 < n1)
    (ops ops1 : List (Op ε π)) :
    ∃ b0 b b1 b2 b3 : RB ε π (RAQ (List (Tr π))),
      RB.new (c.map Int.ofNat) n = .ok b0 ∧ b0.run RAQ.append ops = .ok b ∧
      RB.new (c1.map Int.ofNat) n1 = .ok b1 ∧ b1.load b.save = .ok b2 ∧
      b2.memory.iter = b.memory.iter ∧
      b2.run RAQ.append ops1 = .ok b3 ∧
      b3.memory.iter = keep c (b.memory.iter ++ (log n1 [] ops1).map Prod.snd) := by
  obtain ⟨b0, b, h1, h2, h3, _⟩ := run_ok (ε := ε) (π := π) c hn ops
  obtain ⟨b1, g1, g2, _⟩ := new_ok (ε := ε) (π := π) c1 hn1
  have hinv : Inv n1 [] ({ b1 with memory := b.memory } : RB ε π (RAQ (List (Tr π)))) := g2
  obtain ⟨q, k1, k2⟩ := pushAll_raq ((log n1 [] ops1).map Prod.snd) h3
  have := run_spec RAQ.append hn1 ops1 hinv
  rw [k1] at this
  obtain ⟨b3, r1, r2, _⟩ := this
  refine ⟨b0, b, b1, _, b3, h1, h2, g1, rfl, rfl, r1, ?_⟩
  rw [r2, k2.1, h3.1]

/-- **C64 (old format).** A v0.2 file holding a deque with its `maxlen` is loaded as the same
experiences (a deque never exceeds its `maxlen`). -/
theorem replay_load_deque (b : RB ε π (RAQ (List (Tr π)))) (maxlen : Option Nat)
    (items : List (List (Tr π))) (hd : ∀ m, maxlen = some m → items.length ≤ m) :
    ∃ b2, b.load (.deque maxlen items) = .ok b2 ∧ b2.memory.iter = items ∧
      b2.memory.maxlen = maxlen.map Int.ofNat := by
  obtain ⟨q, h1, h2⟩ := RAQ.new_sim maxlen items
  refine ⟨{ b with memory := q }, by simp only [RB.load, h1], ?_, h2.2.1⟩
  simp only
  rw [h2.1]
  cases maxlen with
  | none => rfl
  | some m =>
    simp only [keep, Queue.Spec.newest]
    rw [Nat.sub_eq_zero_of_le (hd m rfl), List.drop_zero]

example : ∀ m, (some 3 : Option Nat) = some m → ([[], []] : List (List (Tr Nat))).length ≤ m := by
  intro m h; cases h; decide

/-! ## The prioritized buffer inherits the same storing behaviour -/

variable {V : Type _} [Field V] [LinearOrder V] [IsStrictOrderedRing V]

/-- `PrioritizedReplayBuffer.append` stores through `PrioritizedBuffer.append(value)` with no
priority (`replay_buffers/prioritized.py:102`, `replay_buffer.py:57`). -/
def pushPB (m : PBuf.PB (List (Tr π)) V) (w : List (Tr π)) :
    Except PyErr (PBuf.PB (List (Tr π)) V) := m.append w none

theorem pushAll_pb (xs : List (List (Tr π))) :
    ∀ {b : PBuf.PB (List (Tr π)) V} {s : PBuf.Spec.St (List (Tr π)) V}, PBuf.Sim b s →
      s.waiting = false → (∀ c, s.cap = some c → 1 ≤ c) →
      ∃ b' s', pushAll pushPB b xs = .ok b' ∧ PBuf.Sim b' s' ∧ s'.waiting = false ∧
        s'.cap = s.cap ∧ s'.maxp = s.maxp ∧
        s'.entries = keep (s.cap.map Int.toNat) (s.entries ++ xs.map (fun x => (x, s.maxp))) := by
  induction xs with
  | nil =>
    intro b s h hw hc
    refine ⟨b, s, rfl, h, hw, rfl, rfl, ?_⟩
    rw [List.map_nil, List.append_nil]
    cases hcap : s.cap with
    | none => rfl
    | some c =>
      have := h.capLe c hcap
      simp only [Option.map_some, keep, Queue.Spec.newest]
      rw [Nat.sub_eq_zero_of_le (by omega), List.drop_zero]
  | cons x xs ih =>
    intro b s h hw hc
    obtain ⟨b1, out, s1, g1, g2, g3⟩ := PBuf.step_sim h (.append x none)
      ⟨by simp, by simp [hw]⟩
    have g1' : b.append x none = .ok b1 := by
      simp only [PBuf.PB.step] at g1
      cases hb : b.append x none with
      | error e => rw [hb] at g1; cases g1
      | ok b' => rw [hb] at g1; cases g1; rfl
    cases g2
    obtain ⟨b2, s2, k1, k2, k3, k4, k5, k6⟩ := ih g3 hw hc
    refine ⟨b2, s2, by simp only [pushAll, pushPB, g1']; exact k1, k2, k3, k4, k5, ?_⟩
    rw [k6]
    simp only [Option.getD_none, List.map_cons]
    cases hcap : s.cap with
    | none => simp [keep, PBuf.Spec.St.full, hcap]
    | some c =>
      have hle := h.capLe c hcap
      have h1 := hc c hcap
      simp only [Option.map_some]
      have e1 : (if s.full then s.entries.tail else s.entries) ++ [(x, s.maxp)]
          = keep (some c.toNat) (s.entries ++ [(x, s.maxp)]) := by
        simp only [keep, Queue.Spec.newest, List.length_append, List.length_singleton]
        by_cases hf : s.full = true
        · have hf' : c = s.entries.length := by
            simp only [PBuf.Spec.St.full, decide_eq_true_eq, hcap] at hf
            simpa using hf
          rw [if_pos hf]
          have : s.entries.length + 1 - c.toNat = 1 := by omega
          rw [this]
          cases he : s.entries with
          | nil => rw [he] at hf'; simp at hf'; omega
          | cons a t => rfl
        · have hf' : c ≠ s.entries.length := by
            intro hcc; apply hf
            simp [PBuf.Spec.St.full, hcap, hcc]
          rw [if_neg hf]
          have : s.entries.length + 1 - c.toNat = 0 := by omega
          rw [this]; rfl
      rw [e1, Queue.keep_append_keep]
      simp

/-- **C11/C12 for `PrioritizedReplayBuffer`.** Starting from a buffer in any state that agrees with
the specification of a prioritized buffer and is not between a `sample` and its `update_errors`,
every history of appends and stops stores exactly the windows of the log, each with the largest
priority seen so far, and keeps the newest `capacity` of them. -/
theorem prioritized_replay_stores_windows {n : Nat} (hn : 0 < n) (past ops : List (Op ε π))
    {b : RB ε π (PBuf.PB (List (Tr π)) V)} (hb : Inv n past b)
    {s : PBuf.Spec.St (List (Tr π)) V} (hs : PBuf.Sim b.memory s) (hw : s.waiting = false)
    (hc : ∀ c, s.cap = some c → 1 ≤ c) :
    ∃ b' s', b.run pushPB ops = .ok b' ∧ Inv n (past ++ ops) b' ∧ PBuf.Sim b'.memory s' ∧
      s'.waiting = false ∧ s'.cap = s.cap ∧
      s'.entries = keep (s.cap.map Int.toNat)
        (s.entries ++ ((log n past ops).map fun x => (x.2, s.maxp))) := by
  obtain ⟨m, s', h1, h2, h3, h4, h5, h6⟩ := pushAll_pb ((log n past ops).map Prod.snd) hs hw hc
  have := run_spec pushPB hn ops hb
  rw [h1] at this
  obtain ⟨b', g1, g2, g3⟩ := this
  refine ⟨b', s', g1, g3, by rw [g2]; exact h2, h3, h4, ?_⟩
  rw [h6, List.map_map]; rfl

/-- A fresh prioritized replay buffer meets the hypotheses. -/
example : Inv 3 [] (⟨3, PBuf.PB.new (some 4) true 1, fun _ => []⟩ :
      RB Nat Nat (PBuf.PB (List (Tr Nat)) ℚ)) ∧
    PBuf.Sim (PBuf.PB.new (some 4) true 1 : PBuf.PB (List (Tr Nat)) ℚ)
      (PBuf.Spec.St.init (some 4) true 1) :=
  ⟨⟨rfl, fun e => by simp [tailN, calls, episodes]⟩,
    PBuf.new_sim (by intro c h; cases h; decide) true (by norm_num)⟩

end Pfrl.Replay
