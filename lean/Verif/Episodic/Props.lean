import Verif.Episodic.Model
import Verif.Replay.Props

/-!
# Properties of the episodic replay buffers (C15, C16, C17, C64)
-/

set_option linter.unusedSectionVars false

namespace Pfrl.Episodic

open Pfrl.Replay (Tr Op)
open Pfrl.Replay.Spec (calls episodes Episodes)
open Queue (RAQ)

variable {ε π : Type _} [DecidableEq ε]

/-! ## Specification -/

/-- The finished episodes of all environments, in the order in which they were finished: each call
adds the episodes of its environment that it finishes. -/
def Spec.finished (past : List (Op ε π)) : List (Op ε π) → List (List (Tr π))
  | [] => []
  | op :: ops =>
    (episodes (calls op.env (past ++ [op]))).finished.drop
        (episodes (calls op.env past)).finished.length ++
      Spec.finished (past ++ [op]) ops

/-- `kept` is the longest suffix of `all` with at most `c` transitions in total (`none`: no limit). -/
def Spec.Kept (c : Option Nat) (all kept : List (List (Tr π))) : Prop :=
  ∃ evicted, all = evicted ++ kept ∧
    match c with
    | none => evicted = []
    | some c => kept.flatten.length ≤ c ∧
        ∀ last, evicted.getLast? = some last → c < (last ++ kept.flatten).length

/-! ## Lemmas -/

/-- The relation between the queues and the list of stored episodes. -/
structure Sim (b : EB ε π) (past : List (Op ε π)) (eps : List (List (Tr π))) : Prop where
  cur : ∀ e, b.current e = (episodes (calls e past)).current
  ep : Queue.Sim none b.episodic eps
  mem : Queue.Sim none b.memory (eps.flatten.map fun t => [t])

theorem appendAll_sim (ts : List (Tr π)) : ∀ {m : RAQ (List (Tr π))} {l : List (List (Tr π))},
    Queue.Sim none m l →
    ∃ m', appendAll m ts = .ok m' ∧ Queue.Sim none m' (l ++ ts.map fun t => [t]) := by
  induction ts with
  | nil => intro m l h; exact ⟨m, rfl, by simpa using h⟩
  | cons t ts ih =>
    intro m l h
    obtain ⟨m1, h1, h2⟩ := RAQ.append_spec h [t]
    obtain ⟨m2, h3, h4⟩ := ih h2
    refine ⟨m2, by simp only [appendAll, h1, h3], ?_⟩
    simpa [Queue.Spec.keep] using h4

theorem popleft_sim {α : Type _} {q : RAQ α} {x : α} {l : List α} (h : Queue.Sim none q (x :: l)) :
    ∃ q', q.popleft = .ok (x, q') ∧ Queue.Sim none q' l := by
  obtain ⟨q', h1, h2, h3⟩ := RAQ.popleft_cons h.1
  exact ⟨q', h1, h2, h3.trans h.2.1, by simp⟩

theorem popMany_sim (ys : List (List (Tr π))) : ∀ {m : RAQ (List (Tr π))} {l : List (List (Tr π))},
    Queue.Sim none m (ys ++ l) →
    ∃ m', popMany m ys.length = .ok m' ∧ Queue.Sim none m' l := by
  induction ys with
  | nil => intro m l h; exact ⟨m, rfl, h⟩
  | cons y ys ih =>
    intro m l h
    obtain ⟨m1, h1, h2⟩ := popleft_sim h
    obtain ⟨m2, h3, h4⟩ := ih h2
    exact ⟨m2, by simp only [List.length_cons, popMany, h1, h3], h4⟩

theorem sim_len {α : Type _} {c : Option Nat} {q : RAQ α} {l : List α} (h : Queue.Sim c q l) :
    q.len = l.length := by rw [← RAQ.iter_length, h.1]

theorem evict_sim (c : Option Nat) : ∀ (fuel : Nat) {ep mem : RAQ (List (Tr π))}
    {eps : List (List (Tr π))}, Queue.Sim none ep eps →
    Queue.Sim none mem (eps.flatten.map fun t => [t]) → eps.length < fuel →
    ∃ ep' mem' kept, evict (c.map Int.ofNat) fuel ep mem = .ok (ep', mem') ∧
      Queue.Sim none ep' kept ∧ Queue.Sim none mem' (kept.flatten.map fun t => [t]) ∧
      Spec.Kept c eps kept := by
  intro fuel
  induction fuel with
  | zero => intro ep mem eps _ _ h; omega
  | succ fuel ih =>
    intro ep mem eps h1 h2 h3
    unfold evict
    cases c with
    | none => exact ⟨ep, mem, eps, rfl, h1, h2, [], by simp, rfl⟩
    | some c =>
      simp only [Option.map_some]
      have hlen : mem.len = eps.flatten.length := by rw [sim_len h2, List.length_map]
      by_cases hgt : (mem.len : Int) > Int.ofNat c
      · rw [if_pos hgt]
        cases eps with
        | nil => simp [hlen] at hgt; omega
        | cons e0 rest =>
          obtain ⟨ep1, g1, g2⟩ := popleft_sim h1
          have h2' : Queue.Sim none mem ((e0.map fun t => [t]) ++ rest.flatten.map fun t => [t]) := by
            simpa using h2
          obtain ⟨mem1, g3, g4⟩ := popMany_sim _ h2'
          rw [List.length_map] at g3
          obtain ⟨ep', mem', kept, k1, k2, k3, ev, k4, k5⟩ := ih g2 g4 (by simp at h3; omega)
          simp only [g1, g3]
          refine ⟨ep', mem', kept, k1, k2, k3, e0 :: ev, by simp [k4], k5.1, ?_⟩
          intro last hl
          cases hev : ev with
          | nil =>
            rw [hev] at hl k4
            simp at hl; subst hl
            rw [List.nil_append] at k4; subst k4
            rw [hlen] at hgt
            simp at hgt ⊢; omega
          | cons a t =>
            rw [hev] at hl
            apply k5.2 last
            rw [hev]
            simpa [List.getLast?_cons_cons] using hl
      · rw [if_neg hgt]
        refine ⟨ep, mem, eps, rfl, h1, h2, [], by simp, ?_, by simp⟩
        rw [hlen] at hgt
        simp only [Int.ofNat_eq_natCast, gt_iff_lt, not_lt] at hgt
        exact_mod_cast hgt

theorem kept_snoc {c : Option Nat} {all kept kept' : List (List (Tr π))} {e : List (Tr π)}
    (h1 : Spec.Kept c all kept) (h2 : Spec.Kept c (kept ++ [e]) kept') :
    Spec.Kept c (all ++ [e]) kept' := by
  obtain ⟨ev1, rfl, g1⟩ := h1
  obtain ⟨ev2, g2, g3⟩ := h2
  refine ⟨ev1 ++ ev2, by rw [List.append_assoc, g2, List.append_assoc], ?_⟩
  cases c with
  | none => simp only at *; simp [g1, g3]
  | some c =>
    simp only at *
    refine ⟨g3.1, fun last hl => ?_⟩
    cases hev : ev2 with
    | cons a t =>
      apply g3.2 last
      rw [hev] at hl ⊢
      rw [List.getLast?_append] at hl
      simpa using hl
    | nil =>
      rw [hev] at hl g2
      simp only [List.append_nil, List.nil_append] at hl g2
      have := g1.2 last hl
      rw [← g2]; simp at this ⊢; omega

theorem kept_self {c : Option Nat} {all kept : List (List (Tr π))}
    (h : Spec.Kept c all kept) : Spec.Kept c (all ++ []) kept := by simpa using h

theorem calls_other {e : ε} {past : List (Op ε π)} {op : Op ε π} (h : op.env ≠ e) :
    calls e (past ++ [op]) = calls e past := by
  rw [Replay.calls_append, Replay.calls_single, if_neg h, List.append_nil]

theorem stop_sim {b : EB ε π} {c : Option Nat} (hcap : b.capacity = c.map Int.ofNat)
    {eps : List (List (Tr π))} {cur : ε → List (Tr π)}
    (hcur : b.current = cur)
    (h1 : Queue.Sim none b.episodic eps)
    (h2 : Queue.Sim none b.memory (eps.flatten.map fun t => [t])) (env : ε) (hne : cur env ≠ []) :
    ∃ b' kept, b.stop env = .ok b' ∧ b'.capacity = b.capacity ∧
      b'.current = Function.update cur env [] ∧
      Queue.Sim none b'.episodic kept ∧
      Queue.Sim none b'.memory (kept.flatten.map fun t => [t]) ∧
      Spec.Kept c (eps ++ [cur env]) kept := by
  subst hcur
  unfold EB.stop
  simp only [if_neg hne]
  obtain ⟨ep1, g1, g2⟩ := RAQ.append_spec h1 (b.current env)
  obtain ⟨m1, g3, g4⟩ := appendAll_sim (b.current env) h2
  simp only [Queue.Spec.keep] at g2
  have g4' : Queue.Sim none m1 ((eps ++ [b.current env]).flatten.map fun t => [t]) := by
    simpa using g4
  obtain ⟨ep', mem', kept, k1, k2, k3, k4⟩ := evict_sim c (ep1.len + 1) g2 g4'
    (by rw [sim_len g2]; omega)
  rw [← hcap] at k1
  simp only [g1, g3, k1]
  exact ⟨_, kept, rfl, rfl, rfl, k2, k3, k4⟩

theorem step_sim {b : EB ε π} {c : Option Nat} (hcap : b.capacity = c.map Int.ofNat)
    {past : List (Op ε π)} {eps all : List (List (Tr π))} (h : Sim b past eps)
    (hk : Spec.Kept c all eps) (op : Op ε π) :
    ∃ b' kept new, b.step op = .ok b' ∧ b'.capacity = b.capacity ∧ Sim b' (past ++ [op]) kept ∧
      (episodes (calls op.env (past ++ [op]))).finished
        = (episodes (calls op.env past)).finished ++ new ∧
      Spec.Kept c (all ++ new) kept := by
  obtain ⟨hc, h1, h2⟩ := h
  cases op with
  | append env t =>
    have hcalls : calls env (past ++ [.append env t]) = calls env past ++ [some t] := by
      rw [Replay.calls_append]; simp [calls]
    have hcurE : ∀ e, e ≠ env → calls e (past ++ [.append env t]) = calls e past :=
      fun e he => calls_other (by simpa [Op.env] using fun h => he h.symm)
    simp only [EB.step, EB.append, Op.env]
    rw [hcalls, Replay.episodes_snoc]
    by_cases ht : t.terminal
    · rw [if_pos ht]
      obtain ⟨b', kept, g1, g2, g3, g4, g5, g6⟩ := stop_sim (b :=
        { b with current := Function.update b.current env (b.current env ++ [t]) }) hcap
        rfl h1 h2 env (by simp)
      refine ⟨b', kept, [b.current env ++ [t]], g1, g2, ⟨fun e => ?_, g4, g5⟩, ?_, ?_⟩
      · rw [g3]
        by_cases he : e = env
        · subst he
          rw [hcalls, Replay.episodes_snoc]; simp [Episodes.next, ht]
        · rw [hcurE e he]; simp [Function.update_of_ne he, hc]
      · simp [Episodes.next, ht, hc]
      · refine kept_snoc hk ?_
        simpa using g6
    · rw [if_neg ht]
      refine ⟨_, eps, [], rfl, rfl, ⟨fun e => ?_, h1, h2⟩, ?_, kept_self hk⟩
      · by_cases he : e = env
        · subst he
          rw [hcalls, Replay.episodes_snoc]; simp [Episodes.next, ht, hc]
        · rw [hcurE e he]; simp [Function.update_of_ne he, hc]
      · simp [Episodes.next, ht]
  | stop env =>
    have hcalls : calls env (past ++ [.stop env]) = calls env past ++ [none] := by
      rw [Replay.calls_append]; simp [calls]
    have hcurE : ∀ e, e ≠ env → calls e (past ++ [.stop env]) = calls e past :=
      fun e he => calls_other (by simpa [Op.env] using fun h => he h.symm)
    simp only [EB.step, Op.env]
    by_cases hne : b.current env = []
    · have hs : b.stop env = .ok b := by simp [EB.stop, hne]
      rw [hs]
      have hcn : (episodes (calls env past)).current = [] := by rw [← hc]; exact hne
      refine ⟨b, eps, [], rfl, rfl, ⟨fun e => ?_, h1, h2⟩, ?_, kept_self hk⟩
      · by_cases he : e = env
        · subst he
          rw [hcalls, Replay.episodes_snoc]; simp [Episodes.next, hcn, hc]
        · rw [hcurE e he, hc]
      · rw [hcalls, Replay.episodes_snoc]; simp [Episodes.next, hcn]
    · obtain ⟨b', kept, g1, g2, g3, g4, g5, g6⟩ := stop_sim hcap rfl h1 h2 env hne
      have hcn : (episodes (calls env past)).current ≠ [] := by rw [← hc]; exact hne
      refine ⟨b', kept, [b.current env], g1, g2, ⟨fun e => ?_, g4, g5⟩, ?_, kept_snoc hk g6⟩
      · rw [g3]
        by_cases he : e = env
        · subst he
          rw [hcalls, Replay.episodes_snoc]; simp [Episodes.next, hcn]
        · rw [hcurE e he]; simp [Function.update_of_ne he, hc]
      · rw [hcalls, Replay.episodes_snoc]; simp [Episodes.next, hcn, hc]

theorem run_sim {c : Option Nat} (ops : List (Op ε π)) : ∀ {b : EB ε π} {past : List (Op ε π)}
    {eps all : List (List (Tr π))}, b.capacity = c.map Int.ofNat → Sim b past eps →
    Spec.Kept c all eps →
    ∃ b' kept, b.run ops = .ok b' ∧ b'.capacity = b.capacity ∧ Sim b' (past ++ ops) kept ∧
      Spec.Kept c (all ++ Spec.finished past ops) kept := by
  induction ops with
  | nil =>
    intro b past eps all h1 h2 h3
    exact ⟨b, eps, rfl, rfl, by simpa using h2, by simpa [Spec.finished] using h3⟩
  | cons op ops ih =>
    intro b past eps all h1 h2 h3
    obtain ⟨b1, k1, new, g1, g2, g3, g4, g5⟩ := step_sim h1 h2 h3 op
    obtain ⟨b2, k2, f1, f2, f3, f4⟩ := ih (g2.trans h1) g3 g5
    refine ⟨b2, k2, by simp only [EB.run, g1, f1], f2.trans g2, by simpa using f3, ?_⟩
    simp only [Spec.finished, g4, List.drop_left]
    rw [← List.append_assoc]
    exact f4

theorem new_sim (c : Option Nat) : Sim (EB.new (c.map Int.ofNat) : EB ε π) [] [] :=
  ⟨fun e => by simp [EB.new, calls, episodes], ⟨rfl, rfl, by simp⟩, ⟨rfl, rfl, by simp⟩⟩

theorem kept_nil (c : Option Nat) : Spec.Kept (π := π) c [] [] := by
  refine ⟨[], rfl, ?_⟩
  cases c <;> simp

/-! ## C15 -/

/-- **C15.** For every capacity and every history over any environments: no call fails; the stored
episodes are the longest suffix of all finished episodes, in finishing order, that has at most
`capacity` transitions (so episodes are evicted whole, oldest first, and only as many as needed);
the flat store is the concatenation of the stored episodes, one entry per transition; its length is
at most the capacity. -/
theorem episodic_buffer_invariant (c : Option Nat) (ops : List (Op ε π)) :
    ∃ b : EB ε π, (EB.new (c.map Int.ofNat)).run ops = .ok b ∧
      b.memory.iter = b.episodic.iter.flatten.map (fun t => [t]) ∧
      (∀ m, c = some m → b.memory.len ≤ m) ∧
      Spec.Kept c (Spec.finished [] ops) b.episodic.iter := by
  obtain ⟨b, kept, h1, _, h3, h4⟩ := run_sim (c := c) ops rfl (new_sim c) (kept_nil c)
  refine ⟨b, h1, ?_, ?_, ?_⟩
  · rw [h3.mem.1, h3.ep.1]
  · intro m hm
    subst hm
    rw [sim_len h3.mem]
    obtain ⟨ev, _, h5⟩ := h4
    rw [List.length_map]; exact h5.1
  · rw [h3.ep.1]; simpa using h4

/-- Capacity 4; episodes of lengths 2, 2 and 1 (two environments): the first one is evicted. -/
example : (match (EB.new (some 4) : EB Nat Nat).run [.append 0 ⟨1, false⟩, .append 0 ⟨2, true⟩,
      .append 1 ⟨7, false⟩, .append 0 ⟨3, false⟩, .append 0 ⟨4, true⟩, .stop 1] with
    | .error _ => ([], [])
    | .ok b => (b.episodic.iter.map (List.map Tr.payload), b.memory.iter.map (List.map Tr.payload)))
    = ([[3, 4], [7]], [[3], [4], [7]]) := by decide

/-- The finished episodes of one environment appear in the finishing order log. -/
example : Spec.finished [] [.append 0 ⟨1, false⟩, .append 1 ⟨7, true⟩, .stop 0, .stop 0,
    .append 0 (⟨2, false⟩ : Tr Nat)] = [[⟨7, true⟩], [⟨1, false⟩]] := by decide

/-! ## C16 -/

/-- `s` is a contiguous piece of `l`. -/
def Spec.Piece {α : Type _} (s l : List α) : Prop := ∃ before after, l = before ++ s ++ after

theorem randomSubseq_piece {α : Type _} (ep : List α) (l i : Nat) (hi : i < ep.length - l + 1) :
    Spec.Piece (randomSubseq ep l i) ep ∧ (randomSubseq ep l i).length = min l ep.length := by
  unfold randomSubseq
  split
  · exact ⟨⟨[], [], by simp⟩, by omega⟩
  · refine ⟨⟨ep.take i, ep.drop (i + l), ?_⟩, by simp; omega⟩
    rw [List.append_assoc, ← List.drop_drop, List.take_append_drop, List.take_append_drop]

theorem subseqs_pieces {α : Type _} {rng : Nat → Nat → Nat} (hr : ∀ k m, 0 < m → rng k m < m)
    (l : Nat) : ∀ (eps : List (List α)) (k : Nat),
    List.Forall₂ (fun ep s => Spec.Piece s ep ∧ s.length = min l ep.length) eps
      (subseqs rng l k eps) := by
  intro eps
  induction eps with
  | nil => intro k; exact .nil
  | cons ep eps ih =>
    intro k
    exact .cons (randomSubseq_piece ep l _ (hr k _ (by omega))) (ih (k + 1))

/-- **C16.** `sample_episodes(n, max_len)` with at most as many episodes as stored returns (unless
still drawing when the fuel is used up) one piece of each of `n` episodes at distinct positions;
each piece is contiguous and has length `min(max_len, len(episode))`; without `max_len` the episodes
are returned whole.  With more episodes than stored it raises an assertion error. -/
theorem sample_episodes_pieces {b : EB ε π} (n : Nat) {perm : List Nat} {s : Nat → Nat} {fuel : Nat}
    {rng : Nat → Nat → Nat} (hperm : Sample.IsChoice b.episodic.len n perm)
    (hs : ∀ i, s i < b.episodic.len) (hr : ∀ k m, 0 < m → rng k m < m) (maxLen : Option Nat) :
    (b.episodic.len < n → b.sampleEpisodes perm s fuel rng n maxLen = .error .assertionError) ∧
    (n ≤ b.episodic.len → b.sampleEpisodes perm s fuel rng n maxLen = .error .timeout ∨
      ∃ (ixs : List Nat) (eps out : List (List (Tr π))),
        b.sampleEpisodes perm s fuel rng n maxLen = .ok out ∧ ixs.Nodup ∧ ixs.length = n ∧
        List.Forall₂ (fun i ep => b.episodic.iter[i]? = some ep) ixs eps ∧
        List.Forall₂ (fun ep piece => Spec.Piece piece ep ∧
          piece.length = (match maxLen with | some l => min l ep.length | none => ep.length))
          eps out) := by
  constructor
  · intro h
    unfold EB.sampleEpisodes
    rw [if_neg (by omega)]
  · intro h
    unfold EB.sampleEpisodes
    rw [if_pos h]
    rcases Sample.raq_sample_distinct_positions (fuel := fuel) hperm hs h with h1 | ⟨ixs, eps, h1, h2, h3, h4⟩
    · left; rw [h1]
    · right
      rw [h1]
      cases maxLen with
      | none =>
        refine ⟨ixs, eps, eps, rfl, h2, h3, h4, ?_⟩
        exact List.forall₂_same.2 fun ep _ => ⟨⟨[], [], by simp⟩, rfl⟩
      | some l => exact ⟨ixs, eps, _, rfl, h2, h3, h4, subseqs_pieces hr l eps 0⟩

example : ∃ b : EB Nat Nat, Sample.IsChoice b.episodic.len 1 [1] ∧
    (∀ i, (fun i => i % 2) i < b.episodic.len) ∧
    (∀ k m : Nat, 0 < m → (fun _ m => m - 1) k m < m) ∧
    b.sampleEpisodes [1] (fun i => i % 2) 9 (fun _ m => m - 1) 1 (some 2)
      = .ok [[⟨6, false⟩, ⟨7, true⟩]] :=
  ⟨⟨none, fun _ => [], ⟨none, [], [[⟨4, false⟩], [⟨5, false⟩, ⟨6, false⟩, ⟨7, true⟩]]⟩,
      ⟨none, [], []⟩⟩, ⟨by decide, by decide, by decide⟩, fun i => Nat.mod_lt _ (by decide),
    fun k m h => by simp; omega, by decide⟩

/-- **C14 for episodic buffers.** `sample(k)` returns the transitions at `k` distinct positions of
the flat store. -/
theorem episodic_sample_distinct {b : EB ε π} (k : Nat) {perm : List Nat} {s : Nat → Nat}
    {fuel : Nat} (hperm : Sample.IsChoice b.memory.len k perm) (hs : ∀ i, s i < b.memory.len) :
    (b.memory.len < k → b.sample perm s fuel k = .error .assertionError) ∧
    (k ≤ b.memory.len → b.sample perm s fuel k = .error .timeout ∨
      ∃ (ixs : List Nat) (xs : List (List (Tr π))), b.sample perm s fuel k = .ok xs ∧ ixs.Nodup ∧
        ixs.length = k ∧ List.Forall₂ (fun i x => b.memory.iter[i]? = some x) ixs xs) := by
  constructor
  · intro h; unfold EB.sample; rw [if_neg (by omega)]
  · intro h; unfold EB.sample; rw [if_pos h]
    exact Sample.raq_sample_distinct_positions hperm hs h

/-- **C64 for episodic buffers.** After saving and loading into any fresh buffer, whose capacity is
`c1`, both stores are the saved ones, and further histories behave as if the saved episodes had been
finished first and the capacity were `c1` from then on. -/
theorem episodic_save_load_round_trip (c c1 : Option Nat) (ops ops1 : List (Op ε π)) :
    ∃ b : EB ε π, (EB.new (c.map Int.ofNat)).run ops = .ok b ∧
      ((EB.new (c1.map Int.ofNat) : EB ε π).load b.save).memory.iter = b.memory.iter ∧
      ((EB.new (c1.map Int.ofNat) : EB ε π).load b.save).episodic.iter = b.episodic.iter ∧
      ((∀ m, c1 = some m → b.memory.len ≤ m) →
        ∃ b2, ((EB.new (c1.map Int.ofNat) : EB ε π).load b.save).run ops1 = .ok b2 ∧
          b2.memory.iter = b2.episodic.iter.flatten.map (fun t => [t]) ∧
          Spec.Kept c1 (b.episodic.iter ++ Spec.finished [] ops1) b2.episodic.iter) := by
  obtain ⟨b, kept, h1, _, h3, h4⟩ := run_sim (c := c) ops rfl (new_sim c) (kept_nil c)
  refine ⟨b, h1, rfl, rfl, fun hfit => ?_⟩
  have hsim : Sim ((EB.new (c1.map Int.ofNat) : EB ε π).load b.save) [] kept :=
    ⟨fun e => by simp [EB.load, EB.new, calls, episodes], h3.ep, h3.mem⟩
  have hk : Spec.Kept c1 kept kept := by
    refine ⟨[], rfl, ?_⟩
    cases c1 with
    | none => rfl
    | some m =>
      have := hfit m rfl
      rw [sim_len h3.mem, List.length_map] at this
      exact ⟨this, by simp⟩
  obtain ⟨b2, k2, g1, _, g3, g4⟩ := run_sim (c := c1) ops1 (by rfl) hsim hk
  refine ⟨b2, g1, by rw [g3.mem.1, g3.ep.1], ?_⟩
  rw [g3.ep.1, h3.ep.1]; exact g4

example : ∀ m, (some 4 : Option Nat) = some m →
    ((EB.new (some 9) : EB Nat Nat).memory).len ≤ m := by intro m _; exact Nat.zero_le m

end Pfrl.Episodic
