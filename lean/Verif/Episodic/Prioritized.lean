import Verif.Episodic.Props
import Mathlib.Tactic.Ring
import Mathlib.Tactic.Linarith

/-!
# Properties of the prioritized episodic replay buffer (C17)
-/

set_option linter.unusedSectionVars false

namespace Pfrl.Episodic

open Pfrl.Replay (Tr Op)
open Pfrl.Replay.Spec (calls episodes Episodes)
open Queue (RAQ)
open Queue.Spec (keep)
open PBuf (PB Rnd)

variable {ε π V : Type _} [DecidableEq ε] [Field V] [LinearOrder V]

/-- The calls of a history that store data. -/
def Spec.storing : List (POp ε π V) → List (Op ε π)
  | [] => []
  | .append e t :: ops => .append e t :: Spec.storing ops
  | .stop e :: ops => .stop e :: Spec.storing ops
  | _ :: ops => Spec.storing ops

/-! ## Effect of the buffer operations on the stored items -/

section
variable {T : Type _}

theorem popleft_data {b b' : PB T V} {x : T} (h : b.popleft = .ok (b', x)) :
    b.data = x :: b'.data ∧ b'.capacity = b.capacity := by
  unfold PB.popleft at h
  split at h
  · cases h
  · split at h
    · cases h
    · split at h
      · cases h
      · split at h
        · cases h
        · rename_i hd; cases h; exact ⟨hd, rfl⟩

theorem append_data {b b' : PB T V} {x : T} {p : Option V} (hc : b.capacity = none)
    (h : b.append x p = .ok b') : b'.data = b.data ++ [x] ∧ b'.capacity = none := by
  unfold PB.append at h
  simp only [hc] at h
  split at h
  · cases h
  · split at h
    · cases h
    · cases h; exact ⟨rfl, rfl⟩

theorem sample_data {b b' : PB T V} {n : Int} {ratio : V} {r : Rnd V} {xs : List T} {ps : List V}
    {mp : V} (h : b.sample n ratio r = .ok (b', xs, ps, mp)) :
    b'.data = b.data ∧ b'.capacity = b.capacity := by
  unfold PB.sample at h
  split at h
  · cases h
  · split at h
    · cases h
    · rename_i b1 _ _ _ hs
      have hd : b1.data = b.data ∧ b1.capacity = b.capacity := by
        unfold PB.sampleIndices at hs
        split at hs
        · cases hs
        · split at hs
          · cases hs
          · cases hs
          · split at hs
            · cases hs
            · dsimp only at hs
              split at hs
              · cases hs
              · split at hs
                · cases hs
                · cases hs; exact ⟨rfl, rfl⟩
      split at h
      · cases h
      · cases h; exact hd

theorem setLoop_data (l : List (Nat × V)) : ∀ {b b' : PB T V}, PBuf.setLoop b l = .ok b' →
    b'.data = b.data ∧ b'.capacity = b.capacity := by
  induction l with
  | nil => intro b b' h; cases h; exact ⟨rfl, rfl⟩
  | cons q l ih =>
    intro b b' h
    obtain ⟨i, p⟩ := q
    unfold PBuf.setLoop at h
    split at h
    · cases h
    · split at h
      · cases h
      · have := ih h; exact this

theorem setLast_data {b b' : PB T V} {ps : List V} (h : b.setLastPriority ps = .ok b') :
    b'.data = b.data ∧ b'.capacity = b.capacity := by
  unfold PB.setLastPriority at h
  split at h
  · cases h
  · split at h
    · cases h
    · split at h
      · cases h
      · split at h
        · cases h
        · split at h
          · cases h
          · rename_i hl; cases h; exact (setLoop_data _ hl :)

end

/-! ## Invariant -/

/-- Relation between a buffer object and the history. -/
structure PSim (c : Nat) (b : PEB ε π V) (past : List (Op ε π)) (all : List (List (Tr π))) :
    Prop where
  cur : ∀ e, b.current e = (episodes (calls e past)).current
  cap : b.episodic.capacity = none
  mem : Queue.Sim (some c) b.memory (keep (some c) all.flatten)
  left : b.capacityLeft = some ((c : Int) - b.episodic.data.flatten.length)
  kept : Spec.Kept (some c) all b.episodic.data

theorem pevict_spec {c : Nat} : ∀ (fuel : Nat) {l : Int} {ep ep' : PB (List (Tr π)) V}
    {l' : Option Int}, ep.capacity = none → l = (c : Int) - ep.data.flatten.length →
    pevict fuel (some l) ep = .ok (l', ep') →
    ep'.capacity = none ∧ l' = some ((c : Int) - ep'.data.flatten.length) ∧
      Spec.Kept (some c) ep.data ep'.data := by
  intro fuel
  induction fuel with
  | zero =>
    intro l ep ep' l' hc hl h
    unfold pevict at h
    split at h
    · cases h
    · cases h
      refine ⟨hc, by rw [hl], [], rfl, ?_, by simp⟩
      omega
  | succ fuel ih =>
    intro l ep ep' l' hc hl h
    unfold pevict at h
    split at h
    · rename_i hneg
      split at h
      · cases h
      · rename_i ep1 d hp
        obtain ⟨h1, h2⟩ := popleft_data hp
        have hl1 : l + d.length = (c : Int) - ep1.data.flatten.length := by
          rw [hl, h1]; push_cast [List.flatten_cons, List.length_append]; ring
        obtain ⟨g1, g2, ev, g3, g4⟩ := ih (h2.trans hc) hl1 h
        refine ⟨g1, g2, d :: ev, by rw [h1, g3]; rfl, g4.1, ?_⟩
        intro last hlast
        cases hev : ev with
        | nil =>
          rw [hev] at hlast g3
          simp only [List.getLast?_singleton, Option.some.injEq] at hlast
          subst hlast
          rw [List.nil_append] at g3
          rw [← g3]
          rw [hl, h1] at hneg
          rw [List.flatten_cons, List.length_append] at hneg
          rw [List.length_append]
          push_cast at hneg
          omega
        | cons a t =>
          rw [hev] at hlast
          apply g4.2 last
          rw [hev]
          simpa [List.getLast?_cons_cons] using hlast
    · cases h
      refine ⟨hc, by rw [hl], [], rfl, ?_, by simp⟩
      omega

theorem pstop_spec {c : Nat} {b b' : PEB ε π V} {all : List (List (Tr π))} {env : ε}
    (hcap : b.episodic.capacity = none)
    (hmem : Queue.Sim (some c) b.memory (keep (some c) all.flatten))
    (hleft : b.capacityLeft = some ((c : Int) - b.episodic.data.flatten.length))
    (hkept : Spec.Kept (some c) all b.episodic.data) (hne : b.current env ≠ [])
    (h : b.stop env = .ok b') :
    b'.current = Function.update b.current env [] ∧ b'.episodic.capacity = none ∧
    Queue.Sim (some c) b'.memory (keep (some c) (all ++ [b.current env]).flatten) ∧
    b'.capacityLeft = some ((c : Int) - b'.episodic.data.flatten.length) ∧
    Spec.Kept (some c) (all ++ [b.current env]) b'.episodic.data := by
  unfold PEB.stop at h
  simp only [if_neg hne] at h
  obtain ⟨m1, e1, e2⟩ := RAQ.extend_spec hmem (b.current env)
  rw [Queue.keep_append_keep] at e2
  rw [e1] at h
  simp only at h
  split at h
  · cases h
  · rename_i ep1 ha
    obtain ⟨a1, a2⟩ := append_data hcap ha
    split at h
    · cases h
    · rename_i l2 ep2 hev
      cases h
      rw [hleft] at hev
      obtain ⟨g1, g2, g3⟩ := pevict_spec (c := c) _ a2 (by
        rw [a1, List.flatten_append, List.length_append]
        simp only [List.flatten_cons, List.flatten_nil, List.append_nil]
        push_cast; ring) hev
      rw [a1] at g3
      exact ⟨rfl, g1, by simpa using e2, g2, kept_snoc hkept g3⟩

theorem pstep_spec {c : Nat} {b b' : PEB ε π V} {past : List (Op ε π)} {all : List (List (Tr π))}
    (h : PSim c b past all) (op : POp ε π V) (hs : b.step op = .ok b') :
    PSim c b' (past ++ Spec.storing [op]) (all ++ Spec.finished past (Spec.storing [op])) := by
  obtain ⟨hc, hcap, hmem, hleft, hkept⟩ := h
  cases op with
  | append env t =>
    have hcalls : calls env (past ++ [.append env t]) = calls env past ++ [some t] := by
      rw [Replay.calls_append]; simp [calls]
    have hcurE : ∀ e, e ≠ env → calls e (past ++ [.append env t]) = calls e past :=
      fun e he => calls_other (by simpa [Op.env] using fun h => he h.symm)
    simp only [PEB.step, PEB.append] at hs
    simp only [Spec.storing, Spec.finished, Op.env, List.append_nil]
    rw [hcalls, Replay.episodes_snoc]
    by_cases ht : t.terminal
    · rw [if_pos ht] at hs
      obtain ⟨g1, g2, g3, g4, g5⟩ := pstop_spec (b :=
        { b with current := Function.update b.current env (b.current env ++ [t]) })
        hcap hmem hleft hkept (by simp) hs
      have hfin : ((episodes (calls env past)).next (some t)).finished.drop
          (episodes (calls env past)).finished.length = [b.current env ++ [t]] := by
        simp [Episodes.next, ht, hc]
      rw [hfin]
      refine ⟨fun e => ?_, g2, by simpa using g3, g4, by simpa using g5⟩
      rw [g1]
      by_cases he : e = env
      · subst he
        rw [hcalls, Replay.episodes_snoc]; simp [Episodes.next, ht]
      · rw [hcurE e he]; simp [Function.update_of_ne he, hc]
    · rw [if_neg ht] at hs
      cases hs
      have hfin : ((episodes (calls env past)).next (some t)).finished.drop
          (episodes (calls env past)).finished.length = [] := by
        simp [Episodes.next, ht]
      rw [hfin, List.append_nil]
      refine ⟨fun e => ?_, hcap, hmem, hleft, hkept⟩
      by_cases he : e = env
      · subst he
        rw [hcalls, Replay.episodes_snoc]; simp [Episodes.next, ht, hc]
      · rw [hcurE e he]; simp [Function.update_of_ne he, hc]
  | stop env =>
    have hcalls : calls env (past ++ [.stop env]) = calls env past ++ [none] := by
      rw [Replay.calls_append]; simp [calls]
    have hcurE : ∀ e, e ≠ env → calls e (past ++ [.stop env]) = calls e past :=
      fun e he => calls_other (by simpa [Op.env] using fun h => he h.symm)
    simp only [PEB.step] at hs
    simp only [Spec.storing, Spec.finished, Op.env, List.append_nil]
    rw [hcalls, Replay.episodes_snoc]
    by_cases hne : b.current env = []
    · have hs' : b.stop env = .ok b := by simp [PEB.stop, hne]
      rw [hs'] at hs; cases hs
      have hcn : (episodes (calls env past)).current = [] := by rw [← hc]; exact hne
      have hfin : ((episodes (calls env past)).next none).finished.drop
          (episodes (calls env past)).finished.length = [] := by
        simp [Episodes.next, hcn]
      rw [hfin, List.append_nil]
      refine ⟨fun e => ?_, hcap, hmem, hleft, hkept⟩
      by_cases he : e = env
      · subst he
        rw [hcalls, Replay.episodes_snoc]; simp [Episodes.next, hcn, hc]
      · rw [hcurE e he, hc]
    · obtain ⟨g1, g2, g3, g4, g5⟩ := pstop_spec hcap hmem hleft hkept hne hs
      have hcn : (episodes (calls env past)).current ≠ [] := by rw [← hc]; exact hne
      have hfin : ((episodes (calls env past)).next none).finished.drop
          (episodes (calls env past)).finished.length = [b.current env] := by
        simp [Episodes.next, hcn, hc]
      rw [hfin]
      refine ⟨fun e => ?_, g2, g3, g4, g5⟩
      rw [g1]
      by_cases he : e = env
      · subst he
        rw [hcalls, Replay.episodes_snoc]; simp [Episodes.next, hcn]
      · rw [hcurE e he]; simp [Function.update_of_ne he, hc]
  | sample rng r n l =>
    simp only [Spec.storing, Spec.finished, List.append_nil]
    simp only [PEB.step, PEB.sampleEpisodes] at hs
    split at hs
    · cases hsm : b.episodic.sample n b.uniformRatio r with
      | error e => rw [hsm] at hs; cases hs
      | ok q =>
        obtain ⟨ep, eps, ps, mp⟩ := q
        obtain ⟨d1, d2⟩ := sample_data hsm
        rw [hsm] at hs
        cases l <;> cases hs <;>
          exact ⟨hc, d2.trans hcap, hmem, by rw [d1]; exact hleft, by rw [d1]; exact hkept⟩
    · cases hs
  | update ps =>
    simp only [Spec.storing, Spec.finished, List.append_nil]
    simp only [PEB.step, PEB.updateErrors] at hs
    cases hsm : b.episodic.setLastPriority ps with
    | error e => rw [hsm] at hs; cases hs
    | ok ep =>
      obtain ⟨d1, d2⟩ := setLast_data hsm
      rw [hsm] at hs
      cases hs
      exact ⟨hc, d2.trans hcap, hmem, by rw [d1]; exact hleft, by rw [d1]; exact hkept⟩

theorem finished_append (a b : List (Op ε π)) : ∀ past : List (Op ε π),
    Spec.finished past (a ++ b) = Spec.finished past a ++ Spec.finished (past ++ a) b := by
  induction a with
  | nil => intro past; simp [Spec.finished]
  | cons op a ih =>
    intro past
    simp only [List.cons_append, Spec.finished]
    rw [ih, List.append_assoc, List.append_assoc, List.singleton_append]

theorem storing_cons (op : POp ε π V) (ops : List (POp ε π V)) :
    Spec.storing (op :: ops) = Spec.storing [op] ++ Spec.storing ops := by
  cases op <;> rfl

theorem prun_spec {c : Nat} (ops : List (POp ε π V)) : ∀ {b b' : PEB ε π V}
    {past : List (Op ε π)} {all : List (List (Tr π))}, PSim c b past all → b.run ops = .ok b' →
    PSim c b' (past ++ Spec.storing ops) (all ++ Spec.finished past (Spec.storing ops)) := by
  induction ops with
  | nil =>
    intro b b' past all h hr
    cases hr
    simpa [Spec.storing, Spec.finished] using h
  | cons op ops ih =>
    intro b b' past all h hr
    unfold PEB.run at hr
    cases hs : b.step op with
    | error e => rw [hs] at hr; cases hr
    | ok b1 =>
      rw [hs] at hr
      have := ih (pstep_spec h op hs) hr
      rw [storing_cons, finished_append]
      simpa using this

theorem pnew_sim (c : Nat) (dp : Option (List (Tr π) → V)) (ur : V) (w : Bool) {b : PEB ε π V}
    (h : PEB.new (some (c : Int)) dp ur w = .ok b) : PSim c b [] [] := by
  unfold PEB.new at h
  obtain ⟨m, h1, h2⟩ := RAQ.new_sim (some c) ([] : List (Tr π))
  simp only [Option.map_some] at h1
  have h1' : RAQ.new (some (c : Int)) ([] : List (Tr π)) = .ok m := h1
  rw [h1'] at h
  cases h
  refine ⟨fun e => by simp [calls, episodes], rfl, by simpa using h2, by simp [PB.new], ?_⟩
  exact kept_nil _

/-! ## C17 -/

/-- **C17 (partial).** For every capacity and every successful history of appends, episode ends,
samples and priority updates: the remaining capacity equals the capacity minus the number of
transitions in stored episodes and is never negative; the stored episodes are the longest suffix of
the finished ones that fits; the transition store holds the newest `c` transitions of all finished
episodes, which include, at its end and in order, all transitions of the stored episodes.

Missing from the full statement: the transition store holds *exactly* the transitions of stored
episodes.  That is false of the code, see `prioritized_episodic_store_mismatch`. -/
theorem prioritized_episodic_consistent_partial {c : Nat} {dp : Option (List (Tr π) → V)} {ur : V}
    {w : Bool} {b0 b : PEB ε π V} (h0 : PEB.new (some (c : Int)) dp ur w = .ok b0)
    {ops : List (POp ε π V)} (hr : b0.run ops = .ok b) :
    (∃ left : Int, b.capacityLeft = some left ∧ 0 ≤ left ∧
      left + (b.episodic.data.flatten.length : Int) = c) ∧
    Spec.Kept (some c) (Spec.finished [] (Spec.storing ops)) b.episodic.data ∧
    b.memory.iter = keep (some c) (Spec.finished [] (Spec.storing ops)).flatten ∧
    ∃ orphans, b.memory.iter = orphans ++ b.episodic.data.flatten := by
  have h := prun_spec ops (pnew_sim c dp ur w h0) hr
  simp only [List.nil_append] at h
  obtain ⟨ev, k1, k2⟩ := h.kept
  refine ⟨⟨_, h.left, ?_, by ring⟩, ⟨ev, k1, k2⟩, h.mem.1, ?_⟩
  · have := k2.1
    have : (b.episodic.data.flatten.length : Int) ≤ c := by exact_mod_cast this
    linarith
  · rw [h.mem.1, k1, List.flatten_append]
    simp only [keep, Queue.Spec.newest]
    rw [List.drop_append_of_le_length]
    · exact ⟨_, rfl⟩
    · have := k2.1
      rw [List.length_append]; omega

/-- A successful history with a sample and its update. -/
example : ∃ b0 : PEB Nat Nat ℚ, PEB.new (some 3) none 0 true = .ok b0 ∧
    (b0.run [.append 0 ⟨1, false⟩, .append 0 ⟨2, true⟩, .sample (fun _ _ => 0) PBuf.midRnd 1 none,
        .update [3], .append 0 ⟨3, true⟩]).map (fun b => (b.episodic.data, b.capacityLeft))
      = .ok ([[⟨1, false⟩, ⟨2, true⟩], [⟨3, true⟩]], some 0) :=
  ⟨_, rfl, by decide +kernel⟩

/-- **C17 is violated.** Capacity 3, two episodes of two transitions: the first episode is evicted
as a whole, but its second transition stays in the transition store. -/
theorem prioritized_episodic_store_mismatch :
    ∃ (b0 b : PEB Nat Nat ℚ), PEB.new (some 3) none 0 true = .ok b0 ∧
      b0.run [.append 0 ⟨1, false⟩, .append 0 ⟨2, true⟩, .append 0 ⟨3, false⟩,
        .append 0 ⟨4, true⟩] = .ok b ∧
      b.episodic.data.flatten.map Tr.payload = [3, 4] ∧
      b.memory.iter.map Tr.payload = [2, 3, 4] := by
  have h : ((⟨fun _ => [], PB.new none true 1, ⟨some 3, [], []⟩, some 3, none, 0⟩ :
      PEB Nat Nat ℚ).run [.append 0 ⟨1, false⟩, .append 0 ⟨2, true⟩, .append 0 ⟨3, false⟩,
        .append 0 ⟨4, true⟩]).map (fun b => (b.episodic.data.flatten.map Tr.payload,
          b.memory.iter.map Tr.payload)) = .ok ([3, 4], [2, 3, 4]) := by decide +kernel
  obtain ⟨b, h1, h2⟩ := ok_of_map h
  rw [Prod.mk.injEq] at h2
  exact ⟨_, b, rfl, h1, h2⟩

/-! ### Histories without sampling never fail -/

section
variable [IsStrictOrderedRing V]

theorem pevict_ok (fuel : Nat) : ∀ {l : Option Int} {ep : PB (List (Tr π)) V}
    {s : PBuf.Spec.St (List (Tr π)) V}, PBuf.Sim ep s → s.waiting = false → s.cap = none →
    (∀ c, l = some c → 0 ≤ c + ep.data.flatten.length) → ep.data.length < fuel →
    ∃ l' ep' s', pevict fuel l ep = .ok (l', ep') ∧ PBuf.Sim ep' s' ∧ s'.waiting = false ∧
      s'.cap = none := by
  induction fuel with
  | zero => intro l ep s _ _ _ _ h; omega
  | succ fuel ih =>
    intro l ep s h hw hcap hl hf
    cases l with
    | none => exact ⟨none, ep, s, by simp [pevict], h, hw, hcap⟩
    | some c =>
      simp only [pevict]
      by_cases hc : c < 0
      · rw [if_pos hc]
        have hne : s.entries ≠ [] := by
          intro he
          have := hl c rfl
          rw [h.data, he] at this
          simp at this; omega
        obtain ⟨b1, out, s1, g1, g2, g3⟩ := PBuf.step_sim h .popleft ⟨hne, hw⟩
        cases hp : ep.popleft with
        | error er => simp only [PB.step, hp] at g1; cases g1
        | ok q =>
          obtain ⟨ep1, d⟩ := q
          simp only [PB.step, hp] at g1
          cases g1
          have hd := popleft_data hp
          have hs1 : s1.waiting = s.waiting ∧ s1.cap = s.cap := by cases g2; exact ⟨rfl, rfl⟩
          simp only
          obtain ⟨l', ep', s', k1, k2, k3, k4⟩ := ih (l := some (c + d.length)) g3
            (hs1.1.trans hw) (hs1.2.trans hcap) (by
            intro c' hc'
            cases hc'
            have := hl c rfl
            rw [hd.1, List.flatten_cons, List.length_append] at this
            push_cast at this ⊢; omega) (by rw [hd.1] at hf; simp at hf; omega)
          exact ⟨l', ep', s', k1, k2, k3, k4⟩
      · rw [if_neg hc]
        exact ⟨some c, ep, s, rfl, h, hw, hcap⟩

theorem pstop_ok {c : Nat} {b : PEB ε π V} {past : List (Op ε π)} {all : List (List (Tr π))}
    {cur : ε → List (Tr π)}
    (hp : PSim c { b with current := cur } past all) {s : PBuf.Spec.St (List (Tr π)) V}
    (h : PBuf.Sim b.episodic s) (hw : s.waiting = false) (hcap : s.cap = none)
    (hdp : ∀ f, b.defaultPriority = some f → ∀ ep, 0 < f ep) (env : ε) :
    ∃ b' s', b.stop env = .ok b' ∧ PBuf.Sim b'.episodic s' ∧ s'.waiting = false ∧ s'.cap = none ∧
      b'.defaultPriority = b.defaultPriority := by
  unfold PEB.stop
  by_cases hne : b.current env = []
  · simp only [if_pos hne]
    exact ⟨b, s, rfl, h, hw, hcap, rfl⟩
  · simp only [if_neg hne]
    obtain ⟨m1, e1, _⟩ := RAQ.extend_spec hp.mem (b.current env)
    have e1' : b.memory.extend (b.current env) = .ok m1 := e1
    rw [e1']
    obtain ⟨b1, out, s1, g1, g2, g3⟩ := PBuf.step_sim h
      (.append (b.current env) (b.defaultPriority.map fun f => f (b.current env)))
      ⟨by
        intro v hv
        cases hd : b.defaultPriority with
        | none => rw [hd] at hv; cases hv
        | some f => rw [hd] at hv; cases hv; exact hdp f hd _, by simp [hw]⟩
    cases ha : b.episodic.append (b.current env) (b.defaultPriority.map fun f => f (b.current env)) with
    | error er => simp only [PB.step, ha] at g1; cases g1
    | ok ep1 =>
      simp only [PB.step, ha] at g1
      cases g1
      cases g2
      obtain ⟨d1, d2⟩ := append_data hp.cap ha
      simp only
      obtain ⟨l', ep', s', k1, k2, k3, k4⟩ := pevict_ok (b1.data.length + 1)
        (l := b.capacityLeft.map fun c => c - (b.current env).length) g3 hw hcap (by
          intro c' hc'
          have hl : b.capacityLeft = some ((c : Int) - b.episodic.data.flatten.length) := hp.left
          rw [hl] at hc'
          cases hc'
          rw [d1]
          push_cast [List.flatten_append, List.length_append, List.flatten_cons, List.flatten_nil,
            List.append_nil]
          omega) (by omega)
      simp only [k1]
      exact ⟨_, s', rfl, k2, k3, k4, rfl⟩

/-- **C17 (no failure).** If the default priority function (if any) is positive, no history of
appends and episode ends raises: the eviction loop always finds an episode to drop. -/
theorem prioritized_episodic_never_fails {c : Nat} {dp : Option (List (Tr π) → V)} {ur : V}
    {w : Bool} (hdp : ∀ f, dp = some f → ∀ ep, 0 < f ep) (ops : List (Op ε π)) :
    ∃ b0 b : PEB ε π V, PEB.new (some (c : Int)) dp ur w = .ok b0 ∧
      b0.run (ops.map fun
        | .append e t => .append e t
        | .stop e => .stop e) = .ok b := by
  obtain ⟨m, h1, h2⟩ := RAQ.new_sim (some c) ([] : List (Tr π))
  have h1' : RAQ.new (some (c : Int)) ([] : List (Tr π)) = .ok m := h1
  have hnew : PEB.new (some (c : Int)) dp ur w
      = .ok (⟨fun _ => [], PB.new none w 1, m, some (c : Int), dp, ur⟩ : PEB ε π V) := by
    simp only [PEB.new, h1']
  have hsim := pnew_sim c dp ur w hnew
  have hpb : PBuf.Sim (PB.new none w 1 : PB (List (Tr π)) V) (PBuf.Spec.St.init none w 1) :=
    PBuf.new_sim (by simp) w one_pos
  suffices H : ∀ (ops : List (Op ε π)) (b : PEB ε π V) (past : List (Op ε π))
      (all : List (List (Tr π))) (s : PBuf.Spec.St (List (Tr π)) V), PSim c b past all →
      PBuf.Sim b.episodic s → s.waiting = false → s.cap = none → b.defaultPriority = dp →
      ∃ b', b.run (ops.map fun
        | .append e t => .append e t
        | .stop e => .stop e) = .ok b' by
    obtain ⟨b, hb⟩ := H ops _ [] [] _ hsim hpb rfl rfl rfl
    exact ⟨_, b, hnew, hb⟩
  intro ops
  induction ops with
  | nil => intro b past all s _ _ _ _ _; exact ⟨b, rfl⟩
  | cons op ops ih =>
    intro b past all s g1 g2 g3 g4 g5
    have hstep : ∃ (pop : POp ε π V) (b1 : PEB ε π V) (s1 : PBuf.Spec.St (List (Tr π)) V),
        (match op with | .append e t => POp.append e t | .stop e => .stop e) = pop ∧
        b.step pop = .ok b1 ∧ PBuf.Sim b1.episodic s1 ∧ s1.waiting = false ∧ s1.cap = none ∧
        b1.defaultPriority = dp := by
      cases op with
      | append e t =>
        refine ⟨.append e t, ?_⟩
        simp only [PEB.step, PEB.append]
        by_cases ht : t.terminal
        · simp only [if_pos ht]
          obtain ⟨b', s', k1, k2, k3, k4, k5⟩ := pstop_ok (b := { b with
              current := Function.update b.current e (b.current e ++ [t]) }) (cur := b.current)
            (past := past) (all := all) g1 g2 g3 g4 (by simpa [g5] using hdp) e
          exact ⟨b', s', trivial, k1, k2, k3, k4, k5.trans g5⟩
        · simp only [if_neg ht]
          exact ⟨_, s, trivial, rfl, g2, g3, g4, g5⟩
      | stop e =>
        obtain ⟨b', s', k1, k2, k3, k4, k5⟩ := pstop_ok (cur := b.current) (past := past)
          (all := all) g1 g2 g3 g4 (by simpa [g5] using hdp) e
        exact ⟨.stop e, b', s', rfl, k1, k2, k3, k4, k5.trans g5⟩
    obtain ⟨pop, b1, s1, k0, k1, k2, k3, k4, k5⟩ := hstep
    obtain ⟨b', hb'⟩ := ih b1 _ _ s1 (pstep_spec g1 pop k1) k2 k3 k4 k5
    refine ⟨b', ?_⟩
    simp only [List.map_cons]
    rw [k0]
    simp only [PEB.run, k1]
    exact hb'

/-! ### Learning rounds -/

/-- What a round of `sample_episodes` and `update_errors` needs: enough episodes, random numbers within the ranges of their
generators, and one positive priority per sampled episode. -/
structure Spec.CanLearn (b : PEB ε π V) (rng : Nat → Nat → Nat) (r : Rnd V) (n : Nat) (ps : List V) : Prop where
  nonempty : b.episodic.data ≠ []
  enough : n ≤ b.episodic.data.length
  range : ∀ k m, 0 < m → rng k m < m
  uniform : Tree.Spec.UniformRng r.rng
  mixed : 0 < b.uniformRatio → r.nUniform ≤ n ∧ Sample.IsChoice b.episodic.data.length r.nUniform r.perm ∧
    (∀ i, r.s i < b.episodic.data.length) ∧
    ∃ us, Sample.sampleNK r.perm r.s r.fuel b.episodic.data.length r.nUniform = .ok us
  length : ps.length = n
  pos : ∀ p ∈ ps, 0 < p

/-- Buffers that occur when episodes are stored and, in between, learning rounds take place. -/
inductive Spec.Reached (c : Nat) (dp : Option (List (Tr π) → V)) (ur : V) (w : Bool) : PEB ε π V → Prop
  | new {b : PEB ε π V} : PEB.new (some (c : Int)) dp ur w = .ok b → Spec.Reached c dp ur w b
  | append {b b' : PEB ε π V} (e : ε) (t : Tr π) : Spec.Reached c dp ur w b → b.append e t = .ok b' → Spec.Reached c dp ur w b'
  | stop {b b' : PEB ε π V} (e : ε) : Spec.Reached c dp ur w b → b.stop e = .ok b' → Spec.Reached c dp ur w b'
  | learn {b b1 b2 : PEB ε π V} {rng : Nat → Nat → Nat} {r : Rnd V} {n : Nat} {ps : List V} (l : Option Nat)
      {out : List (List (Tr π))} : Spec.Reached c dp ur w b → Spec.CanLearn b rng r n ps →
      b.sampleEpisodes rng r n l = .ok (b1, out) → b1.updateErrors ps = .ok b2 → Spec.Reached c dp ur w b2

/-- One learning round, from a buffer that corresponds to the state `s`. -/
theorem learn_sim {b : PEB ε π V} {s : PBuf.Spec.St (List (Tr π)) V} (h : PBuf.Sim b.episodic s) (hw : s.waiting = false)
    {rng : Nat → Nat → Nat} {r : Rnd V} {n : Nat} {ps : List V} (hl : Spec.CanLearn b rng r n ps) (l : Option Nat) :
    ∃ (s1 s2 : PBuf.Spec.St (List (Tr π)) V) (ep1 ep2 : PB (List (Tr π)) V) (eps out : List (List (Tr π))) (probs : List V) (mn : V),
      b.sampleEpisodes rng r n l = .ok ({ b with episodic := ep1 }, out) ∧
      ({ b with episodic := ep1 } : PEB ε π V).updateErrors ps = .ok { b with episodic := ep2 } ∧
      PBuf.Spec.Step s (.sample n b.uniformRatio r) (.batch eps probs mn) s1 ∧
      List.Forall₂ (fun ep piece => Spec.Piece piece ep ∧
          piece.length = (match l with | some l => min l ep.length | none => ep.length)) eps out ∧
      PBuf.Spec.Step s1 (.setLast ps) .none s2 ∧ PBuf.Sim ep2 s2 ∧ s2.waiting = false ∧ s2.cap = s.cap := by
  have hd : b.episodic.data.length = s.entries.length := by rw [h.data]; simp
  obtain ⟨b1, out, s1, g1, g2, g3⟩ := PBuf.step_sim h (.sample n b.uniformRatio r) ⟨fun _ => hw, by
      intro he
      exact hl.nonempty (by rw [h.data, he]; rfl), by rw [← hd]; exact hl.enough, hl.uniform, by rw [← hd]; exact hl.mixed⟩
  cases hs : b.episodic.sample n b.uniformRatio r with
  | error e => simp only [PB.step, hs] at g1; cases g1
  | ok q =>
    obtain ⟨ep1, eps, probs, mn⟩ := q
    simp only [PB.step, hs] at g1
    cases g1
    have hs1 : s1.waiting = true ∧ s1.cap = s.cap ∧ ∃ is, s1.sampled = some is ∧ is.length = n := by
      cases g2
      exact ⟨rfl, rfl, _, rfl, by rw [List.length_append]; assumption⟩
    obtain ⟨is, i1, i2⟩ := hs1.2.2
    obtain ⟨b2, out2, s2, k1, k2, k3⟩ := PBuf.step_sim g3 (.setLast ps) ⟨fun _ => hs1.1, hl.pos, is, i1, by rw [i2, hl.length]⟩
    cases hu : ep1.setLastPriority ps with
    | error e => simp only [PB.step, hu, Except.map] at k1; cases k1
    | ok ep2 =>
      simp only [PB.step, hu, Except.map] at k1
      cases k1
      have hs2 : s2.waiting = false ∧ s2.cap = s1.cap := by cases k2; exact ⟨rfl, rfl⟩
      have hsub : ∃ out', b.sampleEpisodes rng r n l = .ok ({ b with episodic := ep1 }, out') ∧
          List.Forall₂ (fun ep piece => Spec.Piece piece ep ∧
            piece.length = (match l with | some l => min l ep.length | none => ep.length)) eps out' := by
        unfold PEB.sampleEpisodes
        rw [if_pos hl.enough, hs]
        cases l with
        | none => exact ⟨eps, rfl, List.forall₂_same.2 fun ep _ => ⟨⟨[], [], by simp⟩, rfl⟩⟩
        | some l => exact ⟨_, rfl, subseqs_pieces hl.range l eps 0⟩
      obtain ⟨out', o1, o2⟩ := hsub
      refine ⟨s1, s2, ep1, b2, eps, out', probs, mn, o1, ?_, g2, o2, k2, k3, hs2.1, hs2.2.trans hs1.2.1⟩
      simp only [PEB.updateErrors, hu, Except.map]

theorem reached_sim {c : Nat} {dp : Option (List (Tr π) → V)} {ur : V} {w : Bool} (hdp : ∀ f, dp = some f → ∀ ep, 0 < f ep)
    {b : PEB ε π V} (hb : Spec.Reached c dp ur w b) :
    (∃ past all, PSim c b past all) ∧ b.defaultPriority = dp ∧
      ∃ s, PBuf.Sim b.episodic s ∧ s.waiting = false ∧ s.cap = none := by
  induction hb with
  | @new b h =>
    obtain ⟨m, h1, h2⟩ := RAQ.new_sim (some c) ([] : List (Tr π))
    have h1' : RAQ.new (some (c : Int)) ([] : List (Tr π)) = .ok m := h1
    have hnew : PEB.new (some (c : Int)) dp ur w
        = .ok (⟨fun _ => [], PB.new none w 1, m, some (c : Int), dp, ur⟩ : PEB ε π V) := by
      simp only [PEB.new, h1']
    refine ⟨⟨[], [], pnew_sim c dp ur w h⟩, ?_⟩
    rw [hnew] at h
    cases h
    exact ⟨rfl, _, PBuf.new_sim (by simp) w one_pos, rfl, rfl⟩
  | @append b b' e t _ h ih =>
    obtain ⟨⟨past, all, g1⟩, g5, s, g2, g3, g4⟩ := ih
    refine ⟨⟨_, _, pstep_spec g1 (.append e t) h⟩, ?_⟩
    unfold PEB.append at h
    by_cases ht : t.terminal
    · simp only [if_pos ht] at h
      obtain ⟨b1, s', k1, k2, k3, k4, k5⟩ := pstop_ok (b := { b with
          current := Function.update b.current e (b.current e ++ [t]) }) (cur := b.current)
        (past := past) (all := all) g1 g2 g3 g4 (by simpa [g5] using hdp) e
      rw [k1] at h
      cases h
      exact ⟨k5.trans g5, s', k2, k3, k4⟩
    · simp only [if_neg ht] at h
      cases h
      exact ⟨g5, s, g2, g3, g4⟩
  | @stop b b' e _ h ih =>
    obtain ⟨⟨past, all, g1⟩, g5, s, g2, g3, g4⟩ := ih
    refine ⟨⟨_, _, pstep_spec g1 (.stop e) h⟩, ?_⟩
    obtain ⟨b1, s', k1, k2, k3, k4, k5⟩ := pstop_ok (cur := b.current) (past := past)
      (all := all) g1 g2 g3 g4 (by simpa [g5] using hdp) e
    rw [k1] at h
    cases h
    exact ⟨k5.trans g5, s', k2, k3, k4⟩
  | @learn b b1 b2 rng r n ps l out _ hl hs hu ih =>
    obtain ⟨⟨past, all, g1⟩, g5, s, g2, g3, g4⟩ := ih
    have e1 : b.step (.sample rng r n l) = .ok b1 := by simp only [PEB.step, hs, Except.map]
    have e2 : b1.step (.update ps) = .ok b2 := hu
    refine ⟨⟨_, _, pstep_spec (pstep_spec g1 _ e1) _ e2⟩, ?_⟩
    obtain ⟨s1, s2, ep1, ep2, eps, out', probs, mn, k1, k2, _, _, _, k3, k4, k5⟩ := learn_sim g2 g3 hl l
    rw [hs] at k1
    cases k1
    rw [hu] at k2
    cases k2
    exact ⟨g5, s2, k3, k4, k5.trans g4⟩

/-- **C17 (learning).** In every buffer that can be reached: asking for more episodes than are stored raises an assertion error;
otherwise a learning round succeeds.  It samples episodes as the prioritized buffer of C11 and C12 does with episodes as items
(`PBuf.Spec.Step` says which ones and with which probabilities), returns one contiguous piece of each, of length `min(max_len,
len(episode))`, and then gives exactly those episodes the new priorities.  Nothing else changes. -/
theorem prioritized_episodic_learning {c : Nat} {dp : Option (List (Tr π) → V)} {ur : V} {w : Bool}
    (hdp : ∀ f, dp = some f → ∀ ep, 0 < f ep) {b : PEB ε π V} (hb : Spec.Reached c dp ur w b) (rng : Nat → Nat → Nat) (r : Rnd V)
    (n : Nat) (ps : List V) (l : Option Nat) :
    (b.episodic.data.length < n → b.sampleEpisodes rng r n l = .error .assertionError) ∧
    (Spec.CanLearn b rng r n ps →
      ∃ (s s1 s2 : PBuf.Spec.St (List (Tr π)) V) (ep1 ep2 : PB (List (Tr π)) V) (eps out : List (List (Tr π))) (probs : List V) (mn : V),
        PBuf.Sim b.episodic s ∧ s.entries.map (·.1) = b.episodic.data ∧
        b.sampleEpisodes rng r n l = .ok ({ b with episodic := ep1 }, out) ∧
        ({ b with episodic := ep1 } : PEB ε π V).updateErrors ps = .ok { b with episodic := ep2 } ∧
        PBuf.Spec.Step s (.sample n b.uniformRatio r) (.batch eps probs mn) s1 ∧
        List.Forall₂ (fun ep piece => Spec.Piece piece ep ∧
            piece.length = (match l with | some l => min l ep.length | none => ep.length)) eps out ∧
        PBuf.Spec.Step s1 (.setLast ps) .none s2 ∧ PBuf.Sim ep2 s2 ∧ ep2.data = b.episodic.data) := by
  refine ⟨fun h => ?_, fun hl => ?_⟩
  · unfold PEB.sampleEpisodes
    rw [if_neg (by omega)]
  · obtain ⟨_, _, s, g2, g3, g4⟩ := reached_sim hdp hb
    obtain ⟨s1, s2, ep1, ep2, eps, out, probs, mn, k1, k2, k3, k4, k5, k6, _, _⟩ := learn_sim g2 g3 hl l
    refine ⟨s, s1, s2, ep1, ep2, eps, out, probs, mn, g2, g2.data.symm, k1, k2, k3, k4, k5, k6, ?_⟩
    cases hs : b.episodic.sample n b.uniformRatio r with
    | error e =>
      unfold PEB.sampleEpisodes at k1
      rw [if_pos hl.enough, hs] at k1
      cases k1
    | ok q =>
      obtain ⟨ep, eps', ps', mp⟩ := q
      have e : ep = ep1 := by
        unfold PEB.sampleEpisodes at k1
        rw [if_pos hl.enough, hs] at k1
        cases l <;> cases k1 <;> rfl
      subst e
      have d1 := (sample_data hs).1
      simp only [PEB.updateErrors] at k2
      cases hu : ep.setLastPriority ps with
      | error e => rw [hu] at k2; cases k2
      | ok ep' =>
        rw [hu] at k2
        cases k2
        exact (setLast_data hu).1.trans d1

end

/-- A learning round that can be made: two episodes, one sampled. -/
example : ∃ b0 b : PEB Nat Nat ℚ, PEB.new (some 3) none 0 true = .ok b0 ∧
    b0.run [.append 0 ⟨1, false⟩, .append 0 ⟨2, true⟩, .append 0 ⟨3, true⟩] = .ok b ∧
    Spec.Reached 3 none 0 true b ∧ Spec.CanLearn b (fun _ _ => 0) PBuf.midRnd 1 [5] := by
  refine ⟨_, _, rfl, rfl, ?_, ⟨by decide +kernel, by decide +kernel, fun k m h => h, PBuf.midRnd_uniform, ?_, rfl, by simp⟩⟩
  · exact .append 0 ⟨3, true⟩ (.append 0 ⟨2, true⟩ (.append 0 ⟨1, false⟩ (.new rfl) rfl) rfl) rfl
  · intro h
    exact absurd h (by decide +kernel)

end Pfrl.Episodic
