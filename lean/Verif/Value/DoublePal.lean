import Verif.Value.Targets

/-!
# Double persistent advantage learning (C72)
-/

namespace Pfrl.Value

open Pfrl.Batch (Trans Out batchExperiences)

/-! ## Model -/

variable {S F K : Type _} [Field K] [LinearOrder K] [IsStrictOrderedRing K]

/-- `DoublePAL._compute_y_and_t`, the target, `pfrl/agents/double_pal.py:24-70`: `q` is the online network, `qTarget` the target network. -/
def doublePalTargets (alpha : K) (q qTarget : F → List K) (out : Out F Nat K) : Option (List K) :=
  (rows out).mapM fun x => (greedyAction (q x.next)).bind fun a => (evaluateAction (qTarget x.next) a).bind fun nextQ =>
    let tq := x.reward + x.discount * (1 - x.terminal) * nextQ
    (advantage (qTarget x.state) x.action).bind fun cur =>
      (advantage (qTarget x.next) x.action).map fun next => tq + alpha * max cur next

/-! ## C72 -/

/-- **C72 (DoublePAL, partial).** Let `V` be the largest action value of the target network, `g` the best action of the online network and `W`
the value that the target network gives to it.  DoublePAL's target is the backup of `W`, which is the target of Double DQN, minus `alpha` times the smaller of the
gaps of the action taken, in the first state and in the last state.  So it is at most the target of Double DQN, which is at most
that of DQN (for `gamma ≥ 0`), and it is at most the target of PAL, with the same distance.

What is missing: on terminal transitions the target still looks at the last state, as for PAL. -/
theorem double_pal_partial (phi : S → F) (gamma : K) (hgamma : 0 ≤ gamma) {exps : List (List (Trans S Nat K))} (hne : exps ≠ []) (hexp : ∀ e ∈ exps, e ≠ [])
    (alpha : K) (halpha : 0 ≤ alpha) (q qTarget : F → List K) (hq : ∀ f, q f ≠ []) (V : S → K)
    (hV : ∀ s, Spec.IsMax (qTarget (phi s)) (V s)) (Q : S → Nat → K) (m : Nat)
    (hQ : ∀ s a, a < m → (qTarget (phi s))[a]? = some (Q s a)) (hact : ∀ e ∈ exps, ∀ t ∈ e, t.action < m) :
    ∃ g : S → Nat, (∀ s, ∃ v, (q (phi s))[g s]? = some v ∧ Spec.IsMax (q (phi s)) v) ∧ ∀ W : S → K, (∀ s, (qTarget (phi s))[g s]? = some (W s)) →
    ∃ out ts, batchExperiences phi gamma exps = .ok out ∧ doublePalTargets alpha q qTarget out = some ts ∧ ts.length = exps.length ∧
      ∀ (k : Nat) (exp : List (Trans S Nat K)), exps[k]? = some exp → Batch.Spec.TerminalOnlyLast exp →
        ∃ (t0 tn : Trans S Nat K) (y : K), exp.head? = some t0 ∧ exp.getLast? = some tn ∧ ts[k]? = some y ∧
          y = Batch.Spec.backup gamma W exp - alpha * min (V t0.state - Q t0.state t0.action) (V tn.nextState - Q tn.nextState t0.action) ∧
          y ≤ Batch.Spec.backup gamma W exp ∧ Batch.Spec.backup gamma W exp ≤ Batch.Spec.backup gamma V exp := by
  have hgr : ∀ s : S, ∃ g v, greedyAction (q (phi s)) = some g ∧ (q (phi s))[g]? = some v ∧ ∀ x ∈ q (phi s), x ≤ v := fun s => greedyAction_spec (hq (phi s))
  choose g v hg hgv hgm using hgr
  refine ⟨g, fun s => ⟨v s, hgv s, List.mem_of_getElem? (hgv s), hgm s⟩, fun W hW => ?_⟩
  obtain ⟨out, h1, h2, h3⟩ := rows_spec phi gamma hne hexp
  have hadv : ∀ s a, a < m → advantage (qTarget (phi s)) a = some (Q s a - V s) := by
    intro s a ha
    unfold advantage evaluateAction
    rw [maxValue_of_isMax (hV s), hQ s a ha]
    rfl
  have hrow : ∀ x ∈ rows out, ∃ s0 sn, x.state = phi s0 ∧ x.next = phi sn ∧ x.action < m := by
    intro x hx
    obtain ⟨k, hk⟩ := List.getElem?_of_mem hx
    obtain ⟨exp, he⟩ : ∃ exp, exps[k]? = some exp := by
      have := (List.getElem?_eq_some_iff.mp hk).1
      exact ⟨_, List.getElem?_eq_getElem (h2 ▸ this)⟩
    obtain ⟨t0, tn, x', hh, _, hx', hs, ha, hn, _⟩ := h3 k exp he
    rw [hk] at hx'; cases hx'
    exact ⟨_, _, hs, hn, by
      rw [ha]
      exact hact exp (List.mem_of_getElem? he) t0 (List.mem_of_mem_head? hh)⟩
  have hm : doublePalTargets alpha q qTarget out = some ((rows out).map fun x =>
      x.reward + x.discount * (1 - x.terminal) * (((greedyAction (q x.next)).bind fun a => evaluateAction (qTarget x.next) a).getD 0)
        + alpha * max ((advantage (qTarget x.state) x.action).getD 0) ((advantage (qTarget x.next) x.action).getD 0)) := by
    unfold doublePalTargets
    apply mapM_option
    intro x hx
    obtain ⟨s0, sn, e1, e2, e3⟩ := hrow x hx
    rw [e1, e2, hg sn, hadv s0 _ e3, hadv sn _ e3]
    simp only [Option.bind_some, evaluateAction, hW sn, Option.map_some, Option.getD_some]
  refine ⟨out, _, h1, hm, by simp [h2], ?_⟩
  intro k exp hk hlast
  obtain ⟨t0, tn, x, hh, hl, hx, hs, ha, hn, hd, hterm, hb⟩ := h3 k exp hk
  have ham : t0.action < m := hact exp (List.mem_of_getElem? hk) t0 (List.mem_of_mem_head? hh)
  have hmem : ∀ s a, a < m → Q s a ≤ V s := fun s a h => (hV s).2 _ (List.mem_of_getElem? (hQ s a h))
  refine ⟨t0, tn, Batch.Spec.backup gamma W exp + alpha * max (Q t0.state t0.action - V t0.state) (Q tn.nextState t0.action - V tn.nextState),
    hh, hl, ?_, ?_, ?_, ?_⟩
  · rw [List.getElem?_map, hx, Option.map_some, hn, hs, ha, hg _, hadv _ _ ham, hadv _ _ ham, ← hb hlast W]
    simp only [Option.bind_some, evaluateAction, hW, Option.getD_some]
  · have : max (Q t0.state t0.action - V t0.state) (Q tn.nextState t0.action - V tn.nextState) =
        -min (V t0.state - Q t0.state t0.action) (V tn.nextState - Q tn.nextState t0.action) := by
      rw [← max_neg_neg]
      congr 1 <;> ring
    rw [this]
    ring
  · have h5 : max (Q t0.state t0.action - V t0.state) (Q tn.nextState t0.action - V tn.nextState) ≤ 0 :=
      max_le (sub_nonpos.mpr (hmem _ _ ham)) (sub_nonpos.mpr (hmem _ _ ham))
    have := mul_nonpos_of_nonneg_of_nonpos halpha h5
    linarith
  · rw [← hb hlast W, ← hb hlast V]
    have hWV : W tn.nextState ≤ V tn.nextState := (hV _).2 _ (List.mem_of_getElem? (hW _))
    have h0 : 0 ≤ x.discount * (1 - x.terminal) := by
      rw [hd, hterm]
      split <;> simp [pow_nonneg hgamma]
    have := mul_le_mul_of_nonneg_left hWV h0
    linarith

/-- A case: online and target network disagree on the best action. -/
example : doublePalTargets (1 / 2 : ℚ) (fun s : Nat => if s = 0 then [0, 2] else [3, 1]) (fun s => if s = 0 then [0, 2] else [4, 6])
    ⟨[0], [0], [1], [1], [0], [1 / 2], none⟩ = some [2] := by decide +kernel

end Pfrl.Value
