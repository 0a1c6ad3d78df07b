import Verif.Returns.Disc

/-!
# Generalised advantage estimation in PPO and TRPO (C24)

Numbers are elements of a commutative ring (exact arithmetic).
-/

namespace Pfrl.Returns

variable {K : Type _} [CommRing K]

/-! ## Model -/

/-- The entries of a stored transition that are read, `pfrl/agents/ppo.py:36-47`. -/
structure Step (K : Type _) where
  reward : K
  nonterminal : K
  vPred : K
  nextVPred : K
  deriving DecidableEq, Repr

/-- The entries written, `pfrl/agents/ppo.py:46-47`. -/
structure AdvTarget (K : Type _) where
  adv : K
  vTeacher : K
  deriving DecidableEq, Repr

/-- One iteration of the loop, `pfrl/agents/ppo.py:39-47`; the accumulator holds the running `adv`
and the entries of the transitions already visited. -/
def gaeStep (γ lam : K) (acc : K × List (AdvTarget K)) (tr : Step K) : K × List (AdvTarget K) :=
  let tdErr := tr.reward + (γ * tr.nonterminal * tr.nextVPred) - tr.vPred
  let adv := tdErr + γ * lam * acc.1
  (adv, ⟨adv, adv + tr.vPred⟩ :: acc.2)

/-- `_add_advantage_and_value_target_to_episode`, `pfrl/agents/ppo.py:36-47` (imported by
`pfrl/agents/trpo.py:17-24`): the entries added to each transition, in episode order. -/
def gaeEpisode (γ lam : K) (episode : List (Step K)) : List (AdvTarget K) :=
  (episode.reverse.foldl (gaeStep γ lam) (0, [])).2

/-- `_add_advantage_and_value_target_to_episodes`, `pfrl/agents/ppo.py:50-53`. -/
def gaeEpisodes (γ lam : K) (episodes : List (List (Step K))) : List (List (AdvTarget K)) :=
  episodes.map (gaeEpisode γ lam)

/-! ## Specification -/

/-- The one-step temporal difference error of a transition. -/
def Spec.tdError (γ : K) (s : Step K) : K := s.reward + γ * s.nonterminal * s.nextVPred - s.vPred

/-- The transitions come from consecutive steps: the value predicted for the next state of one is the
value predicted for the state of the following one, and only the last may be terminal. -/
def Spec.Consecutive (episode : List (Step K)) : Prop :=
  ∀ t (h : t + 1 < episode.length),
    episode[t].nextVPred = episode[t + 1].vPred ∧ episode[t].nonterminal = 1

/-! ## Lemmas -/

theorem gaeEpisode_foldr (γ lam : K) (ep : List (Step K)) :
    ep.reverse.foldl (gaeStep γ lam) (0, [])
      = ep.foldr (fun tr acc => gaeStep γ lam acc tr) (0, []) := by
  rw [List.foldl_reverse]

theorem gaeEpisode_cons (γ lam : K) (tr : Step K) (ep : List (Step K)) :
    ∃ a, gaeEpisode γ lam (tr :: ep)
      = ⟨Spec.tdError γ tr + γ * lam * a, Spec.tdError γ tr + γ * lam * a + tr.vPred⟩
        :: gaeEpisode γ lam ep ∧
      a = (match gaeEpisode γ lam ep with | [] => 0 | x :: _ => x.adv) := by
  refine ⟨(ep.reverse.foldl (gaeStep γ lam) (0, [])).1, ?_, ?_⟩
  · unfold gaeEpisode
    simp only [List.foldl_reverse, List.foldr_cons]
    rfl
  · unfold gaeEpisode
    rw [List.foldl_reverse]
    cases ep with
    | nil => rfl
    | cons tr' ep' => simp only [List.foldr_cons, gaeStep]

theorem gaeEpisode_length (γ lam : K) (ep : List (Step K)) :
    (gaeEpisode γ lam ep).length = ep.length := by
  induction ep with
  | nil => rfl
  | cons tr ep ih =>
    obtain ⟨a, h, _⟩ := gaeEpisode_cons γ lam tr ep
    rw [h]; simp [ih]

theorem gae_getElem (γ lam : K) (ep : List (Step K)) : ∀ t (h : t < ep.length)
    (h' : t < (gaeEpisode γ lam ep).length),
    (gaeEpisode γ lam ep)[t].adv = Spec.disc (γ * lam) ((ep.drop t).map (Spec.tdError γ)) ∧
    (gaeEpisode γ lam ep)[t].vTeacher = (gaeEpisode γ lam ep)[t].adv + ep[t].vPred := by
  induction ep with
  | nil => intro t h; simp at h
  | cons tr ep ih =>
    intro t h h'
    obtain ⟨a, h1, h2⟩ := gaeEpisode_cons γ lam tr ep
    cases t with
    | zero =>
      simp only [h1, List.getElem_cons_zero, List.drop_zero, List.map_cons, disc_cons]
      refine ⟨?_, trivial⟩
      congr 2
      rw [h2]
      cases hg : gaeEpisode γ lam ep with
      | nil =>
        have : ep = [] := List.eq_nil_of_length_eq_zero (by
          rw [← gaeEpisode_length γ lam ep, hg]; rfl)
        simp [this]
      | cons x xs =>
        have hl := gaeEpisode_length γ lam ep
        rw [hg] at hl
        have := (ih 0 (by rw [← hl]; simp) (by rw [hg]; simp)).1
        simpa only [hg, List.getElem_cons_zero, List.drop_zero] using this
    | succ t =>
      have := ih t (by simpa using h) (by rw [gaeEpisode_length]; simpa using h)
      simpa only [h1, List.getElem_cons_succ, List.drop_succ_cons] using this

/-! ## C24 -/

/-- **C24.** For every episode, discount and `λ`: as many entries as transitions are added; the
advantage of step `t` is `Σ_k (γ λ)^k δ_{t+k}` up to the end of the episode, and the value target is
the advantage plus the predicted value. -/
theorem gae_is_discounted_td_sum (γ lam : K) (episode : List (Step K)) :
    (gaeEpisode γ lam episode).length = episode.length ∧
    ∀ t (h : t < episode.length) (h' : t < (gaeEpisode γ lam episode).length),
      (gaeEpisode γ lam episode)[t].adv
        = Spec.disc (γ * lam) ((episode.drop t).map (Spec.tdError γ)) ∧
      (gaeEpisode γ lam episode)[t].vTeacher
        = (gaeEpisode γ lam episode)[t].adv + episode[t].vPred :=
  ⟨gaeEpisode_length γ lam episode, gae_getElem γ lam episode⟩

/-- **C24 (several episodes).** Nothing leaks from one episode into another: each of them gets the entries it would get alone,
that is, as above. -/
theorem gae_episodes (γ lam : K) (episodes : List (List (Step K))) :
    (gaeEpisodes γ lam episodes).length = episodes.length ∧
    ∀ (i t : Nat) (e : List (Step K)) (s : Step K), episodes[i]? = some e → e[t]? = some s →
      ∃ (es : List (AdvTarget K)) (x : AdvTarget K), (gaeEpisodes γ lam episodes)[i]? = some es ∧ es.length = e.length ∧ es[t]? = some x ∧
        x.adv = Spec.disc (γ * lam) ((e.drop t).map (Spec.tdError γ)) ∧ x.vTeacher = x.adv + s.vPred := by
  refine ⟨by simp [gaeEpisodes], fun i t e s hi ht => ?_⟩
  obtain ⟨hlt, hs⟩ := List.getElem?_eq_some_iff.1 ht
  have hlt' : t < (gaeEpisode γ lam e).length := by rw [gaeEpisode_length]; exact hlt
  refine ⟨gaeEpisode γ lam e, (gaeEpisode γ lam e)[t], by simp [gaeEpisodes, hi], gaeEpisode_length γ lam e,
    List.getElem?_eq_getElem hlt', ?_⟩
  have := gae_getElem γ lam e t hlt hlt'
  rw [hs] at this
  exact this

/-- With `λ = 0` the advantage is the one-step temporal difference error. -/
theorem gae_lambda_zero (γ : K) (episode : List (Step K)) (t : Nat) (h : t < episode.length)
    (h' : t < (gaeEpisode γ 0 episode).length) :
    (gaeEpisode γ 0 episode)[t].adv = Spec.tdError γ episode[t] := by
  rw [(gae_getElem γ 0 episode t h h').1, mul_zero, disc_zero]
  simp [List.head?_drop, h]

theorem td_telescope (γ : K) (ep : List (Step K)) (hne : ep ≠ []) (hc : Spec.Consecutive ep) :
    Spec.disc γ (ep.map (Spec.tdError γ)) + (ep.head hne).vPred
      = Spec.disc γ (ep.map Step.reward)
        + γ ^ ep.length * ((ep.getLast hne).nonterminal * (ep.getLast hne).nextVPred) := by
  induction ep with
  | nil => exact absurd rfl hne
  | cons tr ep ih =>
    cases ep with
    | nil => simp [Spec.tdError]; ring
    | cons tr' ep =>
      have hc' : Spec.Consecutive (tr' :: ep) := fun t h => hc (t + 1) (by simpa using h)
      have := ih (by simp) hc'
      obtain ⟨c1, c2⟩ := hc 0 (by simp)
      simp only [List.getElem_cons_zero, List.getElem_cons_succ] at c1 c2
      have e1 : Spec.disc γ ((tr :: tr' :: ep).map (Spec.tdError γ))
          = Spec.tdError γ tr + γ * Spec.disc γ ((tr' :: ep).map (Spec.tdError γ)) := by
        rw [List.map_cons, disc_cons]
      have e2 : Spec.disc γ ((tr :: tr' :: ep).map Step.reward)
          = tr.reward + γ * Spec.disc γ ((tr' :: ep).map Step.reward) := by
        rw [List.map_cons, disc_cons]
      have e3 : Spec.tdError γ tr = tr.reward + γ * tr'.vPred - tr.vPred := by
        unfold Spec.tdError; rw [c1, c2, mul_one]
      rw [e1, e2, e3, List.getLast_cons (by simp), List.length_cons, pow_succ, List.head_cons]
      rw [List.head_cons] at this
      linear_combination γ * this

/-- With `λ = 1`, for consecutive transitions, the value target is the discounted sum of the rewards
from step `t` to the end of the episode, plus the discounted value of the final state unless it is
terminal (`nonterminal = 0`). -/
theorem gae_lambda_one (γ : K) (episode : List (Step K)) (hc : Spec.Consecutive episode) (t : Nat)
    (h : t < episode.length) (h' : t < (gaeEpisode γ 1 episode).length)
    (hne : episode ≠ []) :
    (gaeEpisode γ 1 episode)[t].vTeacher
      = Spec.disc γ ((episode.drop t).map Step.reward)
        + γ ^ (episode.length - t) *
          ((episode.getLast hne).nonterminal * (episode.getLast hne).nextVPred) := by
  obtain ⟨h1, h2⟩ := gae_getElem γ 1 episode t h h'
  have hne' : episode.drop t ≠ [] := by simp; omega
  have hc' : Spec.Consecutive (episode.drop t) := by
    intro s hs
    have := hc (t + s) (by simp at hs; omega)
    simpa [Nat.add_assoc] using this
  have := td_telescope γ (episode.drop t) hne' hc'
  rw [List.length_drop, List.getLast_drop, List.head_drop] at this
  rw [h2, h1, mul_one]
  exact this

/-- An episode of three consecutive steps that ends in a terminal state. -/
example : Spec.Consecutive ([⟨1, 1, 5, 6⟩, ⟨2, 1, 6, 7⟩, ⟨3, 0, 7, 9⟩] : List (Step Int)) ∧
    gaeEpisode (2 : Int) 1 [⟨1, 1, 5, 6⟩, ⟨2, 1, 6, 7⟩, ⟨3, 0, 7, 9⟩]
      = [⟨12, 17⟩, ⟨2, 8⟩, ⟨-4, 3⟩] ∧ (17 : Int) = 1 + 2 * 2 + 4 * 3 := by
  refine ⟨?_, by decide, by decide⟩
  intro t h
  match t, h with
  | 0, _ => exact ⟨rfl, rfl⟩
  | 1, _ => exact ⟨rfl, rfl⟩

end Pfrl.Returns
