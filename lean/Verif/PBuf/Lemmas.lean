import Verif.PBuf.Spec
import Verif.Tree.Props

/-!
# Refinement between `PrioritizedBuffer` and its specification
-/

set_option linter.unusedSectionVars false

namespace Pfrl.PBuf
open Pfrl.Tree (TQ sumAgg minAgg)
variable {T V : Type _} [Field V] [LinearOrder V] [IsStrictOrderedRing V]

/-- The weights currently stored in the sum queue. -/
def weights (s : Spec.St T V) : List V :=
  if s.wait && s.waiting then Tree.Spec.zeroAt s.prios (s.sampled.getD []) else s.prios

/-- Simulation relation. -/
structure Sim (b : PB T V) (s : Spec.St T V) : Prop where
  cap : b.capacity = s.cap
  wait : b.wait = s.wait
  flag : b.flag = s.waiting
  sampled : b.sampled = s.sampled
  maxp : b.maxPriority = s.maxp
  data : b.data = s.entries.map (·.1)
  sums : Tree.Sim sumAgg b.sums (weights s)
  mins : Tree.Sim minAgg b.mins s.prios
  pos : ∀ p ∈ s.prios, 0 < p
  maxpos : 0 < s.maxp
  capPos : ∀ c, s.cap = some c → 1 ≤ c
  capLe : ∀ c, s.cap = some c → (s.entries.length : Int) ≤ c
  ixs : ∀ is, s.sampled = some is → ∀ i ∈ is, i < s.entries.length
  nodup : s.wait = true → ∀ is, s.sampled = some is → is.Nodup
  idle : s.waiting = false → s.sampled = none ∨ s.sampled = some []
  busy : s.waiting = true → ∃ is, s.sampled = some is

omit [Field V] [LinearOrder V] [IsStrictOrderedRing V] in
theorem foldl_set_agree {is : List Nat} : ∀ {ps A B : List V}, is.length = ps.length →
    A.length = B.length → (∀ j, j ∉ is → A[j]? = B[j]?) →
    (is.zip ps).foldl (fun ys p => ys.set p.1 p.2) A
      = (is.zip ps).foldl (fun ys p => ys.set p.1 p.2) B := by
  induction is with
  | nil =>
    intro ps A B _ _ h
    simp only [List.zip_nil_left, List.foldl_nil]
    exact List.ext_getElem? fun j => h j (by simp)
  | cons i is ih =>
    intro ps A B hl hAB h
    cases ps with
    | nil => simp at hl
    | cons p ps =>
      simp only [List.zip_cons_cons, List.foldl_cons]
      apply ih (by simpa using hl) (by simpa using hAB)
      intro j hj
      rw [List.getElem?_set, List.getElem?_set]
      by_cases hij : i = j
      · subst hij; simp [hAB]
      · simp only [hij, if_false]
        exact h j (by simp [hj]; exact fun e => hij e.symm)

omit [Field V] [LinearOrder V] [IsStrictOrderedRing V] in
theorem assign_snd (l : List (Nat × V)) : ∀ es : List (T × V),
    (Spec.assign es l).map (·.2) = l.foldl (fun ys p => ys.set p.1 p.2) (es.map (·.2)) := by
  induction l with
  | nil => intro es; rfl
  | cons q l ih =>
    intro es
    obtain ⟨i, p⟩ := q
    simp only [Spec.assign, List.foldl_cons]
    rw [ih]
    congr 1
    apply List.ext_getElem?
    intro j
    rw [List.getElem?_set]
    by_cases hij : i = j
    · subst hij
      by_cases hl : i < es.length
      · simp [hl]
      · simp [hl]
    · simp [hij]

omit [Field V] [LinearOrder V] [IsStrictOrderedRing V] in
theorem assign_fst (l : List (Nat × V)) : ∀ es : List (T × V),
    (Spec.assign es l).map (·.1) = es.map (·.1) := by
  induction l with
  | nil => intro es; rfl
  | cons q l ih =>
    intro es
    obtain ⟨i, p⟩ := q
    simp only [Spec.assign]
    rw [ih]
    apply List.ext_getElem?
    intro j
    by_cases hij : i = j
    · subst hij; simp [Function.comp_def]
    · simp [hij]

theorem setLoop_sim (l : List (Nat × V)) : ∀ {b : PB T V} {W P : List V},
    Tree.Sim sumAgg b.sums W → Tree.Sim minAgg b.mins P → (∀ p ∈ l, p.1 < W.length ∧ p.1 < P.length) →
    ∃ b', setLoop b l = .ok b' ∧
      Tree.Sim sumAgg b'.sums (l.foldl (fun ys p => ys.set p.1 p.2) W) ∧
      Tree.Sim minAgg b'.mins (l.foldl (fun ys p => ys.set p.1 p.2) P) ∧
      b'.maxPriority = (l.map (·.2)).foldl max b.maxPriority ∧ b'.capacity = b.capacity ∧
      b'.wait = b.wait ∧ b'.data = b.data := by
  induction l with
  | nil => intro b W P h1 h2 _; exact ⟨b, rfl, h1, h2, rfl, rfl, rfl, rfl⟩
  | cons q l ih =>
    intro b W P h1 h2 hl
    obtain ⟨i, p⟩ := q
    obtain ⟨hiW, hiP⟩ := hl (i, p) (by simp)
    simp only at hiW hiP
    obtain ⟨s', e1, e2⟩ := (Tree.set_sim h1 i p).1 (by omega)
    obtain ⟨m', e3, e4⟩ := (Tree.set_sim h2 i p).1 (by omega)
    simp only [Int.toNat_natCast] at e2 e4
    obtain ⟨b', g1, g2, g3, g4, g5, g6, g7⟩ := ih
      (b := { b with sums := s', mins := m', maxPriority := max b.maxPriority p })
      e2 e4 (by intro q hq; simpa using hl q (by simp [hq]))
    refine ⟨b', ?_, g2, g3, g4, g5, g6, g7⟩
    unfold setLoop
    rw [e1]; simp only; rw [e3]; exact g1

theorem popleft_sim {b : PB T V} {s : Spec.St T V} (h : Sim b s) (hw : s.waiting = false)
    {e : T × V} {es : List (T × V)} (he : s.entries = e :: es) :
    ∃ b', b.popleft = .ok (b', e.1) ∧ Sim b' { s with entries := es } := by
  have hwt : weights s = s.prios := by simp [weights, hw]
  have hpr : s.prios = e.2 :: es.map (·.2) := by simp [Spec.St.prios, he]
  have h1 := h.sums
  have h2 := h.mins
  rw [hwt, hpr] at h1
  rw [hpr] at h2
  obtain ⟨s', e1, e2⟩ := Tree.popleft_sim h1
  obtain ⟨m', e3, e4⟩ := Tree.popleft_sim h2
  have hd : b.data = e.1 :: es.map (·.1) := by rw [h.data, he]; rfl
  refine ⟨{ b with data := es.map (·.1), sums := s', mins := m' }, ?_, ?_⟩
  · unfold PB.popleft
    rw [if_neg (by rw [hd]; simp), e1]
    simp only [e3, hd]
  · have hcl := h.capLe
    rw [he] at hcl
    refine ⟨h.cap, h.wait, h.flag, h.sampled, h.maxp, rfl, ?_, e4, ?_, h.maxpos, h.capPos, ?_, ?_,
      h.nodup, h.idle, h.busy⟩
    · simpa [weights, hw, Spec.St.prios] using e2
    · intro p hp
      exact h.pos p (by rw [hpr]; exact List.mem_cons_of_mem _ hp)
    · intro c hc
      have := hcl c hc
      simp at this ⊢; omega
    · intro is his i hi
      simp only at his
      rcases h.idle hw with g | g
      · rw [g] at his; cases his
      · rw [g] at his; cases his; simp at hi

omit [LinearOrder V] [IsStrictOrderedRing V] in
theorem zeroAt_append (xs : List V) (p : V) (is : List Nat) (h : ∀ i ∈ is, i < xs.length) :
    Tree.Spec.zeroAt (xs ++ [p]) is = Tree.Spec.zeroAt xs is ++ [p] := by
  unfold Tree.Spec.zeroAt
  rw [List.mapIdx_append]
  congr 1
  have : xs.length ∉ is := fun hh => absurd (h _ hh) (by omega)
  simp [this]

/-- Appending to a buffer that is not full. -/
theorem push_sim {b : PB T V} {s : Spec.St T V} (h : Sim b s) (x : T) {p : V} (hp : 0 < p)
    (hfull : ∀ c, s.cap = some c → (s.entries.length : Int) < c) :
    ∃ sums mins, b.sums.append sumAgg p = .ok sums ∧ b.mins.append minAgg p = .ok mins ∧
      Sim { b with data := b.data ++ [x], sums := sums, mins := mins }
        { s with entries := s.entries ++ [(x, p)] } := by
  obtain ⟨s', e1, e2⟩ := Tree.append_sim h.sums p
  obtain ⟨m', e3, e4⟩ := Tree.append_sim h.mins p
  refine ⟨s', m', e1, e3, ?_⟩
  refine ⟨h.cap, h.wait, h.flag, h.sampled, h.maxp, ?_, ?_, ?_, ?_, h.maxpos, h.capPos, ?_, ?_,
    h.nodup, h.idle, h.busy⟩
  · simp [h.data]
  · have : weights { s with entries := s.entries ++ [(x, p)] } = weights s ++ [p] := by
      by_cases hc : (s.wait && s.waiting) = true
      · have hwait : s.waiting = true := by simp at hc; exact hc.2
        obtain ⟨is, his⟩ := h.busy hwait
        simp only [weights, hc, if_true, his, Option.getD_some, Spec.St.prios, List.map_append,
          List.map_cons, List.map_nil]
        apply zeroAt_append
        intro i hi
        simpa using h.ixs is his i hi
      · simp [weights, hc, Spec.St.prios]
    rw [this]; exact e2
  · simpa [Spec.St.prios] using e4
  · intro q hq
    simp only [Spec.St.prios, List.map_append, List.mem_append, List.map_cons, List.map_nil,
      List.mem_singleton] at hq
    rcases hq with hq | rfl
    · exact h.pos q hq
    · exact hp
  · intro c hc
    have := hfull c hc
    simp; omega
  · intro is his i hi
    have := h.ixs is his i hi
    simp; omega

theorem append_sim {b : PB T V} {s : Spec.St T V} (h : Sim b s) (x : T) (p : Option V)
    (hv : Spec.Valid s (.append x p)) :
    ∃ b' out s', b.step (.append x p) = .ok (b', out) ∧ Spec.Step s (.append x p) out s' ∧
      Sim b' s' := by
  obtain ⟨hpos, hfull⟩ := hv
  have hp : 0 < p.getD s.maxp := by
    cases p with
    | none => exact h.maxpos
    | some v => exact hpos v rfl
  by_cases hf : s.full = true
  · -- eviction
    have hc : s.cap = some (s.entries.length : Int) := by simpa [Spec.St.full] using hf
    have hw : s.waiting = false := by
      by_contra hc'; simp at hc'; rw [hfull hc'] at hf; cases hf
    have hlen := h.capPos _ hc
    obtain ⟨e, es, he⟩ : ∃ e es, s.entries = e :: es :=
      List.exists_cons_of_length_pos (by omega)
    obtain ⟨b1, hb1, hs1⟩ := popleft_sim h hw he
    obtain ⟨sums, mins, g1, g2, g3⟩ := push_sim hs1 x hp (by
      intro c hc'
      simp only at hc' ⊢
      rw [hc] at hc'; cases hc'
      rw [he]; simp)
    have hmp : b1.maxPriority = s.maxp := hs1.maxp
    refine ⟨{ b1 with data := b1.data ++ [x], sums := sums, mins := mins }, _, _, ?_,
      Spec.Step.append s x p, ?_⟩
    · simp only [PB.step, PB.append]
      rw [h.cap, hc]
      simp only [h.data, List.length_map, if_true, hb1, Except.map, hmp, g1, g2]
    · rw [if_pos hf, he]
      exact g3
  · -- no eviction
    have hc : s.cap ≠ some (s.entries.length : Int) := by simpa [Spec.St.full] using hf
    obtain ⟨sums, mins, g1, g2, g3⟩ := push_sim h x hp (by
      intro c hc'
      have := h.capLe c hc'
      rcases lt_or_eq_of_le this with g | g
      · exact g
      · rw [← g] at hc'; exact absurd hc' hc)
    refine ⟨{ b with data := b.data ++ [x], sums := sums, mins := mins }, _, _, ?_,
      Spec.Step.append s x p, ?_⟩
    rotate_left
    · rw [if_neg hf]; exact g3
    · have hmp := h.maxp
      simp only [PB.step, PB.append]
      cases hcap : b.capacity with
      | none => simp only [hmp, g1, g2, Except.map, hcap]
      | some c =>
        have : ¬ ((b.data.length : Int) = c) := by
          rw [h.data, List.length_map]; rintro rfl; exact hc (h.cap ▸ hcap)
        simp only [this, if_false, hmp, g1, g2, Except.map, hcap]

theorem sum_of_sim {q : TQ V} {ys : List V} (h : Tree.Sim sumAgg q ys) : q.sum = .ok ys.sum :=
  Tree.sum_of_sim h

theorem min_of_sim {q : TQ V} {ys : List V} (h : Tree.Sim minAgg q ys) (hne : ys ≠ []) :
    ∃ m, q.min = .ok (some m) ∧ m ∈ ys ∧ ∀ y ∈ ys, m ≤ y := by
  obtain ⟨y, ys, rfl⟩ := List.exists_cons_of_ne_nil hne
  obtain ⟨root, ixl, ixr, g1, g2⟩ := Tree.root_val Tree.minAgg_lawful h
  rw [Tree.minAgg_eq] at g2
  refine ⟨_, ?_, Tree.foldl_min_le y ys⟩
  unfold TQ.min
  rw [if_neg (by rw [h.1]; simp), g1]
  simp only [g2]

/-- `prioritized_sample` on the simulation relation. -/
theorem prioritizedSample_sim {q : TQ V} {xs : List V} (hs : Tree.Sim sumAgg q xs)
    (hnn : ∀ x ∈ xs, 0 ≤ x) {n : Nat} (hn : n ≤ Tree.nPos xs)
    {rng : Nat → V → V} (hrng : Tree.Spec.UniformRng rng) (t : Nat) (remove : Bool) :
    ∃ q' is vs, q.prioritizedSample rng t n remove = .ok (q', is, vs) ∧
      is.Nodup ∧ is.length = n ∧ is.map (fun i => xs[i]?) = vs.map some ∧ (∀ v ∈ vs, 0 < v) ∧
      Tree.Spec.Drawn rng t xs is vs (Tree.Spec.zeroAt xs is) ∧
      Tree.Sim sumAgg q' (if remove then Tree.Spec.zeroAt xs is else xs) := by
  obtain ⟨q1, is, vs, ys, g1, g2, g3, g4⟩ := Tree.drawLoop_sim hrng n (t := t) hs hnn hn
  obtain ⟨e1, e2, e3, e4, e5⟩ := Tree.drawn_sound g2
  subst e5
  cases remove with
  | true =>
    refine ⟨q1, is, vs, ?_, e1, g4, e4, e3, g2, ?_⟩
    · unfold TQ.prioritizedSample
      rw [if_neg (by omega)]
      simp only [Int.toNat_natCast, g1, if_true]
    · simpa using g3
  | false =>
    obtain ⟨q2, f1, f2⟩ := Tree.restore_sim (is.zip vs) g3 (by
      rintro ⟨i, v⟩ hp
      have := Tree.lt_of_map_some e4 i (List.of_mem_zip hp).1
      simpa [Tree.Spec.zeroAt] using this)
    rw [Tree.foldl_set_zeroAt e1 e4 (by simp [Tree.Spec.zeroAt])
      (fun j hj => Tree.zeroAt_getElem? xs is j hj)] at f2
    refine ⟨q2, is, vs, ?_, e1, g4, e4, e3, g2, ?_⟩
    · unfold TQ.prioritizedSample
      rw [if_neg (by omega)]
      simp only [Int.toNat_natCast, g1, f1]
      rfl
    · simpa using f2

/-- `uniform_sample` on the simulation relation. -/
theorem uniformSample_sim {q : TQ V} {xs : List V} (hsim : Tree.Sim sumAgg q xs)
    {perm : List Nat} {s : Nat → Nat} {fuel n : Nat}
    (hperm : Sample.IsChoice xs.length n perm) (hs : ∀ i, s i < xs.length) (remove : Bool)
    {is : List Nat} (hok : Sample.sampleNK perm s fuel xs.length n = .ok is) :
    ∃ q' vs, q.uniformSample perm s fuel n remove = .ok (q', is, vs) ∧
      is.Nodup ∧ is.length = n ∧ is.map (fun i => xs[i]?) = vs.map some ∧
      Tree.Sim sumAgg q' (if remove then Tree.Spec.zeroAt xs is else xs) := by
  obtain ⟨e1, e2, e3⟩ := Sample.sample_n_k_sound hperm hs hok
  have key : ∃ q1 vs, (if (n : Int) > 0 then Tree.zeroAll q is else .ok (q, [])) = .ok (q1, vs) ∧
      is.map (fun i => xs[i]?) = vs.map some ∧ Tree.Sim sumAgg q1 (Tree.Spec.zeroAt xs is) := by
    by_cases h0 : (n : Int) > 0
    · rw [if_pos h0]
      obtain ⟨q1, vs, a, b, c⟩ := Tree.zeroAll_sim is hsim e1 e3
      exact ⟨q1, vs, a, b, c⟩
    · rw [if_neg h0]
      have : is = [] := List.length_eq_zero_iff.1 (by omega)
      subst this
      exact ⟨q, [], rfl, rfl, by rw [Tree.zeroAt_nil]; exact hsim⟩
  obtain ⟨q1, vs, g1, e4, g3⟩ := key
  cases remove with
  | true =>
    refine ⟨q1, vs, ?_, e1, e2, e4, by simpa using g3⟩
    unfold TQ.uniformSample
    rw [if_neg (by omega), hsim.1, hok]
    simp only [g1, if_true]
  | false =>
    obtain ⟨q2, f1, f2⟩ := Tree.restore_sim (is.zip vs) g3 (by
      rintro ⟨i, v⟩ hp
      have := Tree.lt_of_map_some e4 i (List.of_mem_zip hp).1
      simpa [Tree.Spec.zeroAt] using this)
    rw [Tree.foldl_set_zeroAt e1 e4 (by simp [Tree.Spec.zeroAt])
      (fun j hj => Tree.zeroAt_getElem? xs is j hj)] at f2
    refine ⟨q2, vs, ?_, e1, e2, e4, by simpa using f2⟩
    unfold TQ.uniformSample
    rw [if_neg (by omega), hsim.1, hok]
    simp only [g1, f1]
    rfl

theorem zeroAt_append_ixs (xs : List V) (us is : List Nat) :
    Tree.Spec.zeroAt (Tree.Spec.zeroAt xs us) is = Tree.Spec.zeroAt xs (us ++ is) := by
  apply List.ext_getElem?
  intro j
  simp only [Tree.Spec.zeroAt, List.getElem?_mapIdx, Option.map_map]
  cases xs[j]? with
  | none => rfl
  | some v =>
    by_cases h1 : j ∈ us <;> by_cases h2 : j ∈ is <;> simp [h1, h2]

/-- Zeroing `k` distinct positions of a positive list leaves `length - k` positive entries. -/
theorem nPos_zeroAt {us : List Nat} : ∀ {xs : List V}, us.Nodup → (∀ i ∈ us, i < xs.length) →
    (∀ i ∈ us, ∃ v, xs[i]? = some v ∧ 0 < v) →
    Tree.nPos xs = Tree.nPos (Tree.Spec.zeroAt xs us) + us.length := by
  induction us with
  | nil => intro xs _ _ _; rw [Tree.zeroAt_nil]; rfl
  | cons i us ih =>
    intro xs hnd hlt hpos
    rw [List.nodup_cons] at hnd
    obtain ⟨v, hv, hvp⟩ := hpos i (by simp)
    rw [Tree.nPos_set hv hvp, ← Tree.zeroAt_cons]
    rw [ih hnd.2 (by intro j hj; simpa using hlt j (by simp [hj])) (by
      intro j hj
      obtain ⟨w, hw, hwp⟩ := hpos j (by simp [hj])
      refine ⟨w, ?_, hwp⟩
      rw [List.getElem?_set]
      have : i ≠ j := fun e => hnd.1 (e ▸ hj)
      simp [this, hw])]
    simp; omega

theorem nPos_pos {xs : List V} (h : ∀ x ∈ xs, 0 < x) : Tree.nPos xs = xs.length := by
  unfold Tree.nPos
  rw [List.countP_eq_length]
  intro x hx
  simpa using h x hx

theorem sample_sim {b : PB T V} {s : Spec.St T V} (h : Sim b s) (n : Nat) (ratio : V) (r : Rnd V)
    (hv : Spec.Valid s (.sample n ratio r)) :
    ∃ b' out s', b.step (.sample n ratio r) = .ok (b', out) ∧
      Spec.Step s (.sample n ratio r) out s' ∧ Sim b' s' := by
  obtain ⟨hidle, hne, hn, hrng, huni⟩ := hv
  have hwt : weights s = s.prios := by
    unfold weights
    by_cases hw : s.wait = true
    · simp [hidle hw]
    · simp [hw]
  have hsums := h.sums
  rw [hwt] at hsums
  have hpne : s.prios ≠ [] := by simpa [Spec.St.prios] using hne
  have hlen : s.prios.length = s.entries.length := by simp [Spec.St.prios]
  have hdl : b.data.length = s.entries.length := by rw [h.data]; simp
  have htot : 0 < s.prios.sum := by
    apply Tree.sum_pos_of_nPos (fun x hx => (h.pos x hx).le)
    rw [nPos_pos h.pos]
    exact List.length_pos_of_ne_nil hpne
  obtain ⟨mn, hmn, hmem, hmin⟩ := min_of_sim h.mins hpne
  -- the uniform part
  have hU : ∃ sums1 us vs1 minProb', us.Nodup ∧ us.length = (if 0 < ratio then r.nUniform else 0) ∧
      us.length ≤ n ∧
      (∀ i ∈ us, i < s.entries.length) ∧ us.map (fun i => s.prios[i]?) = vs1.map some ∧
      Tree.Sim sumAgg sums1 (if s.wait then Tree.Spec.zeroAt s.prios us else s.prios) ∧
      minProb' = (if 0 < ratio then ratio / (s.entries.length : V) + (1 - ratio) * (mn / s.prios.sum)
            else mn / s.prios.sum) ∧
      b.uniformPart n ratio r (mn / s.prios.sum)
        = .ok (sums1, us, vs1, ((n - us.length : Nat) : Int), minProb') := by
    by_cases hr : 0 < ratio
    · obtain ⟨hnu, hch, hss, us, hus⟩ := huni hr
      rw [← hlen] at hch hus
      obtain ⟨sums1, vs1, a1, a2, a3, a4, a5⟩ := uniformSample_sim hsums hch
        (by rw [hlen]; exact hss) b.wait hus
      have hlt := Tree.lt_of_map_some a4
      refine ⟨sums1, us, vs1, _, a2, by rw [if_pos hr]; exact a3, by omega, by rw [← hlen]; exact hlt,
        a4, by rw [← h.wait]; exact a5, rfl, ?_⟩
      unfold PB.uniformPart
      rw [if_pos hr, a1]
      simp only
      rw [if_pos hr, a3, hdl]
      congr
      omega
    · refine ⟨b.sums, [], [], _, List.nodup_nil, by rw [if_neg hr]; rfl, by simp, by simp, rfl, ?_, rfl,
        ?_⟩
      · rw [Tree.zeroAt_nil]; simpa using hsums
      · unfold PB.uniformPart; rw [if_neg hr, if_neg hr]; rfl
  obtain ⟨sums1, us, vs1, mp, u1, u2, u2', u3, u4, u5, u6, u7⟩ := hU
  -- the prioritized part
  have hposix : ∀ i, i < s.prios.length → ∃ v, s.prios[i]? = some v ∧ 0 < v := fun i hi =>
    ⟨s.prios[i], List.getElem?_eq_getElem hi, h.pos _ (List.getElem_mem hi)⟩
  have hP : n - us.length ≤ Tree.nPos
      (if s.wait then Tree.Spec.zeroAt s.prios us else s.prios) := by
    have e1 := nPos_pos h.pos
    cases s.wait with
    | false => simp only [Bool.false_eq_true, if_false]; rw [e1]; omega
    | true =>
      have := nPos_zeroAt (xs := s.prios) u1 (by rw [hlen]; exact u3)
        (fun i hi => hposix i (by rw [hlen]; exact u3 i hi))
      simp only [if_true]; omega
  have hnn1 : ∀ x ∈ (if s.wait then Tree.Spec.zeroAt s.prios us else s.prios), 0 ≤ x := by
    cases s.wait with
    | false => exact fun x hx => (h.pos x hx).le
    | true =>
      intro x hx
      simp only [if_true, Tree.Spec.zeroAt] at hx
      obtain ⟨j, hj, rfl⟩ := List.mem_mapIdx.1 hx
      split
      · exact le_refl _
      · exact (h.pos _ (List.getElem_mem hj)).le
  obtain ⟨sums2, is, vs2, p1, p2, p3, p4, p4', p5, p6⟩ :=
    prioritizedSample_sim u5 hnn1 hP hrng 0 b.wait
  -- the drawn positions carry their true priorities
  have p4b : is.map (fun i => s.prios[i]?) = vs2.map some := by
    cases hw : s.wait with
    | false => rw [hw] at p4; simpa using p4
    | true =>
      rw [hw] at p4
      simp only [if_true] at p4
      rw [← p4]
      apply List.map_congr_left
      intro i hi
      have hin : (Tree.Spec.zeroAt s.prios us)[i]? ∈ vs2.map some :=
        p4 ▸ List.mem_map.2 ⟨i, hi, rfl⟩
      obtain ⟨v, hv, hve⟩ := List.mem_map.1 hin
      have : i ∉ us := by
        intro hc
        have hil : i < s.prios.length := by rw [hlen]; exact u3 i hc
        simp only [Tree.Spec.zeroAt, List.getElem?_mapIdx, hc, if_true,
          List.getElem?_eq_getElem hil, Option.map_some] at hve
        have := p4' v hv
        cases hve
        exact absurd this (lt_irrefl _)
      exact (Tree.zeroAt_getElem? s.prios us i this).symm
  have hilt : ∀ i ∈ us ++ is, i < s.entries.length := by
    intro i hi
    rcases List.mem_append.1 hi with hi | hi
    · exact u3 i hi
    · rw [← hlen]; exact Tree.lt_of_map_some p4b i hi
  -- the items
  obtain ⟨items, hit, him⟩ : ∃ items : List T,
      (us ++ is).mapM (fun i => b.data[i]?) = some items ∧
      (us ++ is).map (fun i => (s.entries[i]?).map (·.1)) = items.map some := by
    generalize us ++ is = l at hilt
    induction l with
    | nil => exact ⟨[], rfl, rfl⟩
    | cons i l ih =>
      obtain ⟨items, a, c⟩ := ih (fun j hj => hilt j (by simp [hj]))
      have hi := hilt i (by simp)
      refine ⟨s.entries[i].1 :: items, ?_, ?_⟩
      · have hd : b.data[i]? = some s.entries[i].1 := by rw [h.data]; simp [hi]
        simp [List.mapM_cons, hd, a]
      · simp [hi]; simpa using c
  have hvs : (vs1 ++ vs2).map (fun p => ratio / (b.data.length : V) + (1 - ratio) * p / s.prios.sum)
      = (us ++ is).map fun i => ratio / (s.entries.length : V)
            + (1 - ratio) * ((s.prios[i]?).getD 0) / s.prios.sum := by
    have e : (us ++ is).map (fun i => s.prios[i]?) = (vs1 ++ vs2).map some := by
      rw [List.map_append, List.map_append, u4, p4b]
    have e2 : vs1 ++ vs2 = (us ++ is).map (fun i => (s.prios[i]?).getD 0) := by
      have := congrArg (List.map (fun o : Option V => o.getD 0)) e
      rw [List.map_map, List.map_map] at this
      simpa [Function.comp_def] using this.symm
    rw [e2, List.map_map, hdl]; rfl
  refine ⟨{ b with sums := sums2, sampled := some (us ++ is), flag := true }, _, _, ?_,
    Spec.Step.sample s n ratio r us is vs2 _ mn items u1 u2 u3 p5 (by omega) him hmem hmin, ?_⟩
  · have hf : (b.wait && b.flag) = false := by
      rw [h.wait, h.flag]
      by_cases hw : s.wait = true
      · simp [hidle hw]
      · simp [hw]
    simp only [PB.step, PB.sample, hf, Bool.false_eq_true, if_false, PB.sampleIndices,
      sum_of_sim hsums, hmn, if_neg (ne_of_gt htot)]
    rw [u7]
    simp only
    rw [p1]
    simp only
    rw [hit]
    simp only [Except.map]
    rw [hvs, u6]
  · refine ⟨h.cap, h.wait, rfl, rfl, h.maxp, h.data, ?_, h.mins, h.pos, h.maxpos, h.capPos, h.capLe,
      ?_, ?_, ?_, fun _ => ⟨_, rfl⟩⟩
    · simp only [weights, Option.getD_some, Bool.and_true]
      rw [h.wait] at p6
      cases hw : s.wait with
      | false => rw [hw] at p6; simpa [Spec.St.prios] using p6
      | true =>
        rw [hw] at p6
        simp only [if_true, zeroAt_append_ixs] at p6
        simpa [Spec.St.prios] using p6
    · intro l hl; cases hl; exact hilt
    · intro hw l hl
      cases hl
      rw [List.nodup_append]
      refine ⟨u1, p2, ?_⟩
      intro i hi j hj hij
      subst hij
      simp only at hw
      rw [hw] at p4
      simp only [if_true] at p4
      have hin : (Tree.Spec.zeroAt s.prios us)[i]? ∈ vs2.map some :=
        p4 ▸ List.mem_map.2 ⟨i, hj, rfl⟩
      obtain ⟨v, hv, hve⟩ := List.mem_map.1 hin
      have hil : i < s.prios.length := by rw [hlen]; exact u3 i hi
      simp only [Tree.Spec.zeroAt, List.getElem?_mapIdx, hi, if_true,
        List.getElem?_eq_getElem hil, Option.map_some] at hve
      have := p4' v hv
      cases hve
      exact absurd this (lt_irrefl _)
    · intro hc; cases hc

theorem foldl_set_mem {l : List (Nat × V)} : ∀ {xs : List V} {x : V},
    x ∈ l.foldl (fun ys p => ys.set p.1 p.2) xs → x ∈ xs ∨ x ∈ l.map (·.2) := by
  induction l with
  | nil => intro xs x h; exact Or.inl h
  | cons q l ih =>
    intro xs x h
    rw [List.foldl_cons] at h
    rcases ih h with h | h
    · rcases List.mem_or_eq_of_mem_set h with h | h
      · exact Or.inl h
      · exact Or.inr (by simp [h])
    · exact Or.inr (by simp at h ⊢; exact Or.inr h)

theorem foldl_max_pos (l : List V) : ∀ {m : V}, 0 < m → 0 < l.foldl max m := by
  induction l with
  | nil => intro m h; exact h
  | cons x l ih => intro m h; exact ih (lt_of_lt_of_le h (le_max_left _ _))

theorem setLast_sim {b : PB T V} {s : Spec.St T V} (h : Sim b s) (ps : List V)
    (hv : Spec.Valid s (.setLast ps)) :
    ∃ b' out s', b.step (.setLast ps) = .ok (b', out) ∧ Spec.Step s (.setLast ps) out s' ∧
      Sim b' s' := by
  obtain ⟨hbusy, hpos, is, his, hlen⟩ := hv
  have hplen : s.prios.length = s.entries.length := by simp [Spec.St.prios]
  have hwlen : (weights s).length = s.entries.length := by
    unfold weights
    split <;> simp [Tree.Spec.zeroAt, Spec.St.prios]
  obtain ⟨b1, g1, g2, g3, g4, g5, g6, g7⟩ := setLoop_sim (b := b) (is.zip ps) h.sums h.mins (by
    rintro ⟨i, p⟩ hp
    have := h.ixs is his i (List.of_mem_zip hp).1
    simp only; omega)
  have hsnd : (is.zip ps).map (·.2) = ps := List.map_snd_zip (by omega)
  rw [hsnd] at g4
  have hW : (is.zip ps).foldl (fun ys p => ys.set p.1 p.2) (weights s)
      = (is.zip ps).foldl (fun ys p => ys.set p.1 p.2) s.prios := by
    apply foldl_set_agree hlen (by rw [hwlen, hplen])
    intro j hj
    unfold weights
    split
    · rw [his, Option.getD_some, Tree.zeroAt_getElem? _ _ _ hj]
    · rfl
  rw [hW] at g2
  have hE : (Spec.assign s.entries (is.zip ps)).map (·.2)
      = (is.zip ps).foldl (fun ys p => ys.set p.1 p.2) s.prios := assign_snd _ _
  have hF := assign_fst (is.zip ps) s.entries
  have hEl : (Spec.assign s.entries (is.zip ps)).length = s.entries.length := by
    have := congrArg List.length hF
    simpa using this
  refine ⟨{ b1 with flag := false, sampled := some [] }, _, _, ?_,
    Spec.Step.setLast s ps is his, ?_⟩
  rotate_left
  · refine ⟨?_, ?_, rfl, rfl, ?_, ?_, ?_, ?_, ?_, ?_, h.capPos, ?_, ?_, ?_, fun _ => Or.inr rfl, ?_⟩
    · exact g5.trans h.cap
    · exact g6.trans h.wait
    · simp only; rw [g4, h.maxp]
    · simp only; rw [g7, h.data, hF]
    · simp only [weights, Bool.and_false, Bool.false_eq_true, if_false, Spec.St.prios]
      rw [hE]; exact g2
    · simp only [Spec.St.prios]; rw [hE]; exact g3
    · intro p hp
      simp only [Spec.St.prios] at hp
      rw [hE] at hp
      rcases foldl_set_mem hp with hp | hp
      · exact h.pos p hp
      · rw [hsnd] at hp; exact hpos p hp
    · exact foldl_max_pos _ h.maxpos
    · intro c hc
      simp only; rw [hEl]; exact h.capLe c hc
    · intro l hl; cases hl; simp
    · intro _ l hl; cases hl; simp
    · intro hc; cases hc
  · simp only [PB.step, PB.setLastPriority]
    have hf : (b.wait && !b.flag) = false := by
      rw [h.wait, h.flag]
      by_cases hw : s.wait = true
      · simp [hbusy hw]
      · simp [hw]
    have ha : ps.any (fun p => decide (p ≤ 0)) = false := by
      rw [List.any_eq_false]
      intro p hp
      simpa using hpos p hp
    rw [hf, ha, h.sampled, his]
    simp only [Bool.false_eq_true, if_false, hlen, ne_eq, not_true_eq_false, g1, Except.map]

theorem pop_sim' {b : PB T V} {s : Spec.St T V} (h : Sim b s)
    (hv : Spec.Valid s .popleft) :
    ∃ b' out s', b.step .popleft = .ok (b', out) ∧ Spec.Step s .popleft out s' ∧ Sim b' s' := by
  obtain ⟨hne, hw⟩ := hv
  obtain ⟨e, es, he⟩ := List.exists_cons_of_ne_nil hne
  obtain ⟨b', g1, g2⟩ := popleft_sim h hw he
  refine ⟨b', _, _, ?_, Spec.Step.popleft s e es he, g2⟩
  simp only [PB.step, g1, Except.map]

theorem step_sim {b : PB T V} {s : Spec.St T V} (h : Sim b s) (op : Op T V)
    (hv : Spec.Valid s op) :
    ∃ b' out s', b.step op = .ok (b', out) ∧ Spec.Step s op out s' ∧ Sim b' s' := by
  cases op with
  | append x p => exact append_sim h x p hv
  | popleft => exact pop_sim' h hv
  | sample n ratio r => exact sample_sim h n ratio r hv
  | setLast ps => exact setLast_sim h ps hv

theorem run_sim (ops : List (Op T V)) : ∀ {b : PB T V} {s : Spec.St T V}, Sim b s →
    Spec.Allowed s ops →
    ∃ b' outs s', b.run ops = .ok (b', outs) ∧ Spec.Steps s ops outs s' ∧ Sim b' s' := by
  induction ops with
  | nil => intro b s h _; exact ⟨b, [], s, rfl, .nil s, h⟩
  | cons op ops ih =>
    intro b s h ha
    obtain ⟨b1, out, s1, g1, g2, g3⟩ := step_sim h op ha.1
    obtain ⟨b2, outs, s2, f1, f2, f3⟩ := ih g3 (ha.2 out s1 g2)
    refine ⟨b2, out :: outs, s2, ?_, .cons g2 f2, f3⟩
    unfold PB.run
    rw [g1]; simp only [f1]

theorem new_sim {cap : Option Int} (hcap : ∀ c, cap = some c → 1 ≤ c) (wait : Bool) {m : V}
    (hm : 0 < m) : Sim (PB.new cap wait m : PB T V) (Spec.St.init cap wait m) := by
  refine ⟨rfl, rfl, rfl, rfl, rfl, rfl, ?_, ?_, ?_, hm, hcap, ?_, ?_, ?_, fun _ => Or.inl rfl, ?_⟩
  · simpa [weights, Spec.St.init, Spec.St.prios, PB.new] using Tree.new_sim (sumAgg : Tree.Agg V)
  · simpa [Spec.St.init, Spec.St.prios, PB.new] using Tree.new_sim (minAgg : Tree.Agg V)
  · intro p hp; simp [Spec.St.init, Spec.St.prios] at hp
  · intro c hc; have := hcap c hc; simp [Spec.St.init]; omega
  · intro l hl; cases hl
  · intro _ l hl; cases hl
  · intro hc; cases hc

end Pfrl.PBuf
