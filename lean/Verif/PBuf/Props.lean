import Verif.PBuf.Lemmas
import Mathlib.Data.Rat.Defs
import Mathlib.Algebra.Order.Ring.Rat
import Mathlib.Tactic.Linarith

/-!
# Properties of `PrioritizedBuffer` (C08, C09)
-/

set_option linter.unusedSectionVars false

namespace Pfrl.PBuf
open Pfrl.Tree (TQ sumAgg minAgg)
variable {T V : Type _} [Field V] [LinearOrder V] [IsStrictOrderedRing V]

/-- **C08.** For every capacity ≥ 1 (or none), every history of `append`, `popleft`, `sample` and
`set_last_priority` that respects the protocol (`Spec.Allowed`) succeeds, returns what the
specification returns, and leaves data, sum queue and min queue describing the same entries: same
lengths, never above capacity, sum and minimum of the current priorities. -/
theorem prioritized_buffer_refines {cap : Option Int} (hcap : ∀ c, cap = some c → 1 ≤ c)
    (wait : Bool) {m : V} (hm : 0 < m) (ops : List (Op T V))
    (ha : Spec.Allowed (Spec.St.init cap wait m) ops) :
    ∃ b outs s, (PB.new cap wait m : PB T V).run ops = .ok (b, outs) ∧
      Spec.Steps (Spec.St.init cap wait m) ops outs s ∧
      b.data = s.entries.map (·.1) ∧ b.sums.length = b.data.length ∧
      b.mins.length = b.data.length ∧ (∀ c, cap = some c → (b.data.length : Int) ≤ c) ∧
      (s.waiting = false → b.sums.sum = .ok (s.entries.map (·.2)).sum ∧
        Tree.Stores b.sums (s.entries.map (·.2))) ∧
      (s.entries ≠ [] → ∃ mn, b.mins.min = .ok (some mn) ∧ mn ∈ s.entries.map (·.2) ∧
        ∀ p ∈ s.entries.map (·.2), mn ≤ p) := by
  obtain ⟨b, outs, s, g1, g2, g3⟩ := run_sim ops (new_sim hcap wait hm) ha
  have hcap' : ∀ {s s' : Spec.St T V} {ops outs}, Spec.Steps s ops outs s' → s'.cap = s.cap := by
    intro s s' ops outs h
    induction h with
    | nil => rfl
    | cons h _ ih => rw [ih]; cases h <;> rfl
  have hc := hcap' g2
  refine ⟨b, outs, s, g1, g2, g3.data, ?_, ?_, ?_, ?_, ?_⟩
  · rw [g3.sums.1, g3.data]
    unfold weights
    split <;> simp [Tree.Spec.zeroAt, Spec.St.prios]
  · rw [g3.mins.1, g3.data]; simp [Spec.St.prios]
  · intro c h
    rw [g3.data, List.length_map]
    exact g3.capLe c (by rw [hc]; exact h)
  · intro hw
    have := g3.sums
    simp only [weights, hw, Bool.and_false, Bool.false_eq_true, if_false] at this
    exact ⟨sum_of_sim this, this.stores⟩
  · intro hne
    exact min_of_sim g3.mins (by simpa [Spec.St.prios] using hne)

/-- The random numbers of the examples below: weighted draws take the middle of the interval. -/
def midRnd : Rnd ℚ := ⟨0, [], fun _ => 0, 0, fun _ hi => hi / 2⟩

theorem midRnd_uniform : Tree.Spec.UniformRng midRnd.rng := by
  intro t hi h
  simp only [midRnd]
  constructor <;> linarith

/-- The protocol allows this history (capacity 3; the fourth append evicts; then a sample, its
update, and more traffic). -/
example : Spec.Allowed (Spec.St.init (some 3) true 1 : Spec.St Nat ℚ)
    [.append 10 none, .append 11 (some 2), .append 12 none, .append 13 (some 4),
     .sample 2 0 midRnd, .setLast [5, 6], .popleft, .append 14 none] := by
  refine ⟨⟨by simp, by simp [Spec.St.init]⟩, ?_⟩; rintro out s' ⟨⟩
  refine ⟨⟨by simp, by simp [Spec.St.init]⟩, ?_⟩; rintro out s' ⟨⟩
  refine ⟨⟨by simp, by simp [Spec.St.init]⟩, ?_⟩; rintro out s' ⟨⟩
  refine ⟨⟨by simp, by simp [Spec.St.init]⟩, ?_⟩; rintro out s' ⟨⟩
  refine ⟨⟨by simp [Spec.St.init], by simp, ?_, midRnd_uniform, by simp⟩, ?_⟩
  · simp [Spec.St.init, Spec.St.full]
  rintro out s' h
  cases h with
  | sample _ _ _ us is vs ws mn items h1 h2 h3 h4 h5 h6 h7 h8 =>
    have hl : (us ++ is).length = 2 := by simpa using h5
    refine ⟨⟨by simp, by simp, _, rfl, by simpa using h5⟩, ?_⟩
    rintro out s' h
    cases h with
    | setLast _ is' hs =>
      cases hs
      refine ⟨⟨?_, rfl⟩, ?_⟩
      · simp only [ne_eq]
        intro hc
        have := congrArg (List.map (·.1)) hc
        rw [assign_fst] at this
        simp [Spec.St.init, Spec.St.full] at this
      · rintro out s' h
        exact ⟨⟨by simp, by intro hw; cases h; simp at hw⟩, fun _ _ _ => trivial⟩

example : ((PB.new (some 3) true 1 : PB Nat ℚ).run
      [.append 10 none, .append 11 (some 2), .append 12 none, .append 13 (some 4),
       .sample 2 0 midRnd, .setLast [5, 6], .popleft, .append 14 none]).map (fun r => r.1.data)
    = .ok [12, 13, 14] := by decide +kernel

/-! ## C09 -/

omit [Field V] [LinearOrder V] [IsStrictOrderedRing V] in
theorem assign_getElem?_not_mem {l : List (Nat × V)} : ∀ {es : List (T × V)} {j : Nat},
    j ∉ l.map (·.1) → (Spec.assign es l)[j]? = es[j]? := by
  induction l with
  | nil => intros; rfl
  | cons q l ih =>
    intro es j hj
    obtain ⟨i, p⟩ := q
    simp only [List.map_cons, List.mem_cons, not_or] at hj
    simp only [Spec.assign]
    rw [ih hj.2]
    simp [Ne.symm hj.1]

omit [Field V] [LinearOrder V] [IsStrictOrderedRing V] in
theorem assign_getElem?_mem : ∀ {is : List Nat} {ps : List V} {es : List (T × V)} {k i : Nat}
    {p : V} {e : T × V}, is.Nodup → is[k]? = some i → ps[k]? = some p → es[i]? = some e →
    (Spec.assign es (is.zip ps))[i]? = some (e.1, p) := by
  intro is
  induction is with
  | nil => intro ps es k i p e _ h; simp at h
  | cons i0 is ih =>
    intro ps es k i p e hnd hi hp he
    rw [List.nodup_cons] at hnd
    cases ps with
    | nil => simp at hp
    | cons p0 ps =>
      rw [List.zip_cons_cons]
      simp only [Spec.assign]
      cases k with
      | zero =>
        simp at hi hp; subst hi hp
        rw [assign_getElem?_not_mem]
        · simp [he]
        · intro hc
          obtain ⟨q, hq, rfl⟩ := List.mem_map.1 hc
          exact hnd.1 (List.of_mem_zip hq).1
      | succ k =>
        simp at hi hp
        have hne : i0 ≠ i := by
          rintro rfl; exact hnd.1 (List.mem_of_getElem? hi)
        exact ih hnd.2 hi hp (by simp [hne, he])

/-- The entries created by appends while the running maximum priority is `m`. -/
def appended (m : V) (xs : List (T × Option V)) : List (T × V) := xs.map fun a => (a.1, a.2.getD m)

theorem steps_appends {ps : List V} {is : List Nat} : ∀ (xs : List (T × Option V))
    {s s' : Spec.St T V} {outs : List (Out T V)},
    Spec.Steps s (xs.map (fun a => .append a.1 a.2) ++ [.setLast ps]) outs s' →
    s.sampled = some is → (∀ c, s.cap = some c → (s.entries.length + xs.length : Int) ≤ c) →
    s'.entries = Spec.assign (s.entries ++ appended s.maxp xs) (is.zip ps) ∧ s'.waiting = false := by
  intro xs
  induction xs with
  | nil =>
    intro s s' outs h hs _
    simp only [List.map_nil, List.nil_append] at h
    cases h with
    | cons h1 h2 =>
      cases h2
      cases h1 with
      | setLast _ is' hs' => rw [hs] at hs'; cases hs'; exact ⟨by simp [appended], rfl⟩
  | cons a xs ih =>
    intro s s' outs h hs hcap
    simp only [List.map_cons, List.cons_append] at h
    cases h with
    | cons h1 h2 =>
      cases h1
      have hf : s.full = false := by
        simp only [Spec.St.full, decide_eq_false_iff_not]
        intro hc
        have := hcap _ hc
        simp at this; omega
      have hrec := ih h2 hs (by
        intro c hc
        have := hcap c hc
        simp only [hf] at this ⊢
        simp at this ⊢; omega)
      refine ⟨?_, hrec.2⟩
      rw [hrec.1]
      simp [hf, appended]

theorem set_last_aux {cap : Option Int} {m : V} {ops : List (Op T V)}
    {b : PB T V} {s : Spec.St T V} {outs : List (Out T V)}
    (hsteps : Spec.Steps (Spec.St.init cap true m) ops outs s) (hb : Sim b s)
    {n : Nat} {ratio : V} {r : Rnd V} {xs : List (T × Option V)} {ps : List V}
    (hv : Spec.Valid s (.sample n ratio r)) (hps : ps.length = n) (hpos : ∀ p ∈ ps, 0 < p)
    (hxs : ∀ a ∈ xs, ∀ v, a.2 = some v → 0 < v)
    (hroom : ∀ c, cap = some c → (s.entries.length + xs.length : Int) ≤ c)
    (hdist : (s.entries.map (·.1) ++ xs.map (·.1)).Nodup) :
    ∃ (b' : PB T V) (s' : Spec.St T V) (items : List T) (probs : List V) (mp : V) (outs' : List (Out T V)), b.run
        (.sample n ratio r :: (xs.map (fun a => .append a.1 a.2) ++ [.setLast ps]))
        = .ok (b', .batch items probs mp :: outs') ∧
      Sim b' s' ∧ s'.waiting = false ∧ items.length = n ∧ items.Nodup ∧
      s'.entries.map (·.1) = s.entries.map (·.1) ++ xs.map (·.1) ∧
      (∀ (k : Nat) x p, items[k]? = some x → ps[k]? = some p → (x, p) ∈ s'.entries) ∧
      (∀ e ∈ s.entries ++ appended s.maxp xs, e.1 ∉ items → e ∈ s'.entries) := by
  have hcs : s.cap = cap ∧ s.wait = true := by
    have : ∀ {s s' : Spec.St T V} {ops outs}, Spec.Steps s ops outs s' →
        s'.cap = s.cap ∧ s'.wait = s.wait := by
      intro s s' ops outs h
      induction h with
      | nil => exact ⟨rfl, rfl⟩
      | cons h _ ih => rw [ih.1, ih.2]; cases h <;> exact ⟨rfl, rfl⟩
    exact this hsteps
  have hallow : Spec.Allowed s
      (.sample n ratio r :: (xs.map (fun a => .append a.1 a.2) ++ [.setLast ps])) := by
    refine ⟨hv, ?_⟩
    intro out s1 h1
    obtain ⟨is, h1s, h1w, h1l, h1e, h1c, h1wait⟩ : ∃ is, s1.sampled = some is ∧ s1.waiting = true ∧
        is.length = n ∧ s1.entries = s.entries ∧ s1.cap = s.cap ∧ s1.wait = s.wait := by
      cases h1 with
      | sample _ _ _ us is vs ws mn items a1 a2 a3 a4 a5 a6 a7 a8 =>
        exact ⟨us ++ is, rfl, rfl, by simpa using a5, rfl, rfl, rfl⟩
    have hroom1 : ∀ c, s1.cap = some c → (s1.entries.length + xs.length : Int) ≤ c := by
      intro c hc; rw [h1e]; exact hroom c (by rw [← hcs.1, ← h1c]; exact hc)
    clear h1 hroom hdist h1e h1c
    induction xs generalizing s1 with
    | nil =>
      exact ⟨⟨fun _ => h1w, hpos, is, h1s, by omega⟩, fun _ _ _ => trivial⟩
    | cons a xs ih =>
      refine ⟨⟨hxs a (by simp), fun _ => ?_⟩, ?_⟩
      · simp only [Spec.St.full, decide_eq_false_iff_not]
        intro hc
        have := hroom1 _ hc
        simp at this; omega
      · intro out' s2 h2
        have hf : s1.full = false := by
          simp only [Spec.St.full, decide_eq_false_iff_not]
          intro hc
          have := hroom1 _ hc
          simp at this; omega
        cases h2
        refine ih (fun a ha => hxs a (by simp [ha])) _ h1s h1w h1wait ?_
        intro c hc
        have := hroom1 c hc
        simp only [hf] at this ⊢
        simp at this ⊢; omega
  obtain ⟨b', outs', s', g1, g2, g3⟩ := run_sim _ hb hallow
  cases g2 with
  | cons h1 h2 =>
    cases h1 with
    | sample _ _ _ us is vs ws mn items a1 a2 a3 a4 a5 a6 a7 a8 =>
      obtain ⟨hE, hwf⟩ := steps_appends xs h2 rfl (by
        intro c hc; exact hroom c (by rw [← hcs.1]; exact hc))
      simp only at hE
      -- positions are distinct because the buffer waits
      have hnd : (us ++ is).Nodup := by
        obtain ⟨d1, -, d3, d4, -⟩ := Tree.drawn_sound a4
        rw [List.nodup_append]
        refine ⟨a1, d1, ?_⟩
        intro i hi j hj hij
        subst hij
        rw [hcs.2] at d4
        simp only [if_true] at d4
        have hin : (Tree.Spec.zeroAt s.prios us)[i]? ∈ vs.map some :=
          d4 ▸ List.mem_map.2 ⟨i, hj, rfl⟩
        obtain ⟨v, hv', hve⟩ := List.mem_map.1 hin
        have hil : i < s.prios.length := by simpa [Spec.St.prios] using a3 i hi
        simp only [Tree.Spec.zeroAt, List.getElem?_mapIdx, hi, if_true,
          List.getElem?_eq_getElem hil, Option.map_some] at hve
        have := d3 v hv'
        cases hve
        exact absurd this (lt_irrefl _)
      have hlen : items.length = n := by
        have := congrArg List.length a6
        simp at this; omega
      have hitem : ∀ (k : Nat) (x : T), items[k]? = some x → ∃ (i : Nat) (e : T × V), (us ++ is)[k]? = some i ∧
          s.entries[i]? = some e ∧ e.1 = x := by
        intro k x hk
        have hk2 : (items.map some)[k]? = some (some x) := by
          rw [List.getElem?_map, hk]; rfl
        rw [← a6, List.getElem?_map] at hk2
        cases hi : (us ++ is)[k]? with
        | none => rw [hi] at hk2; cases hk2
        | some i =>
          rw [hi] at hk2
          simp only [Option.map_some, Option.some.injEq] at hk2
          cases he : s.entries[i]? with
          | none => rw [he] at hk2; cases hk2
          | some e =>
            rw [he] at hk2
            simp only [Option.map_some, Option.some.injEq] at hk2
            exact ⟨i, e, rfl, he, hk2⟩
      have hdist1 : (s.entries.map (·.1)).Nodup := (List.nodup_append.1 hdist).1
      refine ⟨b', s', items, _, _, _, g1, g3, hwf, hlen, ?_, ?_, ?_, ?_⟩
      · -- returned items are distinct
        unfold List.Nodup
        rw [List.pairwise_iff_getElem]
        intro k l hk hl hkl heq
        obtain ⟨i, e, c1, c2, c3⟩ := hitem k items[k] (List.getElem?_eq_getElem hk)
        obtain ⟨j, f, d1, d2, d3⟩ := hitem l items[l] (List.getElem?_eq_getElem hl)
        have hij : i = j := by
          have hi : i < (s.entries.map (·.1)).length := by
            have := (List.getElem?_eq_some_iff.1 c2).1; simpa using this
          refine (List.getElem?_inj hi hdist1).1 ?_
          simp only [List.getElem?_map, c2, d2, Option.map_some, c3, d3, heq]
        subst hij
        have hkl' : k < (us ++ is).length := (List.getElem?_eq_some_iff.1 c1).1
        have := (List.getElem?_inj hkl' hnd).1 (c1.trans d1.symm)
        omega
      · rw [hE, assign_fst]; simp [appended, Function.comp_def]
      · intro k x p hk hp
        obtain ⟨i, e, c1, c2, c3⟩ := hitem k x hk
        have hlt : i < s.entries.length := (List.getElem?_eq_some_iff.1 c2).1
        have he : (s.entries ++ appended s.maxp xs)[i]? = some e := by
          rw [List.getElem?_append_left hlt, c2]
        have := assign_getElem?_mem (es := s.entries ++ appended s.maxp xs) hnd c1 hp he
        rw [hE, ← c3]
        exact List.mem_of_getElem? this
      · intro e he hne
        obtain ⟨j, hj⟩ := List.mem_iff_getElem?.1 he
        have hjn : j ∉ ((us ++ is).zip ps).map (·.1) := by
          intro hc
          obtain ⟨q, hq, rfl⟩ := List.mem_map.1 hc
          have hmem := (List.of_mem_zip hq).1
          obtain ⟨k, hk⟩ := List.mem_iff_getElem?.1 hmem
          have hjl : q.1 < s.entries.length := by
            have hin : (s.entries[q.1]?).map (·.1) ∈ items.map some :=
              a6 ▸ List.mem_map.2 ⟨q.1, hmem, rfl⟩
            by_contra hge
            rw [List.getElem?_eq_none (by omega)] at hin
            simp at hin
          rw [List.getElem?_append_left hjl] at hj
          have hin : (s.entries[q.1]?).map (·.1) ∈ items.map some :=
            a6 ▸ List.mem_map.2 ⟨q.1, hmem, rfl⟩
          rw [hj] at hin
          simp at hin
          exact hne hin
        rw [hE]
        apply List.mem_of_getElem? (i := j)
        rw [assign_getElem?_not_mem hjn, hj]

/-- **C09 (partial).** Start from any state reached by a protocol-respecting history of a buffer
that waits for priorities, with pairwise distinct items.  Sample, then append any number of new
items as long as none is evicted, then call `set_last_priority ps`: the buffer holds the same items
plus the new ones, the `k`-th returned item has priority `ps[k]`, and every other item keeps its
priority.

Missing with respect to C09: the case where items are evicted between `sample` and
`set_last_priority`; there the property is false, see `set_last_priority_wrong_item`. -/
theorem set_last_priority_updates_sampled_partial {cap : Option Int}
    (hcap : ∀ c, cap = some c → 1 ≤ c) {m : V} (hm : 0 < m) (ops : List (Op T V))
    (ha : Spec.Allowed (Spec.St.init cap true m) ops) :
    ∃ b outs s, (PB.new cap true m : PB T V).run ops = .ok (b, outs) ∧
      Spec.Steps (Spec.St.init cap true m) ops outs s ∧ b.data = s.entries.map (·.1) ∧
      ∀ (n : Nat) (ratio : V) (r : Rnd V) (xs : List (T × Option V)) (ps : List V),
        Spec.Valid s (.sample n ratio r) → ps.length = n → (∀ p ∈ ps, 0 < p) →
        (∀ a ∈ xs, ∀ v, a.2 = some v → 0 < v) →
        (∀ c, cap = some c → (s.entries.length + xs.length : Int) ≤ c) →
        (s.entries.map (·.1) ++ xs.map (·.1)).Nodup →
        ∃ (b' : PB T V) (entries' : List (T × V)) (items : List T) (probs : List V) (mp : V)
          (outs' : List (Out T V)),
          b.run (.sample n ratio r :: (xs.map (fun a => .append a.1 a.2) ++ [.setLast ps]))
            = .ok (b', .batch items probs mp :: outs') ∧
          b'.data = entries'.map (·.1) ∧ Tree.Stores b'.sums (entries'.map (·.2)) ∧
          items.length = n ∧ items.Nodup ∧
          entries'.map (·.1) = s.entries.map (·.1) ++ xs.map (·.1) ∧
          (∀ (k : Nat) x p, items[k]? = some x → ps[k]? = some p → (x, p) ∈ entries') ∧
          (∀ e ∈ s.entries ++ appended s.maxp xs, e.1 ∉ items → e ∈ entries') := by
  obtain ⟨b, outs, s, g1, g2, g3⟩ := run_sim ops (new_sim hcap true hm) ha
  refine ⟨b, outs, s, g1, g2, g3.data, ?_⟩
  intro n ratio r xs ps hv hps hpos hxs hroom hdist
  obtain ⟨b', s', items, probs, mp, outs', e1, e2, e3, e4, e5, e6, e7, e8⟩ :=
    set_last_aux g2 g3 hv hps hpos hxs hroom hdist
  refine ⟨b', s'.entries, items, probs, mp, outs', e1, e2.data, ?_, e4, e5, e6, e7, e8⟩
  have := e2.sums
  simp only [weights, e3, Bool.and_false, Bool.false_eq_true, if_false] at this
  exact this.stores

/-- A state to which the theorem above applies with an append in between. -/
example : ((PB.new (some 3) true 1 : PB Nat ℚ).run
      [.append 10 none, .append 11 (some 2), .sample 1 0 midRnd, .append 12 none, .setLast [7],
       .sample 1 0 midRnd]).map (fun r => r.2)
    = .ok [.none, .none, .batch [11] [2 / 3] (1 / 3), .none, .none,
        .batch [11] [7 / 9] (1 / 9)] := by decide +kernel

/-- **C09 is false of the code when an item is evicted in between.**  Capacity 2, items 10 and 11;
item 11 is sampled; appending 12 evicts 10; the new priority 7 then goes to item 12, and item 11
can no longer be drawn: a draw that lands on the first stored item's share finds weight 0 there. -/
theorem set_last_priority_wrong_item :
    ((PB.new (some 2) true 1 : PB Nat ℚ).run
      [.append 10 none, .append 11 (some 2), .sample 1 0 midRnd, .append 12 none, .setLast [7]]).map
        (fun r => (r.1.data, r.2[2]?, r.1.sums.sum, (r.1.sums.popleft sumAgg).map (·.1)))
    = .ok ([11, 12], some (.batch [11] [2 / 3] (1 / 3)), .ok 7, .ok (some 0)) := by decide +kernel

end Pfrl.PBuf
