import Verif.Sample.Model
import Verif.Queue.Lemmas

/-! Helper lemmas for `sample_n_k` (not part of the claims): the array-based rejection loop is a
plain rejection loop reading one stream. -/

namespace Pfrl.Sample

/-- Abstract rejection of one value: replace it by successive stream values while it was
already selected. -/
def absResolve (s : Nat → Nat) (sel : List Nat) : Nat → Nat → Nat → Except PyErr (Nat × Nat)
  | fuel, next, x =>
    if x ∈ sel then
      match fuel with
      | 0 => .error .timeout
      | fuel + 1 => absResolve s sel fuel (next + 1) (s next)
    else .ok (next, x)

/-- Abstract rejection of a list of candidates. -/
def absFill (s : Nat → Nat) (fuel : Nat) : List Nat → Nat → List Nat → Except PyErr (List Nat)
  | _, _, [] => .ok []
  | sel, next, x :: xs =>
    match absResolve s sel fuel next x with
    | .error e => .error e
    | .ok (next', x') => (absFill s fuel (x' :: sel) next' xs).map (x' :: ·)

structure Inv (s : Nat → Nat) (k : Nat) (st : St) (next : Nat) : Prop where
  jlo : k ≤ st.j
  jhi : st.j < 2 * k
  len : st.result.length = 2 * k
  pos : 2 * k ≤ st.pos
  tail : ∀ m, m < k → st.result[k + m]? = some (s (st.pos - k + m))
  next : next + 2 * k = st.pos + st.j

theorem draws_length (s : Nat → Nat) (p l : Nat) : (draws s p l).length = l := by simp [draws]

theorem draws_get (s : Nat → Nat) (p l m : Nat) (h : m < l) : (draws s p l)[m]? = some (s (p + m)) := by
  simp [draws, h]

theorem resolve_sim (s : Nat → Nat) (k i : Nat) (hi : i < k) (fuel : Nat) :
    ∀ (st : St) (next x : Nat), Inv s k st next → st.result[i]? = some x →
    match absResolve s st.selected fuel next x with
    | .error e => resolve s k i fuel st x = .error e
    | .ok (next', x') => ∃ st', resolve s k i fuel st x = .ok (st', x') ∧ Inv s k st' next' ∧
        st'.selected = st.selected ∧ st'.result[i]? = some x' ∧
        ∀ m, m < k → m ≠ i → st'.result[m]? = st.result[m]? := by
  induction fuel with
  | zero =>
    intro st next x hI hx
    unfold absResolve resolve
    by_cases h : x ∈ st.selected
    · simp [h]
    · simp only [h, if_false]
      exact ⟨st, rfl, hI, rfl, hx, fun _ _ _ => rfl⟩
  | succ fuel ih =>
    intro st next x hI hx
    unfold absResolve resolve
    by_cases h : x ∈ st.selected
    · simp only [h, if_true]
      have hj : st.result[st.j]? = some (s next) := by
        have := hI.tail (st.j - k) (by have := hI.jhi; have := hI.jlo; omega)
        have e : k + (st.j - k) = st.j := by have := hI.jlo; omega
        rw [e] at this
        rw [this]
        congr 2
        have := hI.next; have := hI.jlo; have := hI.pos; omega
      simp only [hj]
      have h1 := hI.jlo; have h2 := hI.jhi; have h3 := hI.len; have h4 := hI.pos
      have h5 := hI.next
      by_cases hjk : st.j + 1 = 2 * k
      · simp only [hjk, if_true]
        have hI' : Inv s k ⟨(st.result.set i (s next)).take k ++ draws s st.pos k,
            st.selected, k, st.pos + k⟩ (next + 1) := by
          constructor
          · exact Nat.le_refl k
          · simp only; omega
          · simp [draws_length, h3]; omega
          · simp only; omega
          · intro m hm
            simp only
            rw [List.getElem?_append_right (by simp; omega)]
            simp only [List.length_take, List.length_set, h3]
            have e : k + m - min k (2 * k) = m := by omega
            rw [e, draws_get _ _ _ _ hm]
            congr 2; omega
          · simp only; omega
        have hx' : (⟨(st.result.set i (s next)).take k ++ draws s st.pos k,
            st.selected, k, st.pos + k⟩ : St).result[i]? =
            some (s next) := by
          simp only
          rw [List.getElem?_append_left (by simp; omega), List.getElem?_take_of_lt hi]
          exact List.getElem?_set_self (by omega)
        have := ih _ (next + 1) (s next) hI' hx'
        simp only at this
        cases hr : absResolve s st.selected fuel (next + 1) (s next) with
        | error e => rw [hr] at this; simpa using this
        | ok p =>
          obtain ⟨n', x'⟩ := p
          rw [hr] at this
          obtain ⟨st', g1, g2, g3, g4, g5⟩ := this
          refine ⟨st', g1, g2, g3, g4, fun m hm hmi => ?_⟩
          rw [g5 m hm hmi]
          rw [List.getElem?_append_left (by simp; omega), List.getElem?_take_of_lt hm]
          rw [List.getElem?_set_ne (by omega)]
      · simp only [hjk, if_false]
        have hI' : Inv s k { st with result := st.result.set i (s next), j := st.j + 1 } (next + 1) := by
          constructor
          · simp only; omega
          · simp only; omega
          · simp [h3]
          · simp only; omega
          · intro m hm
            simp only
            rw [List.getElem?_set_ne (by omega)]
            exact hI.tail m hm
          · simp only; omega
        have hx' : ({ st with result := st.result.set i (s next), j := st.j + 1 } : St).result[i]? =
            some (s next) := by
          exact List.getElem?_set_self (by omega)
        have := ih _ (next + 1) (s next) hI' hx'
        simp only at this
        cases hr : absResolve s st.selected fuel (next + 1) (s next) with
        | error e => rw [hr] at this; simpa using this
        | ok p =>
          obtain ⟨n', x'⟩ := p
          rw [hr] at this
          obtain ⟨st', g1, g2, g3, g4, g5⟩ := this
          refine ⟨st', g1, g2, g3, g4, fun m hm hmi => ?_⟩
          rw [g5 m hm hmi]
          rw [List.getElem?_set_ne (by omega)]
    · simp only [h, if_false]
      exact ⟨st, rfl, hI, rfl, hx, fun _ _ _ => rfl⟩

theorem fill_sim (s : Nat → Nat) (k fuel : Nat) (xs : List Nat) :
    ∀ (st : St) (next i : Nat), Inv s k st next → i + xs.length = k →
    (∀ m, m < xs.length → st.result[i + m]? = xs[m]?) →
    match absFill s fuel st.selected next xs with
    | .error e => fill s k fuel st (List.range' i xs.length) = .error e
    | .ok ys => ∃ st', fill s k fuel st (List.range' i xs.length) = .ok st' ∧
        st'.result.take k = st.result.take i ++ ys := by
  induction xs with
  | nil =>
    intro st next i hI hik _
    simp only [absFill, List.length_nil, List.range'_zero, fill]
    refine ⟨st, rfl, ?_⟩
    simp at hik; simp [hik]
  | cons x xs ih =>
    intro st next i hI hik hres
    have hx : st.result[i]? = some x := by simpa using hres 0 (by simp)
    simp only [List.length_cons, List.range'_succ, fill, hx, absFill]
    have hi : i < k := by simp at hik; omega
    have hr := resolve_sim s k i hi fuel st next x hI hx
    cases hab : absResolve s st.selected fuel next x with
    | error e => rw [hab] at hr; simp only at hr; simp [hr]
    | ok p =>
      obtain ⟨next', x'⟩ := p
      rw [hab] at hr
      obtain ⟨st', g1, g2, g3, g4, g5⟩ := hr
      simp only [g1]
      have hI' : Inv s k { st' with selected := x' :: st'.selected } next' :=
        ⟨g2.jlo, g2.jhi, g2.len, g2.pos, g2.tail, g2.next⟩
      have hres' : ∀ m, m < xs.length →
          ({ st' with selected := x' :: st'.selected } : St).result[i + 1 + m]? = xs[m]? := by
        intro m hm
        simp only
        simp at hik
        rw [g5 (i + 1 + m) (by omega) (by omega)]
        have := hres (m + 1) (by simp; omega)
        have e : i + (m + 1) = i + 1 + m := by omega
        rw [e] at this
        simpa using this
      have := ih _ next' (i + 1) hI' (by simp at hik; omega) hres'
      simp only [g3] at this
      cases haf : absFill s fuel (x' :: st.selected) next' xs with
      | error e =>
        rw [haf] at this
        simp only [Except.map]
        simp only at this
        rw [g3]; exact this
      | ok ys =>
        rw [haf] at this
        simp only [Except.map]
        obtain ⟨st'', f1, f2⟩ := this
        refine ⟨st'', by rw [g3]; exact f1, ?_⟩
        rw [f2]
        have hlt : i < st'.result.length := by rw [g2.len]; omega
        have e1 : st'.result.take (i + 1) = st'.result.take i ++ [x'] := by
          rw [List.take_add_one, g4]; rfl
        rw [e1]
        have e2 : st'.result.take i = st.result.take i := by
          apply List.ext_getElem?
          intro m
          by_cases hm : m < i
          · rw [List.getElem?_take_of_lt hm, List.getElem?_take_of_lt hm, g5 m (by omega) (by omega)]
          · rw [List.getElem?_eq_none (by simp; omega), List.getElem?_eq_none (by simp; omega)]
        rw [e2]; simp

/-- The rejection branch is abstract rejection of the first `k` draws, replacements read from
position `k` on. -/
theorem sampleNK_reject (perm : List Nat) (s : Nat → Nat) (fuel n k : Nat) (hk : 0 < k)
    (hn : 3 * k < n) :
    sampleNK perm s fuel n k = absFill s fuel [] k (draws s 0 k) := by
  unfold sampleNK
  have h1 : ¬ ¬ (0 ≤ (k : Int) ∧ (k : Int) ≤ n) := by omega
  have h2 : ¬ ((k : Int) = 0) := by omega
  have h3 : ¬ (3 * (k : Int) ≥ n) := by omega
  simp only [h1, h2, h3, if_false, Int.toNat_natCast]
  have hI : Inv s k { result := draws s 0 (2 * k), selected := [], j := k, pos := 2 * k } k := by
    constructor
    · exact Nat.le_refl k
    · simp only; omega
    · simp [draws_length]
    · exact Nat.le_refl _
    · intro m hm
      simp only
      rw [draws_get _ _ _ _ (by omega)]
      congr 2; omega
    · simp only; omega
  have := fill_sim s k fuel (draws s 0 k) _ k 0 hI (by simp [draws_length]) (by
    intro m hm
    rw [draws_length] at hm
    rw [draws_get _ _ _ _ hm]; simp only; rw [draws_get _ _ _ _ (by omega)]; simp)
  rw [draws_length, ← List.range_eq_range'] at this
  cases hab : absFill s fuel [] k (draws s 0 k) with
  | error e => rw [hab] at this; simp only at this; rw [this]; rfl
  | ok ys =>
    rw [hab] at this
    obtain ⟨st', f1, f2⟩ := this
    rw [f1]; simp only [Except.map]
    simpa using f2

theorem absResolve_ok {s : Nat → Nat} {sel : List Nat} (fuel : Nat) :
    ∀ {next x next' x' : Nat}, absResolve s sel fuel next x = .ok (next', x') →
    x' ∉ sel ∧ (x' = x ∨ ∃ p, x' = s p) := by
  induction fuel with
  | zero =>
    intro next x next' x' h
    unfold absResolve at h
    split at h
    · cases h
    · cases h; exact ⟨by assumption, .inl rfl⟩
  | succ fuel ih =>
    intro next x next' x' h
    unfold absResolve at h
    split at h
    · obtain ⟨h1, h2⟩ := ih h
      refine ⟨h1, .inr ?_⟩
      rcases h2 with h2 | h2
      · exact ⟨_, h2⟩
      · exact h2
    · cases h; exact ⟨by assumption, .inl rfl⟩

theorem absResolve_err {s : Nat → Nat} {sel : List Nat} (fuel : Nat) :
    ∀ {next x : Nat} {e}, absResolve s sel fuel next x = .error e → e = .timeout := by
  induction fuel with
  | zero =>
    intro next x e h
    unfold absResolve at h
    split at h
    · cases h; rfl
    · cases h
  | succ fuel ih =>
    intro next x e h
    unfold absResolve at h
    split at h
    · exact ih h
    · cases h

theorem absFill_err {s : Nat → Nat} {fuel : Nat} (xs : List Nat) :
    ∀ {sel next e}, absFill s fuel sel next xs = .error e → e = .timeout := by
  induction xs with
  | nil => intro sel next e h; simp [absFill] at h
  | cons x xs ih =>
    intro sel next e h
    simp only [absFill] at h
    split at h
    · rename_i e' he; cases h; exact absResolve_err _ he
    · rename_i n' x' he
      cases hf : absFill s fuel (x' :: sel) n' xs with
      | error e' => rw [hf] at h; simp [Except.map] at h; subst h; exact ih hf
      | ok ys => rw [hf] at h; simp [Except.map] at h

theorem absFill_ok {s : Nat → Nat} {fuel n : Nat} (hs : ∀ i, s i < n) (xs : List Nat) :
    ∀ {sel next ys}, absFill s fuel sel next xs = .ok ys → (∀ x ∈ xs, x < n) →
    ys.length = xs.length ∧ ys.Nodup ∧ (∀ y ∈ ys, y ∉ sel) ∧ ∀ y ∈ ys, y < n := by
  induction xs with
  | nil => intro sel next ys h _; simp [absFill] at h; subst h; simp
  | cons x xs ih =>
    intro sel next ys h hx
    simp only [absFill] at h
    split at h
    · cases h
    · rename_i n' x' he
      cases hf : absFill s fuel (x' :: sel) n' xs with
      | error e' => rw [hf] at h; simp [Except.map] at h
      | ok zs =>
        rw [hf] at h; simp [Except.map] at h; subst h
        obtain ⟨h1, h2, h3, h4⟩ := ih hf (fun y hy => hx y (by simp [hy]))
        obtain ⟨r1, r2⟩ := absResolve_ok _ he
        refine ⟨by simp [h1], ?_, ?_, ?_⟩
        · refine List.nodup_cons.2 ⟨fun hm => ?_, h2⟩
          exact h3 _ hm (by simp)
        · intro y hy
          rcases List.mem_cons.1 hy with rfl | hy
          · exact r1
          · intro hs; exact h3 y hy (by simp [hs])
        · intro y hy
          rcases List.mem_cons.1 hy with rfl | hy
          · rcases r2 with r2 | ⟨p, r2⟩
            · rw [r2]; exact hx _ (by simp)
            · rw [r2]; exact hs p
          · exact h4 y hy

end Pfrl.Sample
