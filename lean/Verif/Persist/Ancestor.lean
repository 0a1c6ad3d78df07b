import Verif.Persist.Props

/-!
# Starting a persistent queue from an ancestor directory (C66)
-/

namespace Pfrl.Persist

open Queue (RAQ Sim Op Res)
open Queue.Spec (keep newest inserted)

variable {α : Type _}

/-! ## Model -/

/-- `for gen in gens: buf.extend(obj for obj in self.read_chunk(gen))`,
`persistent_collections.py:88-89`, when `buf` is a plain list. -/
def extendListChunks (cd : Codec α) (d : Dir) : List Nat → List α → Except PyErr (List α)
  | [], buf => .ok buf
  | gen :: gens, buf =>
    match readChunk cd d gen with
    | .error e => .error e
    | .ok objs => extendListChunks cd d gens (buf ++ objs)

/-- `read_chunks(maxlen, rank_data)`, `persistent_collections.py:71-92`, with a plain list. -/
def readChunksList (cd : Codec α) (d : Dir) (maxlen : Int) : Except PyErr (List α) :=
  match chooseGens d (some maxlen) with
  | .error e => .error e
  | .ok gens => extendListChunks cd d gens []

/-- The loop counting the items of an ancestor, `persistent_collections.py:373-384`; only the index
file has to exist.  The first argument bounds the iterations. -/
def countItems (d : Dir) : Nat → Nat → Except PyErr Nat
  | 0, _ => .error .timeout
  | fuel + 1, gen =>
    match d.idx gen with
    | none => .ok 0
    | some idata =>
      match countItems d fuel (gen + 1) with
      | .error e => .error e
      | .ok n => .ok ((parseIndex idata.length idata).length + n)

/-- Reading `meta.pkl` of an ancestor, `persistent_collections.py:357-360`. -/
def ancestorMeta (cd : Codec α) (d : Dir) : Except PyErr Meta :=
  match d.metaFile with
  | none => .error .fileNotFound
  | some bytes => cd.metaLoads bytes

/-- The last loop of `_load_ancestor`, `persistent_collections.py:389-400`, for the one data
directory `rank0`. -/
def fillFrom (cd : Codec α) (d : Dir) (needed : Int) (buf : RAQ α) : Except PyErr (RAQ α) :=
  let maxlen := needed - buf.len
  if maxlen ≤ 0 then .ok buf
  else
    match readChunksList cd d maxlen with
    | .error e => .error e
    | .ok data => buf.extend data

/-- `_load_ancestor`, `persistent_collections.py:355-401`.  `fs` gives the directories by name.
`comm_size` is always 1 in this code base (lines 316-322), so there is one data directory.  The
first argument bounds the recursion.  `num_data_needed = None` fails at the comparison of line
386. -/
def loadAncestor (cd : Codec α) (fs : Nat → Dir) : Nat → Nat → Option Int → RAQ α →
    Except PyErr (RAQ α)
  | 0, _, _, _ => .error .recursionError
  | fuel + 1, anc, needed, buf =>
    match ancestorMeta cd (fs anc) with
    | .error e => .error e
    | .ok m =>
      match countItems (fs anc) ((fs anc).bound + 1) 0 with
      | .error e => .error e
      | .ok length =>
        match needed with
        | none => .error .typeError
        | some n =>
          match m.ancestor with
          | none => fillFrom cd (fs anc) n buf
          | some anc' =>
            if (length : Int) < n then
              match loadAncestor cd fs fuel anc' (some (n - length)) buf with
              | .error e => .error e
              | .ok buf' => fillFrom cd (fs anc) n buf'
            else fillFrom cd (fs anc) n buf

/-- `__init__` with an ancestor, `persistent_collections.py:186-215`. -/
def PQ.openFrom (cd : Codec α) (chunksize : Nat) (fs : Nat → Dir) (fuel : Nat) (d : Dir) (anc : Nat)
    (maxlen : Option Int) : Except PyErr (List Eff × PQ α) :=
  if validMaxlen maxlen then
    match RAQ.new maxlen [] with
    | .error e => .error e
    | .ok buffer =>
      match loadAncestor cd fs fuel anc maxlen buffer with
      | .error e => .error e
      | .ok buffer' => PQ.openWith cd chunksize d (some anc) maxlen buffer'
  else .error .assertionError

/-! ## Specification -/

/-- The directory holds `items`: it was left by some history of sessions, or it was started from an
ancestor and used for one session. -/
inductive Spec.Holds (cd : Codec α) (ck : Nat) : Dir → List α → Prop
  | history {d : Dir} {all : List α} : Spec.History cd ck d all → Spec.Holds cd ck d all
  | from {d : Dir} {all : List α} {fs : Nat → Dir} {fuel anc : Nat} {maxlen : Option Int} {e e' : List Eff}
      {q q' : PQ α} {ops : List (Op α)} {outs : List (Res α)} :
      Spec.Holds cd ck d all → PQ.openFrom cd ck fs fuel d anc maxlen = .ok (e, q) →
      q.run cd ck ops = .ok (e', outs, q') →
      Spec.Holds cd ck (d.applyAll (e ++ e')) (all ++ inserted ops)

/-- `Lineage cd ck fs a up own`: directory `a` holds the items `own`, and its chain of ancestors
holds `up` altogether (oldest first). -/
inductive Spec.Lineage (cd : Codec α) (ck : Nat) (fs : Nat → Dir) : Nat → Nat → List α → List α → Prop
  | root {a : Nat} {own : List α} {m : Meta} : Spec.Holds cd ck (fs a) own →
      ancestorMeta cd (fs a) = .ok m → m.ancestor = none → Spec.Lineage cd ck fs 1 a [] own
  | child {n a a' : Nat} {up own own' : List α} {m : Meta} : Spec.Lineage cd ck fs n a' up own' →
      Spec.Holds cd ck (fs a) own → ancestorMeta cd (fs a) = .ok m → m.ancestor = some a' →
      Spec.Lineage cd ck fs (n + 1) a (up ++ own') own

/-! ## Lemmas -/

theorem extendListChunks_spec {cd : Codec α} (hcd : cd.Lawful) {d : Dir} :
    ∀ (suf : List (List α)) (k : Nat) (buf : List α),
      (∀ i items, suf[i]? = some items → ChunkOK cd d (k + i) items) →
      extendListChunks cd d (List.range' k suf.length) buf = .ok (buf ++ suf.flatten) := by
  intro suf
  induction suf with
  | nil => intro k buf _; simp [extendListChunks]
  | cons c suf ih =>
    intro k buf hok
    have h0 := readChunk_ok hcd (hok 0 c rfl)
    rw [Nat.add_zero] at h0
    have := ih (k + 1) (buf ++ c) (fun i items hi => by
      have := hok (i + 1) items (by simpa using hi)
      rwa [show k + (i + 1) = k + 1 + i by omega] at this)
    simp only [List.length_cons, List.range'_succ, extendListChunks, h0, this]
    simp

theorem readChunksList_spec {cd : Codec α} (hcd : cd.Lawful) {d : Dir} {cs : List (List α)}
    (h : Chunks cd d cs) (maxlen : Int) :
    ∃ pre suf, cs.flatten = pre ++ suf ∧ readChunksList cd d maxlen = .ok suf ∧
      (pre = [] ∨ maxlen ≤ suf.length) := by
  unfold readChunksList chooseGens
  have hc := countAllChunks_ok h cs [] (d.bound + 1) rfl (by have := h.bound; omega)
  rw [List.length_nil] at hc
  rw [hc]
  obtain ⟨pre, suf, h1, h2, h3, _⟩ := selectGens_spec (some maxlen) cs maxlen
  simp only [Option.getD_some, h2, List.reverse_reverse]
  rw [extendListChunks_spec hcd suf pre.length []
    (fun i items hi => h.ok _ _ (by rw [h1, List.getElem?_append_right (by omega)]; simpa using hi))]
  refine ⟨pre.flatten, suf.flatten, by rw [h1, List.flatten_append], by simp, ?_⟩
  rcases h3 with h3 | ⟨_, h3⟩
  · left; simp [h3]
  · right; exact h3

theorem countItems_stray {d : Dir} {k : Nat}
    (hs : ∀ g, k ≤ g → d.idx g = none ∨ d.idx g = some []) (hf : ∀ g, d.bound ≤ g → d.idx g = none) :
    ∀ (fuel g : Nat), k ≤ g → d.bound < fuel + g → countItems d fuel g = .ok 0 ∨ (fuel = 0 ∧ d.bound < g) := by
  intro fuel
  induction fuel with
  | zero => intro g _ hb; right; exact ⟨rfl, by omega⟩
  | succ f ih =>
    intro g hg hb
    left
    rcases hs g hg with h | h
    · simp [countItems, h]
    · have hlt : g < d.bound := by
        rcases Nat.lt_or_ge g d.bound with h' | h'
        · exact h'
        · rw [hf g h'] at h; cases h
      rcases ih (g + 1) (by omega) (by omega) with h' | ⟨h', h''⟩
      · simp [countItems, h, h', parseIndex]
      · omega

theorem countItems_ok {cd : Codec α} {d : Dir} {cs : List (List α)} (h : Chunks cd d cs) :
    ∀ (rest pre : List (List α)) (fuel : Nat), cs = pre ++ rest → d.bound < fuel + pre.length →
      countItems d fuel pre.length = .ok rest.flatten.length := by
  intro rest
  induction rest with
  | nil =>
    intro pre fuel hcs hf
    have hb := h.bound
    rcases countItems_stray h.stray h.finite fuel pre.length (by rw [hcs]; simp) hf with h' | ⟨_, h'⟩
    · simpa using h'
    · rw [hcs] at hb; simp at hb; omega
  | cons c rest ih =>
    intro pre fuel hcs hf
    have hb := h.bound
    rw [hcs] at hb
    simp only [List.length_append, List.length_cons] at hb
    cases fuel with
    | zero => omega
    | succ f =>
      have hok := h.ok pre.length c (by rw [hcs]; simp)
      obtain ⟨idata, h1, h2⟩ := parse_chunk hok
      have := ih (pre ++ [c]) f (by simp [hcs]) (by simp; omega)
      rw [List.length_append, List.length_singleton] at this
      simp only [countItems, h1, this, h2, chunkEntries_length]
      simp

theorem keep_length_le {b : Nat} (l : List α) : (keep (some b) l).length ≤ b := by
  simp [keep, newest]; omega

theorem keep_eq_self {b : Nat} {l : List α} (h : l.length ≤ b) : keep (some b) l = l := by
  simp [keep, newest, show l.length - b = 0 by omega]

theorem keep_keep (b : Option Nat) (l : List α) : keep b (keep b l) = keep b l := by
  have := Pfrl.Queue.keep_append_keep b l []
  simpa using this

theorem sim_len {b : Option Nat} {q : RAQ α} {l : List α} (h : Sim b q l) : q.len = l.length := by
  rw [← RAQ.iter_length, h.1]

theorem sim_keep {b : Option Nat} {q : RAQ α} {l : List α} (h : Sim b q l) : keep b l = l := by
  cases b with
  | none => rfl
  | some m => exact keep_eq_self (h.2.2 m rfl)

theorem fillFrom_sim {cd : Codec α} {d : Dir} {n : Int} {b : Option Nat} {q q' : RAQ α} {l : List α}
    (h : Sim b q l) (hf : fillFrom cd d n q = .ok q') : ∃ l', Sim b q' l' := by
  unfold fillFrom at hf
  simp only at hf
  split at hf
  · cases hf; exact ⟨l, h⟩
  · split at hf
    · cases hf
    · rename_i data _
      obtain ⟨q1, h1, h2⟩ := RAQ.extend_spec h data
      rw [h1] at hf; cases hf
      exact ⟨_, h2⟩

theorem loadAncestor_sim {cd : Codec α} {fs : Nat → Dir} {b : Option Nat} : ∀ (fuel anc : Nat)
    (needed : Option Int) {q q' : RAQ α} {l : List α}, Sim b q l →
    loadAncestor cd fs fuel anc needed q = .ok q' → ∃ l', Sim b q' l' := by
  intro fuel
  induction fuel with
  | zero => intro anc needed q q' l _ h; cases h
  | succ f ih =>
    intro anc needed q q' l hs h
    unfold loadAncestor at h
    split at h
    · cases h
    · rename_i m hm
      split at h
      · cases h
      · rename_i length hlen
        split at h
        · cases h
        · rename_i n
          split at h
          · exact fillFrom_sim hs h
          · rename_i anc' hanc
            split at h
            · split at h
              · cases h
              · rename_i buf' hb
                obtain ⟨l', hl'⟩ := ih anc' _ hs hb
                exact fillFrom_sim hl' h
            · exact fillFrom_sim hs h

theorem openFrom_split {cd : Codec α} {ck fuel : Nat} {fs : Nat → Dir} {d : Dir} {anc : Nat}
    {maxlen : Option Int} {r : List Eff × PQ α}
    (h : PQ.openFrom cd ck fs fuel d anc maxlen = .ok r) :
    ∃ (b : Option Nat) (buf : RAQ α) (l : List α), maxlen = b.map Int.ofNat ∧
      (∀ m, b = some m → 0 < m) ∧ Sim b buf l ∧
      PQ.openWith cd ck d (some anc) (b.map Int.ofNat) buf = .ok r := by
  have hb : validMaxlen maxlen = true := by
    unfold PQ.openFrom at h
    split at h
    · assumption
    · cases h
  obtain ⟨b, rfl, hb'⟩ : ∃ b : Option Nat, maxlen = b.map Int.ofNat ∧ ∀ m, b = some m → 0 < m := by
    cases maxlen with
    | none => exact ⟨none, rfl, by simp⟩
    | some m =>
      have hm : m > 0 := by simpa [validMaxlen] using hb
      exact ⟨some m.toNat, by simp; omega, by simp; omega⟩
  obtain ⟨buf0, h1, h2⟩ := RAQ.new_sim b ([] : List α)
  unfold PQ.openFrom at h
  rw [if_pos hb, h1] at h
  simp only at h
  split at h
  · cases h
  · rename_i buf hbuf
    obtain ⟨l, hl⟩ := loadAncestor_sim _ _ _ h2 hbuf
    exact ⟨b, buf, l, rfl, hb', hl, h⟩

theorem holds_chunks {cd : Codec α} (hcd : cd.Lawful) {ck : Nat} (hck : 0 < ck)
    {d : Dir} {all : List α} (h : Spec.Holds cd ck d all) :
    ∃ cs, Chunks cd d cs ∧ cs.flatten = all ∧ MetaReadable cd d := by
  induction h with
  | history h => exact history_chunks hcd hck h
  | «from» _ ho hr ih =>
    obtain ⟨cs, h1, rfl, h3⟩ := ih
    obtain ⟨b, buf, l, rfl, hb, hl, ho'⟩ := openFrom_split ho
    obtain ⟨e1, q1, k0, _, _, _, ⟨cs', k1, k2⟩, k3, _⟩ :=
      openWith_spec hcd hck h1 h3 hb (some _) hl (sim_keep hl)
    rw [k0] at ho'
    cases ho'
    obtain ⟨_, r2, cs2, r3, r4⟩ := run_spec _ k1 hr
    refine ⟨cs2, ?_, by rw [r4, k2], ?_⟩
    · rw [applyAll_append]; exact r3.chunks
    · rw [applyAll_append]; exact k3.congr r2

theorem keep_suffix {b : Nat} {l pre suf : List α} (h : pre = [] ∨ b ≤ suf.length) :
    keep (some b) (l ++ suf) = keep (some b) (l ++ (pre ++ suf)) := by
  rcases keep_of_suffix (b := some b) (l := l) (pre := pre) (suf := suf) (by
    rcases h with h | h
    · exact .inl h
    · exact .inr ⟨b, rfl, h⟩) with h | h
  · exact h
  · rw [h, List.nil_append]

/-- One directory, nothing loaded yet and at most `b` items asked for. -/
theorem fillFrom_empty {cd : Codec α} (hcd : cd.Lawful) {d : Dir} {cs : List (List α)}
    (h : Chunks cd d cs) {b : Nat} (hb : 0 < b) {q : RAQ α} (hs : Sim (some b) q []) :
    ∃ q', fillFrom cd d b q = .ok q' ∧ Sim (some b) q' (keep (some b) cs.flatten) := by
  unfold fillFrom
  simp only [sim_len hs, List.length_nil]
  rw [if_neg (by simp; omega)]
  obtain ⟨pre, suf, h1, h2, h3⟩ := readChunksList_spec hcd h ((b : Int) - ((0 : Nat) : Int))
  obtain ⟨q', k1, k2⟩ := RAQ.extend_spec hs suf
  simp only [h2, k1]
  refine ⟨q', rfl, ?_⟩
  have := keep_suffix (b := b) (l := []) (pre := pre) (suf := suf) (by
    rcases h3 with h3 | h3
    · exact .inl h3
    · right; omega)
  rw [h1, ← List.nil_append (pre ++ suf), ← this]
  exact k2

/-- A directory all of whose items still fit. -/
theorem fillFrom_fits {cd : Codec α} (hcd : cd.Lawful) {d : Dir} {cs : List (List α)}
    (h : Chunks cd d cs) {b n : Nat} (hn : n ≤ b) {q : RAQ α} {l : List α} (hs : Sim (some b) q l)
    (hl : l.length + cs.flatten.length ≤ n) :
    ∃ q', fillFrom cd d n q = .ok q' ∧ Sim (some b) q' (l ++ cs.flatten) := by
  unfold fillFrom
  simp only [sim_len hs]
  by_cases hz : (n : Int) - (l.length : Int) ≤ 0
  · rw [if_pos hz]
    have : cs.flatten = [] := List.eq_nil_of_length_eq_zero (by omega)
    exact ⟨q, rfl, by simpa [this] using hs⟩
  · rw [if_neg hz]
    obtain ⟨pre, suf, h1, h2, h3⟩ := readChunksList_spec hcd h ((n : Int) - (l.length : Int))
    have hlen : pre.length + suf.length = cs.flatten.length := by rw [h1, List.length_append]
    have hpre : pre = [] := by
      rcases h3 with h3 | h3
      · exact h3
      · exact List.eq_nil_of_length_eq_zero (by omega)
    subst hpre
    obtain ⟨q', k1, k2⟩ := RAQ.extend_spec hs suf
    simp only [h2, k1]
    refine ⟨q', rfl, ?_⟩
    rw [h1, List.nil_append]
    rwa [keep_eq_self (by rw [List.length_append]; rw [List.length_nil] at hlen; omega)] at k2

theorem loadAncestor_fits {cd : Codec α} (hcd : cd.Lawful) {ck : Nat} (hck : 0 < ck)
    {fs : Nat → Dir} {depth a : Nat} {up own : List α} (h : Spec.Lineage cd ck fs depth a up own) :
    ∀ (fuel b n : Nat) {q : RAQ α}, depth ≤ fuel → n ≤ b → up.length + own.length ≤ n →
      Sim (some b) q [] →
      ∃ q', loadAncestor cd fs fuel a (some n) q = .ok q' ∧ Sim (some b) q' (up ++ own) := by
  induction h with
  | @root a own m hh hm ha =>
    intro fuel b n q hf hn hl hs
    obtain ⟨cs, h1, rfl, _⟩ := holds_chunks hcd hck hh
    cases fuel with
    | zero => omega
    | succ f =>
      have hc := countItems_ok h1 cs [] ((fs a).bound + 1) rfl (by simp)
      rw [List.length_nil] at hc
      obtain ⟨q', k1, k2⟩ := fillFrom_fits hcd h1 hn hs hl
      refine ⟨q', ?_, by simpa using k2⟩
      simp only [loadAncestor, hm, hc, ha, k1]
  | @child depth a a' up own own' m hlin hh hm ha ih =>
    intro fuel b n q hf hn hl hs
    obtain ⟨cs, h1, rfl, _⟩ := holds_chunks hcd hck hh
    cases fuel with
    | zero => omega
    | succ f =>
      have hc := countItems_ok h1 cs [] ((fs a).bound + 1) rfl (by simp)
      rw [List.length_nil] at hc
      rw [List.length_append] at hl
      simp only [loadAncestor, hm, hc, ha]
      by_cases hlt : (cs.flatten.length : Int) < (n : Int)
      · rw [if_pos hlt]
        obtain ⟨q1, k1, k2⟩ := ih f b (n - cs.flatten.length) (by omega) (by omega) (by omega) hs
        rw [show ((n - cs.flatten.length : Nat) : Int) = (n : Int) - cs.flatten.length by omega] at k1
        simp only [k1]
        exact fillFrom_fits hcd h1 hn k2 (by rw [List.length_append]; omega)
      · rw [if_neg hlt]
        have hu : up ++ own' = [] := List.eq_nil_of_length_eq_zero (by rw [List.length_append]; omega)
        rw [hu]
        exact fillFrom_fits hcd h1 hn hs (by rw [List.length_nil]; omega)

/-! ## C66 -/

/-- **C66, the part that holds.** Opening a directory (fresh, or used before) with an ancestor yields
the newest `maxlen` items of the lineage (oldest ancestor first) followed by the directory's own
items, provided that the direct ancestor has no ancestor itself, or alone holds at least `maxlen`
items, or that the whole lineage fits into `maxlen`.

Missing: a lineage of depth two or more that does not fit, see `ancestor_newest_lost`. -/
theorem open_from_ancestor_partial {cd : Codec α} (hcd : cd.Lawful) {ck : Nat} (hck : 0 < ck)
    {fs : Nat → Dir} {d : Dir} {mine : List α} (hd : Spec.Holds cd ck d mine) {depth a : Nat}
    {up own : List α} (h : Spec.Lineage cd ck fs depth a up own) {maxlen fuel : Nat}
    (hmax : 0 < maxlen) (hfuel : depth ≤ fuel)
    (hcase : depth = 1 ∨ maxlen ≤ own.length ∨ up.length + own.length ≤ maxlen) :
    ∃ e q, PQ.openFrom cd ck fs fuel d a (some maxlen) = .ok (e, q) ∧
      q.iter = newest maxlen (up ++ own ++ mine) := by
  obtain ⟨buf0, h1, h2⟩ := RAQ.new_sim (some maxlen) ([] : List α)
  have hk0 : keep (some maxlen) ([] : List α) = [] := by simp [keep, newest]
  rw [hk0] at h2
  have hload : ∃ buf, loadAncestor cd fs fuel a (some (maxlen : Int)) buf0 = .ok buf ∧
      Sim (some maxlen) buf (keep (some maxlen) (up ++ own)) := by
    by_cases hfit : up.length + own.length ≤ maxlen
    · obtain ⟨buf, k1, k2⟩ := loadAncestor_fits hcd hck h fuel maxlen maxlen hfuel (Nat.le_refl _)
        hfit h2
      exact ⟨buf, k1, by rwa [keep_eq_self (by simpa using hfit)]⟩
    · have hcase' : depth = 1 ∨ maxlen ≤ own.length := by
        rcases hcase with hc | hc | hc
        · exact .inl hc
        · exact .inr hc
        · exact absurd hc hfit
      cases h with
      | @root _ own m hh hm ha =>
        obtain ⟨cs, c1, rfl, _⟩ := holds_chunks hcd hck hh
        cases fuel with
        | zero => omega
        | succ f =>
          have hc := countItems_ok c1 cs [] ((fs a).bound + 1) rfl (by simp)
          rw [List.length_nil] at hc
          obtain ⟨q', k1, k2⟩ := fillFrom_empty hcd c1 hmax h2
          refine ⟨q', ?_, by simpa using k2⟩
          simp only [loadAncestor, hm, hc, ha, k1]
      | @child depth _ a' up own own' m hlin hh hm ha =>
        obtain ⟨cs, c1, rfl, _⟩ := holds_chunks hcd hck hh
        cases fuel with
        | zero => omega
        | succ f =>
          have hpos : 1 ≤ depth := by cases hlin <;> omega
          have hge : maxlen ≤ cs.flatten.length := by
            rcases hcase' with hc | hc
            · omega
            · exact hc
          have hc := countItems_ok c1 cs [] ((fs a).bound + 1) rfl (by simp)
          rw [List.length_nil] at hc
          obtain ⟨q', k1, k2⟩ := fillFrom_empty hcd c1 hmax h2
          refine ⟨q', ?_, ?_⟩
          · simp only [loadAncestor, hm, hc, ha]
            rw [if_neg (by omega)]
            exact k1
          · have := keep_suffix (b := maxlen) (l := []) (pre := up ++ own') (suf := cs.flatten)
              (.inr hge)
            rw [List.nil_append, List.nil_append] at this
            rwa [← this]
  obtain ⟨buf, l1, l2⟩ := hload
  obtain ⟨cs, c1, rfl, c3⟩ := holds_chunks hcd hck hd
  obtain ⟨e, q, k1, k2, _⟩ := openWith_spec hcd hck c1 c3 (b := some maxlen) (by simpa using hmax)
    (some a) l2 (sim_keep l2)
  refine ⟨e, q, ?_, ?_⟩
  · unfold PQ.openFrom
    rw [if_pos (by simpa [validMaxlen] using hmax)]
    simp only [Option.map_some] at h1 k1
    rw [show ((maxlen : Nat) : Int) = Int.ofNat maxlen from rfl] at l1 ⊢
    rw [h1]
    simp only [l1, k1]
  · have := k2.1
    rw [Pfrl.Queue.keep_append_keep] at this
    exact this

/-- **C66 is violated**, first: with `maxlen=None` no ancestor can be loaded at all; the comparison
with the number of items needed raises `TypeError` for every ancestor that could be read. -/
theorem ancestor_unbounded_raises {cd : Codec α} (hcd : cd.Lawful) {ck : Nat} (hck : 0 < ck)
    {fs : Nat → Dir} {depth a : Nat} {up own : List α} (h : Spec.Lineage cd ck fs depth a up own)
    (d : Dir) (fuel : Nat) :
    PQ.openFrom cd ck fs (fuel + 1) d a none = .error .typeError := by
  have hm : ∃ m, ancestorMeta cd (fs a) = .ok m := by cases h <;> exact ⟨_, by assumption⟩
  have hh : Spec.Holds cd ck (fs a) own := by cases h <;> assumption
  obtain ⟨m, hm⟩ := hm
  obtain ⟨cs, c1, rfl, _⟩ := holds_chunks hcd hck hh
  have hc := countItems_ok c1 cs [] ((fs a).bound + 1) rfl (by simp)
  rw [List.length_nil] at hc
  obtain ⟨buf0, h1, h2⟩ := RAQ.new_sim none ([] : List α)
  simp only [Option.map_none] at h1
  unfold PQ.openFrom
  rw [if_pos (show validMaxlen none = true from rfl), h1]
  simp only [loadAncestor, hm, hc]

/-- **C66, an ancestor that is not there.** When the ancestor directory has no `meta.pkl`, opening
raises `FileNotFoundError`, whatever the directory to be opened holds. -/
theorem ancestor_missing_raises (cd : Codec α) (ck : Nat) {fs : Nat → Dir} {a : Nat}
    (h : (fs a).metaFile = none) (d : Dir) (fuel : Nat) (maxlen : Nat) (hmax : 0 < maxlen) :
    PQ.openFrom cd ck fs (fuel + 1) d a (some maxlen) = .error .fileNotFound := by
  obtain ⟨buf0, h1, _⟩ := RAQ.new_sim (some maxlen) ([] : List α)
  simp only [Option.map_some] at h1
  unfold PQ.openFrom
  rw [if_pos (by simpa [validMaxlen] using hmax)]
  rw [show ((maxlen : Nat) : Int) = Int.ofNat maxlen from rfl, h1]
  simp only [loadAncestor, ancestorMeta, h]

/-! ## Concrete cases -/

/-- Open (from an ancestor, if given), append the items, close. -/
def exSession (fs : Nat → Dir) (anc : Option Nat) (maxlen : Option Int) (items : List Nat) :
    Except PyErr Dir :=
  match (match anc with
    | none => PQ.open exCodec 100 Dir.empty maxlen
    | some a => PQ.openFrom exCodec 100 fs 10 Dir.empty a maxlen) with
  | .error e => .error e
  | .ok (e1, q1) =>
    match q1.run exCodec 100 [.extend items] with
    | .error e => .error e
    | .ok (e2, _, _) => .ok (Dir.empty.applyAll (e1 ++ e2))

/-- Directory 0 holds 1, 2, 3, 4; directory 1 was started from it with `maxlen = 2` and given 5. -/
def exFs : Except PyErr (Nat → Dir) :=
  match exSession (fun _ => Dir.empty) none (some 10) [1, 2, 3, 4] with
  | .error e => .error e
  | .ok d0 =>
    match exSession (fun _ => d0) (some 0) (some 2) [5] with
    | .error e => .error e
    | .ok d1 => .ok (fun n => if n = 0 then d0 else d1)

/-- **C66 is violated**, second: with `maxlen = 2`, a queue started from directory 1 (whose lineage
is 1, 2, 3, 4 and then 5) begins with 3, 4: the whole chunk of the grandparent is read, it fills the
queue, and the newest item of the lineage is never loaded. -/
theorem ancestor_newest_lost :
    ∃ fs, exFs = .ok fs ∧ ∃ e q, PQ.openFrom exCodec 100 fs 10 Dir.empty 1 (some 2) = .ok (e, q) ∧
      q.iter = [3, 4] ∧ newest 2 ([1, 2, 3, 4] ++ [5]) = [4, 5] := by
  have h : exFs.bind (fun fs => (PQ.openFrom exCodec 100 fs 10 Dir.empty 1 (some 2)).map
      fun r => r.2.iter) = .ok [3, 4] := by decide +kernel
  cases hfs : exFs with
  | error e => rw [hfs] at h; cases h
  | ok fs =>
    rw [hfs] at h
    obtain ⟨⟨e, q⟩, h1, h2⟩ := ok_of_map h
    exact ⟨fs, rfl, e, q, h1, h2, rfl⟩

theorem exSession_holds {fs : Nat → Dir} {anc : Option Nat} {maxlen : Option Int} {items : List Nat}
    {d : Dir} (h : exSession fs anc maxlen items = .ok d) : Spec.Holds exCodec 100 d items := by
  unfold exSession at h
  cases anc with
  | none =>
    simp only at h
    cases ho : PQ.open exCodec 100 Dir.empty maxlen with
    | error e => simp [ho] at h
    | ok r =>
      obtain ⟨e1, q1⟩ := r
      simp only [ho] at h
      cases hr : q1.run exCodec 100 [.extend items] with
      | error e => simp [hr] at h
      | ok r =>
        obtain ⟨e2, outs, q2⟩ := r
        simp only [hr] at h
        cases h
        have := Spec.History.session .fresh ho hr
        simpa [inserted] using Spec.Holds.history this
  | some a =>
    simp only at h
    cases ho : PQ.openFrom exCodec 100 fs 10 Dir.empty a maxlen with
    | error e => simp [ho] at h
    | ok r =>
      obtain ⟨e1, q1⟩ := r
      simp only [ho] at h
      cases hr : q1.run exCodec 100 [.extend items] with
      | error e => simp [hr] at h
      | ok r =>
        obtain ⟨e2, outs, q2⟩ := r
        simp only [hr] at h
        cases h
        have := Spec.Holds.from (.history .fresh) ho hr
        simpa [inserted] using this

/-- The two directories form a lineage in the sense of the specification. -/
example : ∃ fs, exFs = .ok fs ∧ Spec.Lineage exCodec 100 fs 2 1 [1, 2, 3, 4] [5] := by
  have hm : exFs.bind (fun fs => (ancestorMeta exCodec (fs 0)).map fun m => m.ancestor)
      = .ok none := by decide +kernel
  have hm' : exFs.bind (fun fs => (ancestorMeta exCodec (fs 1)).map fun m => m.ancestor)
      = .ok (some 0) := by decide +kernel
  cases hfs : exFs with
  | error e => rw [hfs] at hm; cases hm
  | ok fs =>
    rw [hfs] at hm hm'
    obtain ⟨m, h1, h2⟩ := ok_of_map hm
    obtain ⟨m', h1', h2'⟩ := ok_of_map hm'
    refine ⟨fs, rfl, ?_⟩
    unfold exFs at hfs
    cases hd0 : exSession (fun _ => Dir.empty) none (some 10) [1, 2, 3, 4] with
    | error e => simp [hd0] at hfs
    | ok d0 =>
      simp only [hd0] at hfs
      cases hd1 : exSession (fun _ => d0) (some 0) (some 2) [5] with
      | error e => simp [hd1] at hfs
      | ok d1 =>
        simp only [hd1] at hfs
        cases hfs
        exact .child (.root (exSession_holds hd0) h1 h2) (exSession_holds hd1) h1' h2'

/-- The positive theorem at work: two levels that fit, and one level that does not. -/
example : exFs.bind (fun fs => (PQ.openFrom exCodec 100 fs 10 Dir.empty 1 (some 7)).map
    fun r => r.2.iter) = .ok [1, 2, 3, 4, 5] := by decide +kernel

example : exFs.bind (fun fs => (PQ.openFrom exCodec 100 fs 10 Dir.empty 0 (some 3)).map
    fun r => r.2.iter) = .ok [2, 3, 4] := by decide +kernel

example : PQ.openFrom exCodec 100 (fun _ => Dir.empty) 3 Dir.empty 0 (some 5) = .error .fileNotFound :=
  ancestor_missing_raises exCodec 100 rfl Dir.empty 2 5 (by decide)

end Pfrl.Persist
