import Verif.Persist.Model
import Verif.Queue.Props
import Mathlib.Data.List.Induction

/-!
# Lemmas about the persistent queue
-/

namespace Pfrl.Persist

open Queue (RAQ Sim)
open Queue.Spec (keep newest)

/-! ## Index format -/

theorem le_length (w : Nat) : ∀ n, (le w n).length = w := by
  induction w with
  | zero => intro n; rfl
  | succ w ih => intro n; simp [le, ih]

theorem unle_le (w : Nat) : ∀ n, n < 256 ^ w → unle (le w n) = n := by
  induction w with
  | zero => intro n h; simp at h; simp [le, unle, h]
  | succ w ih =>
    intro n h
    rw [Nat.pow_succ] at h
    have := ih (n / 256) (by omega)
    simp only [le, unle, this, byteOf]
    omega

/-- The fields fit into the record. -/
def Entry.InRange (e : Entry) : Prop :=
  e.gen < 2 ^ 64 ∧ e.offset < 2 ^ 64 ∧ e.length < 2 ^ 64 ∧ e.crc < 2 ^ 32

theorem pack_ok {e : Entry} {b : Bytes} (h : pack e = .ok b) : e.InRange ∧ b = e.bytes := by
  unfold pack at h
  split at h
  · rename_i hc; cases h; exact ⟨hc, rfl⟩
  · cases h

theorem bytes_length (e : Entry) : e.bytes.length = entrySize := by
  simp [Entry.bytes, le_length, entrySize]

theorem take_append_exact {β : Type _} {a b : List β} {n : Nat} (h : a.length = n) :
    (a ++ b).take n = a := by subst h; simp

theorem drop_append_exact {β : Type _} {a b : List β} {n : Nat} (h : a.length = n) :
    (a ++ b).drop n = b := by subst h; simp

theorem unpack_bytes {e : Entry} (h : e.InRange) : unpack e.bytes = e := by
  obtain ⟨h1, h2, h3, h4⟩ := h
  have d1 : e.bytes.drop 8 = le 8 e.offset ++ (le 8 e.length ++ (le 4 e.crc ++ le 4 0)) :=
    drop_append_exact (le_length 8 _)
  have d2 : e.bytes.drop 16 = le 8 e.length ++ (le 4 e.crc ++ le 4 0) := by
    rw [show (16 : Nat) = 8 + 8 from rfl, ← List.drop_drop, d1]
    exact drop_append_exact (le_length 8 _)
  have d3 : e.bytes.drop 24 = le 4 e.crc ++ le 4 0 := by
    rw [show (24 : Nat) = 16 + 8 from rfl, ← List.drop_drop, d2]
    exact drop_append_exact (le_length 8 _)
  have t0 : e.bytes.take 8 = le 8 e.gen := take_append_exact (le_length 8 _)
  unfold unpack
  rw [d1, d2, d3, t0, take_append_exact (le_length 8 _), take_append_exact (le_length 8 _),
    take_append_exact (le_length 4 _), unle_le _ _ (by simpa using h1),
    unle_le _ _ (by simpa using h2), unle_le _ _ (by simpa using h3), unle_le _ _ (by simpa using h4)]

/-- The index file of a list of records followed by an incomplete one. -/
theorem parseIndex_entries (es : List Entry) : ∀ {junk : Bytes} {fuel : Nat},
    (∀ e ∈ es, e.InRange) → junk.length < entrySize → es.length ≤ fuel →
    parseIndex fuel ((es.map Entry.bytes).flatten ++ junk) = es := by
  induction es with
  | nil =>
    intro junk fuel _ hj _
    cases fuel with
    | zero => rfl
    | succ f =>
      simp only [List.map_nil, List.flatten_nil, List.nil_append, parseIndex]
      rw [if_pos]
      rw [List.length_take]; omega
  | cons e es ih =>
    intro junk fuel hr hj hf
    cases fuel with
    | zero => simp at hf
    | succ f =>
      have he := hr e (by simp)
      simp only [List.map_cons, List.flatten_cons, List.append_assoc, parseIndex]
      rw [take_append_exact (bytes_length e), drop_append_exact (bytes_length e), if_neg (by
        rw [bytes_length]; simp), unpack_bytes he, ih (fun e' h' => hr e' (by simp [h'])) hj
        (by simp at hf; omega)]

/-! ## Chunks -/

variable {α : Type _}

/-- The index records of a chunk holding the given items. -/
def chunkEntries (cd : Codec α) (gen : Nat) : Nat → List α → List Entry
  | _, [] => []
  | off, x :: xs =>
    ⟨gen, off, (cd.dumps x).length, (cd.crc (cd.dumps x)).val⟩ ::
      chunkEntries cd gen (off + (cd.dumps x).length) xs

/-- The data bytes of a chunk. -/
def chunkData (cd : Codec α) (xs : List α) : Bytes := (xs.map cd.dumps).flatten

/-- The index bytes of a chunk. -/
def chunkIndex (cd : Codec α) (gen : Nat) (xs : List α) : Bytes :=
  ((chunkEntries cd gen 0 xs).map Entry.bytes).flatten

theorem chunkEntries_length (cd : Codec α) (gen : Nat) (xs : List α) : ∀ off,
    (chunkEntries cd gen off xs).length = xs.length := by
  induction xs with
  | nil => intro off; rfl
  | cons x xs ih => intro off; simp [chunkEntries, ih]

theorem chunkEntries_append (cd : Codec α) (gen : Nat) (xs ys : List α) : ∀ off,
    chunkEntries cd gen off (xs ++ ys)
      = chunkEntries cd gen off xs ++ chunkEntries cd gen (off + (chunkData cd xs).length) ys := by
  induction xs with
  | nil => intro off; simp [chunkEntries, chunkData]
  | cons x xs ih =>
    intro off
    simp only [List.cons_append, chunkEntries, ih]
    simp only [chunkData, List.map_cons, List.flatten_cons, List.length_append, Nat.add_assoc]

theorem chunkIndex_snoc (cd : Codec α) (gen : Nat) (xs : List α) (x : α) :
    chunkIndex cd gen (xs ++ [x]) = chunkIndex cd gen xs ++
      (Entry.mk gen (chunkData cd xs).length (cd.dumps x).length
        (cd.crc (cd.dumps x)).val).bytes := by
  unfold chunkIndex
  rw [chunkEntries_append, List.map_append, List.flatten_append]
  simp [chunkEntries]

theorem chunkData_snoc (cd : Codec α) (xs : List α) (x : α) :
    chunkData cd (xs ++ [x]) = chunkData cd xs ++ cd.dumps x := by
  simp [chunkData]

theorem flatten_bytes_length (es : List Entry) :
    (es.map Entry.bytes).flatten.length = entrySize * es.length := by
  induction es with
  | nil => rfl
  | cons e es ih =>
    rw [List.map_cons, List.flatten_cons, List.length_append, ih, bytes_length, List.length_cons]
    rw [Nat.mul_succ]; omega

/-- Chunk `g` on disk holds exactly `items`, possibly followed by the beginning of one more
record. -/
def ChunkOK (cd : Codec α) (d : Dir) (g : Nat) (items : List α) : Prop :=
  ∃ ji jd : Bytes, ji.length < entrySize ∧ d.idx g = some (chunkIndex cd g items ++ ji) ∧
    d.dat g = some (chunkData cd items ++ jd) ∧ ∀ e ∈ chunkEntries cd g 0 items, e.InRange

/-- What is assumed of `pickle`. -/
structure Codec.Lawful (cd : Codec α) : Prop where
  loads_dumps : ∀ x, cd.loads (cd.dumps x) = .ok x
  meta_loads_dumps : ∀ m, cd.metaLoads (cd.metaDumps m) = .ok m

theorem parse_chunk {cd : Codec α} {d : Dir} {g : Nat} {items : List α} (h : ChunkOK cd d g items) :
    ∃ idata, d.idx g = some idata ∧
      parseIndex idata.length idata = chunkEntries cd g 0 items := by
  obtain ⟨ji, jd, h1, h2, h3, h4⟩ := h
  refine ⟨_, h2, ?_⟩
  apply parseIndex_entries _ h4 h1
  rw [List.length_append, chunkIndex, flatten_bytes_length]
  have : 1 * (chunkEntries cd g 0 items).length ≤ entrySize * (chunkEntries cd g 0 items).length :=
    Nat.mul_le_mul_right _ (by decide)
  omega

theorem mapM_readEntry {cd : Codec α} (hcd : cd.Lawful) (g : Nat) (xs : List α) :
    ∀ (pre jd : Bytes), (chunkEntries cd g pre.length xs).mapM
      (readEntry cd (pre ++ (chunkData cd xs ++ jd))) = .ok xs := by
  induction xs with
  | nil => intro pre jd; rfl
  | cons x xs ih =>
    intro pre jd
    have hd : pre ++ (chunkData cd (x :: xs) ++ jd)
        = (pre ++ cd.dumps x) ++ (chunkData cd xs ++ jd) := by
      simp [chunkData, List.append_assoc]
    have := ih (pre ++ cd.dumps x) jd
    rw [List.length_append] at this
    rw [chunkEntries, List.mapM_cons, hd, this]
    have he : readEntry cd (pre ++ cd.dumps x ++ (chunkData cd xs ++ jd))
        ⟨g, pre.length, (cd.dumps x).length, (cd.crc (cd.dumps x)).val⟩ = .ok x := by
      unfold readEntry
      simp only [List.append_assoc, List.drop_left, List.take_left, if_true]
      exact hcd.loads_dumps x
    rw [he]; rfl

theorem readChunk_ok {cd : Codec α} (hcd : cd.Lawful) {d : Dir} {g : Nat} {items : List α}
    (h : ChunkOK cd d g items) : readChunk cd d g = .ok items := by
  obtain ⟨idata, h1, h2⟩ := parse_chunk h
  obtain ⟨ji, jd, g1, g2, g3, g4⟩ := h
  unfold readChunk
  rw [h1, g3]
  simp only [h2]
  have := mapM_readEntry hcd g items [] jd
  simpa using this

/-- The chunk files of a directory hold exactly the chunks `cs` (oldest first). -/
structure Chunks (cd : Codec α) (d : Dir) (cs : List (List α)) : Prop where
  ok : ∀ g items, cs[g]? = some items → ChunkOK cd d g items
  free : ∀ g, cs.length ≤ g → d.dat g = none
  bound : cs.length ≤ d.bound
  dir : d.dataDir = false → cs = []
  stray : ∀ g, cs.length ≤ g → d.idx g = none ∨ d.idx g = some []
  finite : ∀ g, d.bound ≤ g → d.idx g = none

/-- Generation numbers and sizes of consecutive chunks. -/
def counts : Nat → List (List α) → List (Nat × Nat)
  | _, [] => []
  | k, c :: cs => (k, c.length) :: counts (k + 1) cs

theorem countAllChunks_ok {cd : Codec α} {d : Dir} {cs : List (List α)} (h : Chunks cd d cs) :
    ∀ (rest pre : List (List α)) (fuel : Nat), cs = pre ++ rest → rest.length < fuel →
      countAllChunks d fuel pre.length = .ok (counts pre.length rest) := by
  intro rest
  induction rest with
  | nil =>
    intro pre fuel hcs hf
    cases fuel with
    | zero => simp at hf
    | succ f =>
      have := h.free pre.length (by rw [hcs]; simp)
      simp only [countAllChunks, this]
      cases d.idx pre.length <;> rfl
  | cons c rest ih =>
    intro pre fuel hcs hf
    cases fuel with
    | zero => simp at hf
    | succ f =>
      have hok := h.ok pre.length c (by rw [hcs]; simp)
      obtain ⟨idata, h1, h2⟩ := parse_chunk hok
      obtain ⟨ji, jd, g1, g2, g3, g4⟩ := hok
      have := ih (pre ++ [c]) f (by simp [hcs]) (by simp at hf; omega)
      rw [List.length_append, List.length_singleton] at this
      simp only [countAllChunks, h1, g3, this, h2, chunkEntries_length]
      rfl

theorem counts_append (a b : List (List α)) : ∀ k,
    counts k (a ++ b) = counts k a ++ counts (k + a.length) b := by
  induction a with
  | nil => intro k; simp [counts]
  | cons c a ih => intro k; simp [counts, ih, Nat.add_assoc, Nat.add_comm 1]

theorem selectGens_spec (maxlen : Option Int) (cs : List (List α)) : ∀ remain : Int,
    ∃ pre suf, cs = pre ++ suf ∧
      selectGens maxlen remain (counts 0 cs).reverse = (List.range' pre.length suf.length).reverse ∧
      (pre = [] ∨ (maxlen.isSome ∧ remain ≤ suf.flatten.length)) ∧
      (suf = [] → cs = [] ∨ (maxlen.isSome ∧ remain ≤ 0)) := by
  induction cs using List.reverseRecOn with
  | nil => intro r; exact ⟨[], [], rfl, by simp [counts, selectGens], .inl rfl, fun _ => .inl rfl⟩
  | append_singleton cs c ih =>
    intro r
    rw [counts_append]
    simp only [counts, Nat.zero_add, List.reverse_append, List.reverse_cons, List.reverse_nil,
      List.nil_append, List.singleton_append, selectGens]
    have hkey : ∀ r', ∃ pre suf, cs ++ [c] = pre ++ suf ∧
        cs.length :: selectGens maxlen r' (counts 0 cs).reverse
          = (List.range' pre.length suf.length).reverse ∧
        (pre = [] ∨ (maxlen.isSome ∧ r' + c.length ≤ suf.flatten.length)) ∧ suf ≠ [] := by
      intro r'
      obtain ⟨pre, suf, h1, h2, h3, _⟩ := ih r'
      refine ⟨pre, suf ++ [c], by simp [h1], ?_, ?_, by simp⟩
      · rw [h2, List.length_append, List.length_singleton, List.range'_concat, List.reverse_append]
        simp [h1]
      · rcases h3 with h3 | ⟨h3, h4⟩
        · exact .inl h3
        · refine .inr ⟨h3, ?_⟩
          simp only [List.flatten_append, List.flatten_cons, List.flatten_nil, List.append_nil,
            List.length_append]
          push_cast; omega
    cases maxlen with
    | none =>
      obtain ⟨pre, suf, h1, h2, h3, h4⟩ := hkey r
      refine ⟨pre, suf, h1, h2, ?_, fun h => absurd h h4⟩
      rcases h3 with h3 | ⟨h3, _⟩
      · exact .inl h3
      · simp at h3
    | some m =>
      simp only
      by_cases hr : r > 0
      · rw [if_pos hr]
        obtain ⟨pre, suf, h1, h2, h3, h4⟩ := hkey (r - c.length)
        refine ⟨pre, suf, h1, h2, ?_, fun h => absurd h h4⟩
        rcases h3 with h3 | ⟨h3, h5⟩
        · exact .inl h3
        · exact .inr ⟨h3, by omega⟩
      · rw [if_neg hr]
        exact ⟨cs ++ [c], [], by simp, by simp, .inr ⟨rfl, by simp; omega⟩,
          fun _ => .inr ⟨rfl, by omega⟩⟩

theorem extendChunks_spec {cd : Codec α} (hcd : cd.Lawful) {d : Dir} {b : Option Nat} :
    ∀ (suf : List (List α)) (k : Nat) {buf : RAQ α} {l : List α},
      (∀ i items, suf[i]? = some items → ChunkOK cd d (k + i) items) → Sim b buf l →
      keep b l = l →
      ∃ buf', extendChunks cd d (List.range' k suf.length) buf = .ok buf' ∧
        Sim b buf' (keep b (l ++ suf.flatten)) := by
  intro suf
  induction suf with
  | nil =>
    intro k buf l _ hs hk
    exact ⟨buf, rfl, by simpa [hk] using hs⟩
  | cons c suf ih =>
    intro k buf l hok hs hk
    have h0 := readChunk_ok hcd (hok 0 c rfl)
    obtain ⟨buf1, e1, e2⟩ := RAQ.extend_spec hs c
    have hkk : keep b (keep b (l ++ c)) = keep b (l ++ c) := by
      have := Pfrl.Queue.keep_append_keep b (l ++ c) []
      simpa using this
    obtain ⟨buf2, e3, e4⟩ := ih (k + 1) (fun i items hi => by
      have := hok (i + 1) items (by simpa using hi)
      rwa [show k + (i + 1) = k + 1 + i by omega] at this) e2 hkk
    refine ⟨buf2, ?_, ?_⟩
    · rw [Nat.add_zero] at h0
      simp only [List.length_cons, List.range'_succ, extendChunks, h0, e1, e3]
    · rw [List.flatten_cons, ← List.append_assoc, ← Pfrl.Queue.keep_append_keep]
      exact e4

theorem keep_of_suffix {b : Option Nat} {l pre suf : List α}
    (h : pre = [] ∨ ∃ m, b = some m ∧ m ≤ suf.length) :
    keep b (l ++ suf) = keep b (l ++ (pre ++ suf)) ∨ (pre = []) := by
  rcases h with h | ⟨m, rfl, h⟩
  · exact .inr h
  · left
    simp only [keep, newest]
    rw [← List.append_assoc l pre suf, List.drop_append, List.drop_append]
    simp only [List.length_append]
    rw [List.drop_eq_nil_of_le (by omega), List.drop_eq_nil_of_le (as := l ++ pre) (by simp; omega)]
    congr 2; omega

theorem nextGen_range' {k n : Nat} (hn : n ≠ 0) : nextGen (List.range' k n) = k + n := by
  unfold nextGen
  have hmax : (List.range' k n).max? = some (k + n - 1) := by
    rw [List.max?_eq_some_iff]
    refine ⟨?_, ?_⟩
    · rw [List.mem_range'_1]; omega
    · intro b hb; rw [List.mem_range'_1] at hb; omega
  rw [hmax]
  simp only; omega

theorem readChunks_spec {cd : Codec α} (hcd : cd.Lawful) {d : Dir} {cs : List (List α)}
    (h : Chunks cd d cs) {b : Option Nat} (hb : ∀ m, b = some m → 0 < m) {buf : RAQ α}
    {l : List α} (hs : Sim b buf l) (hk : keep b l = l) :
    ∃ buf', readChunks cd d (b.map Int.ofNat) buf = .ok (cs.length, buf') ∧
      Sim b buf' (keep b (l ++ cs.flatten)) := by
  unfold readChunks chooseGens
  have hc := countAllChunks_ok h cs [] (d.bound + 1) rfl (by have := h.bound; omega)
  rw [List.length_nil] at hc
  rw [hc]
  obtain ⟨pre, suf, h1, h2, h3, h4⟩ := selectGens_spec (b.map Int.ofNat) cs
    ((b.map Int.ofNat).getD 0)
  simp only [h2, List.reverse_reverse]
  obtain ⟨buf', e1, e2⟩ := extendChunks_spec hcd (d := d) (b := b) suf pre.length
    (fun i items hi => h.ok _ _ (by rw [h1, List.getElem?_append_right (by omega)]; simpa using hi))
    hs hk
  simp only [e1]
  refine ⟨buf', ?_, ?_⟩
  · congr 2
    by_cases hsuf : suf = []
    · subst hsuf
      rcases h4 rfl with h4 | ⟨h4, h5⟩
      · subst h4; rfl
      · exfalso
        cases b with
        | none => simp at h4
        | some m => have := hb m rfl; simp at h5; omega
    · rw [nextGen_range' (by simpa using hsuf), h1, List.length_append]
  · have : keep b (l ++ suf.flatten) = keep b (l ++ cs.flatten) := by
      rw [h1, List.flatten_append]
      rcases keep_of_suffix (b := b) (l := l) (pre := pre.flatten) (suf := suf.flatten) (by
        rcases h3 with h3 | ⟨h3, h5⟩
        · left; simp [h3]
        · right
          cases b with
          | none => simp at h3
          | some m => exact ⟨m, rfl, by have h6 : (m : Int) ≤ suf.flatten.length := h5; omega⟩) with h | h
      · exact h
      · rw [h, List.nil_append]
    rw [← this]; exact e2

end Pfrl.Persist
