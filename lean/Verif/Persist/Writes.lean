import Verif.Persist.Lemmas

/-!
# Writes of the persistent queue, complete and interrupted
-/

namespace Pfrl.Persist

open Queue (RAQ Sim)
open Queue.Spec (keep newest)

variable {α : Type _}

theorem setFile_same (f : Nat → Option Bytes) (g : Nat) (v : Option Bytes) :
    setFile f g v g = v := by simp [setFile]

theorem setFile_other (f : Nat → Option Bytes) {g i : Nat} (v : Option Bytes) (h : i ≠ g) :
    setFile f g v i = f i := by simp [setFile, h]

theorem setFile_setFile (f : Nat → Option Bytes) (g : Nat) (v w : Option Bytes) :
    setFile (setFile f g v) g w = setFile f g w := by
  funext i; simp only [setFile]; split <;> rfl

theorem setFile_eq {f : Nat → Option Bytes} {g : Nat} {v : Option Bytes} (h : f g = v) :
    setFile f g v = f := by
  funext i; simp only [setFile]; split
  · rename_i hi; rw [hi, h]
  · rfl

theorem applyAll_append (d : Dir) (a b : List Eff) :
    d.applyAll (a ++ b) = (d.applyAll a).applyAll b := by
  simp [Dir.applyAll, List.foldl_append]

theorem applyAll_datBytes (g : Nat) (bs : Bytes) : ∀ {d : Dir} {x : Bytes}, d.dat g = some x →
    d.applyAll (bs.map (Eff.datByte g)) = { d with dat := setFile d.dat g (some (x ++ bs)) } := by
  induction bs with
  | nil => intro d x h; simp [Dir.applyAll, setFile_eq h]
  | cons b bs ih =>
    intro d x h
    have := ih (d := d.apply (.datByte g b)) (x := x ++ [b]) (by
      simp [Dir.apply, setFile_same, h])
    simp only [Dir.applyAll, List.map_cons, List.foldl_cons] at this ⊢
    rw [this]
    simp [Dir.apply, setFile_setFile]

theorem applyAll_idxBytes (g : Nat) (bs : Bytes) : ∀ {d : Dir} {x : Bytes}, d.idx g = some x →
    d.applyAll (bs.map (Eff.idxByte g)) = { d with idx := setFile d.idx g (some (x ++ bs)) } := by
  induction bs with
  | nil => intro d x h; simp [Dir.applyAll, setFile_eq h]
  | cons b bs ih =>
    intro d x h
    have := ih (d := d.apply (.idxByte g b)) (x := x ++ [b]) (by
      simp [Dir.apply, setFile_same, h])
    simp only [Dir.applyAll, List.map_cons, List.foldl_cons] at this ⊢
    rw [this]
    simp [Dir.apply, setFile_setFile]

theorem applyAll_metaBytes (bs : Bytes) : ∀ {d : Dir} {x : Bytes}, d.metaFile = some x →
    d.applyAll (bs.map Eff.metaByte) = { d with metaFile := some (x ++ bs) } := by
  induction bs with
  | nil => intro d x h; cases d; simp at h; simp [Dir.applyAll, h]
  | cons b bs ih =>
    intro d x h
    have := ih (d := d.apply (.metaByte b)) (x := x ++ [b]) (by simp [Dir.apply, h])
    simp only [Dir.applyAll, List.map_cons, List.foldl_cons] at this ⊢
    rw [this]
    simp [Dir.apply]

theorem prefix_append_cases {β : Type _} {p a b : List β} (h : p <+: a ++ b) :
    (p <+: a ∧ p ≠ a) ∨ ∃ q, p = a ++ q ∧ q <+: b := by
  by_cases hl : p.length < a.length
  · left
    refine ⟨?_, by rintro rfl; omega⟩
    exact List.prefix_of_prefix_length_le h (List.prefix_append a b) (by omega)
  · right
    obtain ⟨q, hq⟩ := List.prefix_of_prefix_length_le (List.prefix_append a b) h (by omega)
    refine ⟨q, hq.symm, ?_⟩
    rw [← hq] at h
    exact (List.prefix_append_right_inj a).1 h

theorem prefix_map {β γ : Type _} {f : β → γ} {p : List γ} {l : List β} (h : p <+: l.map f) :
    ∃ l', l' <+: l ∧ p = l'.map f := by
  refine ⟨l.take p.length, List.take_prefix _ _, ?_⟩
  rw [List.map_take]
  exact List.prefix_iff_eq_take.1 h

/-! ## Chunk files under effects -/

theorem Chunks.congr {cd : Codec α} {d d' : Dir} {cs : List (List α)} (h : Chunks cd d cs)
    (h1 : d'.idx = d.idx) (h2 : d'.dat = d.dat) (h3 : d.bound ≤ d'.bound)
    (h4 : d'.dataDir = false → d.dataDir = false) : Chunks cd d' cs := by
  refine ⟨?_, ?_, Nat.le_trans h.bound h3, fun h' => h.dir (h4 h'),
    fun g hg => by rw [h1]; exact h.stray g hg,
    fun g hg => by rw [h1]; exact h.finite g (Nat.le_trans h3 hg)⟩
  · intro g items hg
    obtain ⟨ji, jd, k1, k2, k3, k4⟩ := h.ok g items hg
    exact ⟨ji, jd, k1, by rw [h1]; exact k2, by rw [h2]; exact k3, k4⟩
  · intro g hg; rw [h2]; exact h.free g hg

/-- Replacing the newest chunk. -/
theorem Chunks.setLast {cd : Codec α} {d d' : Dir} {init : List (List α)} {t t' : List α}
    (h : Chunks cd d (init ++ [t])) (hi : ∀ g, g ≠ init.length → d'.idx g = d.idx g)
    (hd : ∀ g, g ≠ init.length → d'.dat g = d.dat g) (hb : d'.bound = d.bound)
    (hdir : d'.dataDir = d.dataDir) (hok : ChunkOK cd d' init.length t') :
    Chunks cd d' (init ++ [t']) := by
  have hbd := h.bound
  rw [List.length_append, List.length_singleton] at hbd
  refine ⟨?_, ?_, ?_, ?_, fun g hg => by
      rw [List.length_append, List.length_singleton] at hg
      rw [hi g (by omega)]; exact h.stray g (by simp; omega),
    fun g hg => by rw [hi g (by omega)]; exact h.finite g (by omega)⟩
  · intro g items hg
    by_cases hlt : g < init.length
    · rw [List.getElem?_append_left hlt] at hg
      obtain ⟨ji, jd, k1, k2, k3, k4⟩ := h.ok g items (by rw [List.getElem?_append_left hlt]; exact hg)
      exact ⟨ji, jd, k1, by rw [hi g (by omega)]; exact k2, by rw [hd g (by omega)]; exact k3, k4⟩
    · have : g = init.length := by
        have := (List.getElem?_eq_some_iff.1 hg).1
        simp at this; omega
      subst this
      simp at hg; subst hg; exact hok
  · intro g hg
    simp at hg
    rw [hd g (by omega)]
    exact h.free g (by simp; omega)
  · rw [hb]; have := h.bound; simp at this ⊢; omega
  · intro hf; rw [hdir] at hf; have := h.dir hf; simp at this

/-- Files of the first `n` generations are the same. -/
def SameBelow (n : Nat) (d d' : Dir) : Prop :=
  ∀ g, g < n → d'.idx g = d.idx g ∧ d'.dat g = d.dat g

theorem SameBelow.refl (n : Nat) (d : Dir) : SameBelow n d d := fun _ _ => ⟨rfl, rfl⟩

theorem SameBelow.trans {n m : Nat} {a b c : Dir} (h : SameBelow n a b) (h' : SameBelow m b c)
    (hnm : n ≤ m) : SameBelow n a c := fun g hg =>
  ⟨(h' g (by omega)).1.trans (h g hg).1, (h' g (by omega)).2.trans (h g hg).2⟩

/-- The newest chunk is `t`, has no incomplete record, and `w` is its writer. -/
structure Tail (cd : Codec α) (chunksize : Nat) (d : Dir) (w : Writer) (init : List (List α))
    (t : List α) : Prop where
  chunks : Chunks cd d (init ++ [t])
  gen : w.gen = init.length
  idx : d.idx init.length = some (chunkIndex cd init.length t)
  dat : d.dat init.length = some (chunkData cd t)
  offset : w.offset = (chunkData cd t).length
  full : w.full = decide (chunksize < w.offset)

theorem Tail.inRange {cd : Codec α} {ck : Nat} {d : Dir} {w : Writer} {init : List (List α)}
    {t : List α} (h : Tail cd ck d w init t) :
    ∀ e ∈ chunkEntries cd init.length 0 t, e.InRange := by
  obtain ⟨_, _, _, _, _, k4⟩ := h.chunks.ok init.length t (by simp)
  exact k4

theorem writerAppend_spec {cd : Codec α} {ck : Nat} {d : Dir} {w w' : Writer}
    {init : List (List α)} {t : List α} (h : Tail cd ck d w init t) {x : α} {effs : List Eff}
    (ha : w.append cd ck x = .ok (effs, w')) :
    (∀ p, p <+: effs → p ≠ effs → Chunks cd (d.applyAll p) (init ++ [t])) ∧
    (∀ p, p <+: effs → SameBelow init.length d (d.applyAll p) ∧
      (d.applyAll p).metaFile = d.metaFile) ∧
    Tail cd ck (d.applyAll effs) w' init (t ++ [x]) := by
  unfold Writer.append at ha
  split at ha
  · cases ha
  · simp only at ha
    split at ha
    · cases ha
    · rename_i index hp
      obtain ⟨hr, rfl⟩ := pack_ok hp
      cases ha
      rw [h.gen]
      have hD : ∀ D : Bytes, d.applyAll (D.map (Eff.datByte init.length))
          = { d with dat := setFile d.dat init.length (some (chunkData cd t ++ D)) } :=
        fun D => applyAll_datBytes _ D h.dat
      have hI : ∀ I : Bytes, d.applyAll ((cd.dumps x).map (Eff.datByte init.length) ++
            I.map (Eff.idxByte init.length))
          = { d with dat := setFile d.dat init.length (some (chunkData cd t ++ cd.dumps x))
                     idx := setFile d.idx init.length (some (chunkIndex cd init.length t ++ I)) } := by
        intro I
        rw [applyAll_append, hD]
        exact applyAll_idxBytes _ I (d := { d with
          dat := setFile d.dat init.length (some (chunkData cd t ++ cd.dumps x)) }) h.idx
      refine ⟨?_, ?_, ?_⟩
      · intro p hpre hne
        rcases prefix_append_cases hpre with ⟨h1, _⟩ | ⟨q, rfl, h2⟩
        · obtain ⟨D, _, rfl⟩ := prefix_map h1
          rw [hD]
          refine h.chunks.setLast (fun _ _ => rfl) (fun g hg => setFile_other _ _ hg) rfl rfl ?_
          exact ⟨[], D, by decide, by simp [h.idx], by simp [setFile_same], h.inRange⟩
        · obtain ⟨I, hI1, rfl⟩ := prefix_map h2
          rw [hI]
          refine h.chunks.setLast (fun g hg => setFile_other _ _ hg)
            (fun g hg => setFile_other _ _ hg) rfl rfl ?_
          refine ⟨I, cd.dumps x, ?_, by simp [setFile_same], by simp [setFile_same], h.inRange⟩
          have hle := hI1.length_le
          rw [bytes_length] at hle
          rcases Nat.lt_or_ge I.length entrySize with hlt | hge
          · exact hlt
          · exfalso
            apply hne
            rw [hI1.eq_of_length (by rw [bytes_length]; omega)]
      · intro p hpre
        rcases prefix_append_cases hpre with ⟨h1, _⟩ | ⟨q, rfl, h2⟩
        · obtain ⟨D, _, rfl⟩ := prefix_map h1
          rw [hD]
          exact ⟨fun g hg => ⟨rfl, setFile_other _ _ (by omega)⟩, rfl⟩
        · obtain ⟨I, hI1, rfl⟩ := prefix_map h2
          rw [hI]
          exact ⟨fun g hg => ⟨setFile_other _ _ (by omega), setFile_other _ _ (by omega)⟩, rfl⟩
      · rw [hI]
        have hidx : chunkIndex cd init.length t ++ Entry.bytes ⟨init.length, w.offset,
            (cd.dumps x).length, (cd.crc (cd.dumps x)).val⟩ = chunkIndex cd init.length (t ++ [x]) := by
          rw [chunkIndex_snoc, h.offset]
        refine ⟨?_, rfl, ?_, ?_, ?_, rfl⟩
        · refine h.chunks.setLast (fun g hg => setFile_other _ _ hg)
            (fun g hg => setFile_other _ _ hg) rfl rfl ?_
          refine ⟨[], [], by decide, ?_, ?_, ?_⟩
          · simp only [setFile_same, hidx, List.append_nil]
          · simp only [setFile_same, chunkData_snoc, List.append_nil]
          · intro e he
            rw [chunkEntries_append] at he
            rcases List.mem_append.1 he with he | he
            · exact h.inRange e he
            · simp only [chunkEntries, List.mem_singleton, Nat.zero_add] at he
              subst he
              rw [h.offset, h.gen] at hr
              exact hr
        · simp only [setFile_same, hidx]
        · simp only [setFile_same, chunkData_snoc]
        · simp only [chunkData_snoc, List.length_append, h.offset]

theorem writerNew_spec {cd : Codec α} {ck : Nat} {d : Dir} {cs : List (List α)}
    (h : Chunks cd d cs) (hdir : d.dataDir = true) {w : Writer} {effs : List Eff}
    (ha : Writer.new ck cs.length = .ok (effs, w)) :
    (∀ p, p <+: effs → p ≠ effs → Chunks cd (d.applyAll p) cs) ∧
    (∀ p, p <+: effs → SameBelow cs.length d (d.applyAll p) ∧
      (d.applyAll p).metaFile = d.metaFile) ∧
    Tail cd ck (d.applyAll effs) w cs [] := by
  unfold Writer.new at ha
  split at ha
  · rename_i hck
    cases ha
    have hp : ∀ p : List Eff, p <+: [.idxOpen cs.length, .datOpen cs.length] →
        p = [] ∨ p = [.idxOpen cs.length] ∨ p = [.idxOpen cs.length, .datOpen cs.length] := by
      intro p hp
      rcases p with _ | ⟨a, _ | ⟨b, _ | ⟨c, r⟩⟩⟩
      · exact .inl rfl
      · rw [List.cons_prefix_cons] at hp; exact .inr (.inl (by rw [hp.1]))
      · rw [List.cons_prefix_cons, List.cons_prefix_cons] at hp
        exact .inr (.inr (by rw [hp.1, hp.2.1]))
      · have := hp.length_le; simp at this
    refine ⟨?_, ?_, ?_⟩
    · intro p hpre hne
      rcases hp p hpre with rfl | rfl | rfl
      · exact h
      · refine ⟨?_, h.free, ?_, h.dir, ?_, ?_⟩
        · intro g items hg
          obtain ⟨ji, jd, k1, k2, k3, k4⟩ := h.ok g items hg
          have hlt := (List.getElem?_eq_some_iff.1 hg).1
          refine ⟨ji, jd, k1, ?_, k3, k4⟩
          rw [← k2]
          exact setFile_other _ _ (by omega)
        · have := h.bound
          simp [Dir.applyAll, Dir.apply]; omega
        · intro g hg
          by_cases hgc : g = cs.length
          · right; subst hgc; exact setFile_same _ _ _
          · simp only [Dir.applyAll, Dir.apply, List.foldl_cons, List.foldl_nil]
            rw [setFile_other _ _ hgc]; exact h.stray g hg
        · intro g hg
          simp only [Dir.applyAll, Dir.apply, List.foldl_cons, List.foldl_nil] at hg ⊢
          have h1 := Nat.le_trans (Nat.le_max_right _ _) hg
          have h2 := Nat.le_trans (Nat.le_max_left _ _) hg
          rw [setFile_other _ _ (by omega)]; exact h.finite g h2
      · exact absurd rfl hne
    · intro p hpre
      rcases hp p hpre with rfl | rfl | rfl
      · exact ⟨SameBelow.refl _ _, rfl⟩
      · exact ⟨fun g hg => ⟨setFile_other _ _ (by omega), rfl⟩, rfl⟩
      · exact ⟨fun g hg => ⟨setFile_other _ _ (by omega), setFile_other _ _ (by omega)⟩, rfl⟩
    · refine ⟨⟨?_, ?_, ?_, ?_, ?_, ?_⟩, rfl, ?_, ?_, rfl, rfl⟩
      · intro g items hg
        by_cases hlt : g < cs.length
        · rw [List.getElem?_append_left hlt] at hg
          obtain ⟨ji, jd, k1, k2, k3, k4⟩ := h.ok g items hg
          refine ⟨ji, jd, k1, ?_, ?_, k4⟩
          · rw [← k2]; exact setFile_other _ _ (by omega)
          · rw [← k3]; exact setFile_other _ _ (by omega)
        · have : g = cs.length := by
            have := (List.getElem?_eq_some_iff.1 hg).1
            simp at this; omega
          subst this
          simp at hg; subst hg
          exact ⟨[], [], by decide, setFile_same _ _ _, setFile_same _ _ _, by simp [chunkEntries]⟩
      · intro g hg
        simp at hg
        rw [← h.free g (by omega)]
        exact setFile_other _ _ (by omega)
      · rw [List.length_append]
        exact Nat.le_max_right _ _
      · intro hf
        have : d.dataDir = false := hf
        rw [hdir] at this; cases this
      · intro g hg
        rw [List.length_append, List.length_singleton] at hg
        simp only [Dir.applyAll, Dir.apply, List.foldl_cons, List.foldl_nil]
        rw [setFile_other _ _ (by omega)]; exact h.stray g (by omega)
      · intro g hg
        simp only [Dir.applyAll, Dir.apply, List.foldl_cons, List.foldl_nil] at hg ⊢
        have h0 := Nat.le_trans (Nat.le_max_left _ _) hg
        have h1 := Nat.le_trans (Nat.le_max_right _ _) h0
        have h2 := Nat.le_trans (Nat.le_max_left _ _) h0
        rw [setFile_other _ _ (by omega)]; exact h.finite g h2
      · exact setFile_same _ _ _
      · exact setFile_same _ _ _
  · cases ha

/-! ## The queue during a session -/

/-- A queue object with an open writer on a directory holding the chunks `cs`; nothing below
generation `n0` has been changed since `d0`. -/
def Live (cd : Codec α) (ck : Nat) (n0 : Nat) (d0 d : Dir) (q : PQ α) (cs : List (List α)) : Prop :=
  ∃ init t w, cs = init ++ [t] ∧ q.tail = some w ∧ q.gen = init.length + 1 ∧ n0 ≤ init.length ∧
    SameBelow n0 d0 d ∧ Tail cd ck d w init t

theorem write_spec {cd : Codec α} {ck n0 : Nat} {d0 d : Dir} {q q' : PQ α} {cs : List (List α)}
    (h : Live cd ck n0 d0 d q cs) {x : α} {effs : List Eff}
    (hw : q.write cd ck x = .ok (effs, q')) :
    (∀ p, p <+: effs → p ≠ effs → ∃ cs', Chunks cd (d.applyAll p) cs' ∧ cs'.flatten = cs.flatten) ∧
    (∀ p, p <+: effs → SameBelow n0 d0 (d.applyAll p) ∧ (d.applyAll p).metaFile = d.metaFile) ∧
    (∃ cs', Live cd ck n0 d0 (d.applyAll effs) q' cs' ∧ cs'.flatten = cs.flatten ++ [x]) ∧
    q'.buffer = q.buffer ∧ q'.info = q.info := by
  obtain ⟨init, t, w, rfl, htail, hgen, hn0, hsame, hT⟩ := h
  unfold PQ.write at hw
  simp only [htail] at hw
  cases hfull : w.full with
  | false =>
    simp only [hfull, Bool.false_eq_true, if_false] at hw
    split at hw
    · cases hw
    · rename_i effs' w' ha
      cases hw
      obtain ⟨a1, a2, a3⟩ := writerAppend_spec hT ha
      rw [List.nil_append]
      refine ⟨fun p h1 h2 => ⟨_, a1 p h1 h2, rfl⟩, fun p h1 => ⟨hsame.trans (a2 p h1).1 hn0, (a2 p h1).2⟩,
        ⟨init ++ [t ++ [x]], ⟨init, t ++ [x], w', rfl, rfl, hgen, hn0,
          hsame.trans (a2 effs' (List.prefix_refl _)).1 hn0, a3⟩, ?_⟩, rfl, rfl⟩
      simp
  | true =>
    simp only [hfull, if_true, hgen] at hw
    have hlen : init.length + 1 = (init ++ [t]).length := by simp
    rw [hlen] at hw
    split at hw
    · cases hw
    · rename_i effs1 w1 gen1 hrot
      split at hrot
      · cases hrot
      · rename_i effs0 w0 hnew
        cases hrot
        have hdir : d.dataDir = true := by
          cases hdd : d.dataDir with
          | true => rfl
          | false => have := hT.chunks.dir hdd; simp at this
        obtain ⟨b1, b2, b3⟩ := writerNew_spec hT.chunks hdir hnew
        split at hw
        · cases hw
        · rename_i effs' w' ha
          cases hw
          obtain ⟨a1, a2, a3⟩ := writerAppend_spec b3 ha
          have hn0' : n0 ≤ (init ++ [t]).length := by simp; omega
          refine ⟨?_, ?_, ⟨(init ++ [t]) ++ [[x]], ⟨init ++ [t], [x], w', rfl, rfl, by simp, hn0', ?_, ?_⟩,
            by simp⟩, rfl, rfl⟩
          · intro p hp hne
            rcases prefix_append_cases hp with ⟨h1, h1'⟩ | ⟨r, rfl, h2⟩
            · exact ⟨_, b1 p h1 h1', rfl⟩
            · rw [applyAll_append]
              refine ⟨_, a1 r h2 (by rintro rfl; exact hne rfl), by simp⟩
          · intro p hp
            rcases prefix_append_cases hp with ⟨h1, h1'⟩ | ⟨r, rfl, h2⟩
            · exact ⟨hsame.trans (b2 p h1).1 hn0', (b2 p h1).2⟩
            · rw [applyAll_append]
              have c1 := b2 _ (List.prefix_refl _)
              exact ⟨(hsame.trans c1.1 hn0').trans (a2 r h2).1 hn0', (a2 r h2).2.trans c1.2⟩
          · rw [applyAll_append]
            have c1 := b2 _ (List.prefix_refl _)
            exact (hsame.trans c1.1 hn0').trans (a2 _ (List.prefix_refl _)).1 hn0'
          · rw [applyAll_append]
            exact a3

end Pfrl.Persist
