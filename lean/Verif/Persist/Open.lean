import Verif.Persist.Writes

/-!
# Opening a persistent queue, and whole sessions
-/

namespace Pfrl.Persist

open Queue (RAQ Sim Op Res)
open Queue.Spec (keep newest)

variable {α : Type _}

/-- `meta.pkl` is absent or readable. -/
def MetaReadable (cd : Codec α) (d : Dir) : Prop :=
  ∀ bytes, d.metaFile = some bytes → ∃ m, cd.metaLoads bytes = .ok m ∧ m.commSize = 1

/-- An effect on `meta.pkl`. -/
def Eff.isMeta : Eff → Bool
  | .metaOpen => true
  | .metaByte _ => true
  | _ => false

theorem applyAll_meta (p : List Eff) : ∀ (d : Dir), (∀ e ∈ p, e.isMeta = true) →
    (d.applyAll p).idx = d.idx ∧ (d.applyAll p).dat = d.dat ∧ (d.applyAll p).bound = d.bound ∧
    (d.applyAll p).dataDir = d.dataDir := by
  induction p with
  | nil => intro d _; exact ⟨rfl, rfl, rfl, rfl⟩
  | cons e p ih =>
    intro d h
    obtain ⟨h1, h2, h3, h4⟩ := ih (d.apply e) (fun e' he' => h e' (by simp [he']))
    have he := h e (by simp)
    have hd : (d.apply e).idx = d.idx ∧ (d.apply e).dat = d.dat ∧ (d.apply e).bound = d.bound ∧
        (d.apply e).dataDir = d.dataDir := by
      cases e <;> simp [Eff.isMeta] at he <;> exact ⟨rfl, rfl, rfl, rfl⟩
    simp only [Dir.applyAll, List.foldl_cons] at h1 h2 h3 h4 ⊢
    exact ⟨h1.trans hd.1, h2.trans hd.2.1, h3.trans hd.2.2.1, h4.trans hd.2.2.2⟩

theorem chunks_empty (cd : Codec α) : Chunks cd Dir.empty [] :=
  ⟨by simp, fun _ _ => rfl, by simp, fun _ => rfl, fun _ _ => .inl rfl, fun _ _ => rfl⟩

theorem loadMeta_spec {cd : Codec α} (hcd : cd.Lawful) {d : Dir} (hm : MetaReadable cd d)
    (anc : Option Nat) (maxlen : Option Int) :
    ∃ effs m, loadMeta cd d anc maxlen = .ok (effs, m) ∧ (∀ e ∈ effs, e.isMeta = true) ∧
      MetaReadable cd (d.applyAll effs) ∧ (d.metaFile ≠ none → effs = []) ∧
      (d.metaFile = none → m = ⟨maxlen, 1, anc⟩) := by
  unfold loadMeta
  cases hmf : d.metaFile with
  | some bytes =>
    obtain ⟨m, h1, h2⟩ := hm bytes hmf
    simp only [h1, h2, if_true]
    exact ⟨[], m, rfl, by simp, hm, by simp, by simp⟩
  | none =>
    refine ⟨_, _, rfl, ?_, ?_, by simp, by simp⟩
    · intro e he
      simp only [List.mem_cons, List.mem_map] at he
      rcases he with rfl | ⟨b, _, rfl⟩ <;> rfl
    · have : d.applyAll (.metaOpen :: (cd.metaDumps ⟨maxlen, 1, anc⟩).map Eff.metaByte)
          = { d with metaFile := some (cd.metaDumps ⟨maxlen, 1, anc⟩) } := by
        have := applyAll_metaBytes (cd.metaDumps ⟨maxlen, 1, anc⟩) (d := d.apply .metaOpen) (x := [])
          rfl
        simp only [Dir.applyAll, List.foldl_cons] at this ⊢
        rw [this]; rfl
      rw [this]
      intro bytes hb
      cases hb
      exact ⟨_, hcd.meta_loads_dumps _, rfl⟩

/-- Opening with an already filled in-memory queue. -/
theorem openWith_spec {cd : Codec α} (hcd : cd.Lawful) {ck : Nat} (hck : 0 < ck) {d : Dir}
    {cs : List (List α)} (h : Chunks cd d cs) (hm : MetaReadable cd d) {b : Option Nat}
    (hb : ∀ m, b = some m → 0 < m) (anc : Option Nat) {buf : RAQ α} {l : List α} (hs : Sim b buf l)
    (hk : keep b l = l) :
    ∃ effs q, PQ.openWith cd ck d anc (b.map Int.ofNat) buf = .ok (effs, q) ∧
      Sim b q.buffer (keep b (l ++ cs.flatten)) ∧
      (∀ p, p <+: effs → ∃ cs', Chunks cd (d.applyAll p) cs' ∧ cs'.flatten = cs.flatten) ∧
      (∀ p, p <+: effs → SameBelow cs.length d (d.applyAll p)) ∧
      (∃ cs', Live cd ck cs.length d (d.applyAll effs) q cs' ∧ cs'.flatten = cs.flatten) ∧
      MetaReadable cd (d.applyAll effs) ∧ q.gen = cs.length + 1 := by
  obtain ⟨e1, m, h1, h2, h3, _, _⟩ := loadMeta_spec hcd hm anc (b.map Int.ofNat)
  have hnew : Writer.new ck cs.length
      = .ok ([.idxOpen cs.length, .datOpen cs.length], ⟨cs.length, 0, decide (ck < 0)⟩) := by
    unfold Writer.new; rw [if_pos hck]
  -- the second group of effects
  have hload : ∃ e2 buf', loadChunks cd d (b.map Int.ofNat) buf = .ok (e2, cs.length, buf') ∧
      Sim b buf' (keep b (l ++ cs.flatten)) ∧
      (∀ p, p <+: e2 → ∀ d1 : Dir, d1.idx = d.idx → d1.dat = d.dat → d1.bound = d.bound →
        d1.dataDir = d.dataDir → Chunks cd (d1.applyAll p) cs ∧ SameBelow cs.length d (d1.applyAll p) ∧
        (d1.applyAll p).metaFile = d1.metaFile ∧ (p = e2 → (d1.applyAll p).dataDir = true)) := by
    unfold loadChunks
    cases hdd : d.dataDir with
    | true =>
      obtain ⟨buf', k1, k2⟩ := readChunks_spec hcd h hb hs hk
      refine ⟨[], buf', by simp only [if_true, k1], k2, ?_⟩
      intro p hp d1 i1 i2 i3 i4
      rw [List.prefix_nil] at hp
      subst hp
      refine ⟨h.congr i1 i2 (Nat.le_of_eq i3.symm) (by intro hf; rw [← hf]; rw [hdd]; exact i4.symm), ?_,
        rfl, fun _ => i4⟩
      exact fun g _ => ⟨congrFun i1 g, congrFun i2 g⟩
    | false =>
      have hcs := h.dir hdd
      subst hcs
      refine ⟨[.mkdir], buf, rfl, by simpa [hk] using hs, ?_⟩
      intro p hp d1 i1 i2 i3 i4
      rcases p with _ | ⟨a, _ | ⟨a', r⟩⟩
      · refine ⟨h.congr i1 i2 (Nat.le_of_eq i3.symm) (fun _ => hdd),
          fun g _ => ⟨congrFun i1 g, congrFun i2 g⟩, rfl, by simp⟩
      · rw [List.cons_prefix_cons] at hp
        obtain ⟨rfl, -⟩ := hp
        refine ⟨h.congr i1 i2 (Nat.le_of_eq i3.symm) (fun _ => hdd),
          fun g _ => ⟨congrFun i1 g, congrFun i2 g⟩, rfl, fun _ => rfl⟩
      · have := hp.length_le; simp at this
  obtain ⟨e2, buf', k1, k2, k3⟩ := hload
  have hmeta : ∀ p, p <+: e1 → (d.applyAll p).idx = d.idx ∧ (d.applyAll p).dat = d.dat ∧
      (d.applyAll p).bound = d.bound ∧ (d.applyAll p).dataDir = d.dataDir :=
    fun p hp => applyAll_meta p d (fun e he => h2 e (hp.subset he))
  obtain ⟨m1, m2, m3, m4⟩ := hmeta e1 (List.prefix_refl _)
  have k3' := fun p hp => k3 p hp (d.applyAll e1) m1 m2 m3 m4
  have k4 := k3' e2 (List.prefix_refl _)
  obtain ⟨n1, n2, n3⟩ := writerNew_spec (ck := ck) k4.1 (k4.2.2.2 rfl) hnew
  refine ⟨e1 ++ (e2 ++ [.idxOpen cs.length, .datOpen cs.length]),
    ⟨m, cs.length + 1, some ⟨cs.length, 0, decide (ck < 0)⟩, buf'⟩, ?_, k2, ?_, ?_, ?_, ?_, rfl⟩
  · unfold PQ.openWith
    simp only [h1, k1, hnew]
  · intro p hp
    rcases prefix_append_cases hp with ⟨g1, _⟩ | ⟨q, rfl, g2⟩
    · obtain ⟨a1, a2, a3, a4⟩ := hmeta p g1
      exact ⟨cs, h.congr a1 a2 (Nat.le_of_eq a3.symm) (by rw [a4]; exact id), rfl⟩
    · rw [applyAll_append]
      rcases prefix_append_cases g2 with ⟨g3, _⟩ | ⟨r, rfl, g4⟩
      · exact ⟨cs, (k3' q g3).1, rfl⟩
      · rw [applyAll_append]
        by_cases hr : r = [.idxOpen cs.length, .datOpen cs.length]
        · subst hr; exact ⟨_, n3.chunks, by simp⟩
        · exact ⟨cs, n1 r g4 hr, rfl⟩
  · intro p hp
    rcases prefix_append_cases hp with ⟨g1, _⟩ | ⟨q, rfl, g2⟩
    · obtain ⟨a1, a2, a3, a4⟩ := hmeta p g1
      exact fun g _ => ⟨congrFun a1 g, congrFun a2 g⟩
    · rw [applyAll_append]
      rcases prefix_append_cases g2 with ⟨g3, _⟩ | ⟨r, rfl, g4⟩
      · exact (k3' q g3).2.1
      · rw [applyAll_append]
        exact k4.2.1.trans (n2 r g4).1 (Nat.le_refl _)
  · refine ⟨cs ++ [[]], ⟨cs, [], _, rfl, rfl, rfl, Nat.le_refl _, ?_, ?_⟩, by simp⟩
    · rw [applyAll_append, applyAll_append]
      exact k4.2.1.trans (n2 _ (List.prefix_refl _)).1 (Nat.le_refl _)
    · rw [applyAll_append, applyAll_append]; exact n3
  · rw [applyAll_append, applyAll_append]
    intro bytes hb'
    rw [(n2 _ (List.prefix_refl _)).2, k4.2.2.1] at hb'
    exact h3 bytes hb'

theorem open_spec {cd : Codec α} (hcd : cd.Lawful) {ck : Nat} (hck : 0 < ck) {d : Dir}
    {cs : List (List α)} (h : Chunks cd d cs) (hm : MetaReadable cd d) {b : Option Nat}
    (hb : ∀ m, b = some m → 0 < m) :
    ∃ effs q, PQ.open cd ck d (b.map Int.ofNat) = .ok (effs, q) ∧
      Sim b q.buffer (keep b cs.flatten) ∧
      (∀ p, p <+: effs → ∃ cs', Chunks cd (d.applyAll p) cs' ∧ cs'.flatten = cs.flatten) ∧
      (∀ p, p <+: effs → SameBelow cs.length d (d.applyAll p)) ∧
      (∃ cs', Live cd ck cs.length d (d.applyAll effs) q cs' ∧ cs'.flatten = cs.flatten) ∧
      MetaReadable cd (d.applyAll effs) ∧ q.gen = cs.length + 1 := by
  obtain ⟨buf, h1, h2⟩ := RAQ.new_sim b ([] : List α)
  have hk0 : keep b ([] : List α) = [] := by cases b <;> simp [keep, newest]
  rw [hk0] at h2
  obtain ⟨effs, q, k1, k2⟩ := openWith_spec hcd hck h hm hb none h2 hk0
  refine ⟨effs, q, ?_, k2⟩
  unfold PQ.open
  rw [h1, if_pos]
  · exact k1
  · cases b with
    | none => rfl
    | some m => simpa [validMaxlen] using hb m rfl

/-- `PQ.open` fails or was given a valid bound. -/
theorem open_ok_bound {cd : Codec α} {ck : Nat} {d : Dir} {maxlen : Option Int} {r}
    (h : PQ.open cd ck d maxlen = .ok r) :
    ∃ b : Option Nat, maxlen = b.map Int.ofNat ∧ ∀ m, b = some m → 0 < m := by
  unfold PQ.open at h
  cases maxlen with
  | none => exact ⟨none, rfl, by simp⟩
  | some m =>
    by_cases hm : m > 0
    · exact ⟨some m.toNat, by simp; omega, by simp; omega⟩
    · rw [if_neg (by simpa [validMaxlen] using hm)] at h; cases h

/-! ## Runs of a session -/

theorem writeAll_spec {cd : Codec α} {ck n0 : Nat} {d0 : Dir} (xs : List α) :
    ∀ {d : Dir} {q q' : PQ α} {cs : List (List α)} {effs : List Eff},
    Live cd ck n0 d0 d q cs → q.writeAll cd ck xs = .ok (effs, q') →
    (∀ p, p <+: effs → ∃ cs' k, k ≤ xs.length ∧ Chunks cd (d.applyAll p) cs' ∧
      cs'.flatten = cs.flatten ++ xs.take k) ∧
    (∀ p, p <+: effs → SameBelow n0 d0 (d.applyAll p) ∧ (d.applyAll p).metaFile = d.metaFile) ∧
    (∃ cs', Live cd ck n0 d0 (d.applyAll effs) q' cs' ∧ cs'.flatten = cs.flatten ++ xs) ∧
    q'.buffer = q.buffer ∧ q'.info = q.info := by
  induction xs with
  | nil =>
    intro d q q' cs effs h hw
    cases hw
    have hsame : SameBelow n0 d0 d ∧ Chunks cd d cs := by
      obtain ⟨_, _, _, rfl, _, _, _, hs, hT⟩ := h; exact ⟨hs, hT.chunks⟩
    refine ⟨?_, ?_, ⟨cs, h, by simp⟩, rfl, rfl⟩
    · intro p hp; rw [List.prefix_nil] at hp; subst hp
      exact ⟨cs, 0, by simp, hsame.2, by simp⟩
    · intro p hp; rw [List.prefix_nil] at hp; subst hp
      exact ⟨hsame.1, rfl⟩
  | cons x xs ih =>
    intro d q q' cs effs h hw
    unfold PQ.writeAll at hw
    split at hw
    · cases hw
    · rename_i e1 q1 hw1
      split at hw
      · cases hw
      · rename_i e2 q2 hw2
        cases hw
        obtain ⟨a1, a2, ⟨cs1, a3, a3'⟩, a4, a5⟩ := write_spec h hw1
        obtain ⟨b1, b2, ⟨cs2, b3, b3'⟩, b4, b5⟩ := ih a3 hw2
        have a2f := a2 e1 (List.prefix_refl _)
        refine ⟨?_, ?_, ⟨cs2, by rw [applyAll_append]; exact b3, by rw [b3', a3']; simp⟩,
          b4.trans a4, b5.trans a5⟩
        · intro p hp
          rcases prefix_append_cases hp with ⟨g1, g2⟩ | ⟨r, rfl, g3⟩
          · obtain ⟨c, c1, c2⟩ := a1 p g1 g2
            exact ⟨c, 0, by simp, c1, by simp [c2]⟩
          · obtain ⟨c, k, ck, c1, c2⟩ := b1 r g3
            exact ⟨c, k + 1, by simp; omega, by rw [applyAll_append]; exact c1, by
              rw [c2, a3']; simp⟩
        · intro p hp
          rcases prefix_append_cases hp with ⟨g1, g2⟩ | ⟨r, rfl, g3⟩
          · exact a2 p g1
          · rw [applyAll_append]
            exact ⟨(b2 r g3).1, (b2 r g3).2.trans a2f.2⟩

/-- What one call adds to the disk. -/
def opItems : Op α → List α
  | .append x => [x]
  | .extend xs => xs
  | _ => []

theorem inserted_cons (op : Op α) (ops : List (Op α)) :
    Queue.Spec.inserted (op :: ops) = opItems op ++ Queue.Spec.inserted ops := by
  cases op <;> simp [Queue.Spec.inserted, opItems]

theorem step_writes {cd : Codec α} {ck : Nat} {q q' : PQ α} {op : Op α} {effs : List Eff}
    {out : Res α} (h : q.step cd ck op = .ok (effs, out, q')) :
    ∃ q1, q.writeAll cd ck (opItems op) = .ok (effs, q1) ∧ q'.tail = q1.tail ∧ q'.gen = q1.gen := by
  cases op with
  | append x =>
    simp only [PQ.step, PQ.append] at h
    cases hw : q.write cd ck x with
    | error e => simp [hw] at h
    | ok r =>
      obtain ⟨e, q1⟩ := r
      simp only [hw] at h
      cases hb : q1.buffer.append x with
      | error e => simp [hb] at h
      | ok b =>
        simp only [hb] at h
        cases h
        exact ⟨q1, by simp [opItems, PQ.writeAll, hw], rfl, rfl⟩
  | extend xs =>
    simp only [PQ.step, PQ.extend] at h
    cases hw : q.writeAll cd ck xs with
    | error e => simp [hw] at h
    | ok r =>
      obtain ⟨e, q1⟩ := r
      simp only [hw] at h
      cases hb : q1.buffer.extend xs with
      | error e => simp [hb] at h
      | ok b =>
        simp only [hb] at h
        cases h
        exact ⟨q1, hw, rfl, rfl⟩
  | popleft =>
    simp only [PQ.step, PQ.popleft] at h
    cases hb : q.buffer.popleft with
    | error e => simp only [hb] at h; cases h; exact ⟨q, rfl, rfl, rfl⟩
    | ok r => simp only [hb] at h; cases h; exact ⟨q, rfl, rfl, rfl⟩
  | get i =>
    simp only [PQ.step] at h
    cases hb : q.get i with
    | error e => simp only [hb] at h; cases h; exact ⟨q, rfl, rfl, rfl⟩
    | ok r => simp only [hb] at h; cases h; exact ⟨q, rfl, rfl, rfl⟩
  | set i x => simp only [PQ.step, PQ.set] at h; cases h; exact ⟨q, rfl, rfl, rfl⟩
  | len => simp only [PQ.step] at h; cases h; exact ⟨q, rfl, rfl, rfl⟩
  | iter => simp only [PQ.step] at h; cases h; exact ⟨q, rfl, rfl, rfl⟩

theorem Live.congr {cd : Codec α} {ck n0 : Nat} {d0 d : Dir} {q q' : PQ α} {cs : List (List α)}
    (h : Live cd ck n0 d0 d q cs) (h1 : q'.tail = q.tail) (h2 : q'.gen = q.gen) :
    Live cd ck n0 d0 d q' cs := by
  obtain ⟨i, t, w, a1, a2, a3, a4, a5, a6⟩ := h
  exact ⟨i, t, w, a1, h1.trans a2, h2.trans a3, a4, a5, a6⟩

theorem run_spec {cd : Codec α} {ck n0 : Nat} {d0 : Dir} (ops : List (Op α)) :
    ∀ {d : Dir} {q q' : PQ α} {cs : List (List α)} {effs : List Eff} {outs : List (Res α)},
    Live cd ck n0 d0 d q cs → q.run cd ck ops = .ok (effs, outs, q') →
    (∀ p, p <+: effs → SameBelow n0 d0 (d.applyAll p)) ∧
    (d.applyAll effs).metaFile = d.metaFile ∧
    (∃ cs', Live cd ck n0 d0 (d.applyAll effs) q' cs' ∧
      cs'.flatten = cs.flatten ++ Queue.Spec.inserted ops) := by
  induction ops with
  | nil =>
    intro d q q' cs effs outs h hr
    cases hr
    refine ⟨?_, rfl, cs, h, by simp [Queue.Spec.inserted]⟩
    intro p hp; rw [List.prefix_nil] at hp; subst hp
    obtain ⟨_, _, _, rfl, _, _, _, hs, _⟩ := h; exact hs
  | cons op ops ih =>
    intro d q q' cs effs outs h hr
    unfold PQ.run at hr
    split at hr
    · cases hr
    · rename_i e1 o1 q1 hs1
      split at hr
      · cases hr
      · rename_i e2 o2 q2 hs2
        cases hr
        obtain ⟨q1', w1, w2, w3⟩ := step_writes hs1
        obtain ⟨_, a2, ⟨cs1, a3, a3'⟩, _, _⟩ := writeAll_spec _ h w1
        obtain ⟨b2, b3, cs2, b4, b5⟩ := ih (a3.congr w2 w3) hs2
        refine ⟨?_, ?_, cs2, by rw [applyAll_append]; exact b4, ?_⟩
        · intro p hp
          rcases prefix_append_cases hp with ⟨g1, _⟩ | ⟨r, rfl, g3⟩
          · exact (a2 p g1).1
          · rw [applyAll_append]; exact b2 r g3
        · rw [applyAll_append, b3]; exact (a2 e1 (List.prefix_refl _)).2
        · rw [b5, a3', inserted_cons, List.append_assoc]

end Pfrl.Persist
