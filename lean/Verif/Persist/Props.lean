import Verif.Persist.Open

/-!
# Persistent queue: crashes (C18), sessions (C19), restarts (C20)
-/

namespace Pfrl.Persist

open Queue (RAQ Sim Op Res)
open Queue.Spec (keep newest inserted)

variable {α : Type _}

/-! ## Specification -/

/-- `History cd ck d all`: the directory `d` can be on disk after some sequence of sessions (each
opens the queue, with any `maxlen`, and makes any calls), each ended by closing the queue or by a
crash at any point, and `all` are the items whose writing had been completed, in order.

The one excluded crash point is the one that leaves an unreadable `meta.pkl` behind: see
`restart_after_torn_meta_fails`. -/
inductive Spec.History (cd : Codec α) (ck : Nat) : Dir → List α → Prop
  | fresh : Spec.History cd ck Dir.empty []
  /-- A session that was closed, or killed between two calls. -/
  | session {d : Dir} {all : List α} {maxlen : Option Int} {e e' : List Eff} {q q' : PQ α}
      {ops : List (Op α)} {outs : List (Res α)} :
      Spec.History cd ck d all → PQ.open cd ck d maxlen = .ok (e, q) →
      q.run cd ck ops = .ok (e', outs, q') →
      Spec.History cd ck (d.applyAll (e ++ e')) (all ++ inserted ops)
  /-- Killed while opening. -/
  | crashOpen {d : Dir} {all : List α} {maxlen : Option Int} {e p : List Eff} {q : PQ α} :
      Spec.History cd ck d all → PQ.open cd ck d maxlen = .ok (e, q) → p <+: e →
      MetaReadable cd (d.applyAll p) → Spec.History cd ck (d.applyAll p) all
  /-- Killed in `append(x)` (`ys = []`), or in `extend` after its first items `ys`, when the item
  `x` had been written incompletely. -/
  | crashWrite {d : Dir} {all : List α} {maxlen : Option Int} {e e' e1 e2 p : List Eff}
      {q q' q1 q2 : PQ α} {ops : List (Op α)} {outs : List (Res α)} {ys : List α} {x : α} :
      Spec.History cd ck d all → PQ.open cd ck d maxlen = .ok (e, q) →
      q.run cd ck ops = .ok (e', outs, q') → q'.writeAll cd ck ys = .ok (e1, q1) →
      q1.write cd ck x = .ok (e2, q2) → p <+: e2 → p ≠ e2 →
      Spec.History cd ck (d.applyAll (e ++ (e' ++ (e1 ++ p)))) (all ++ inserted ops ++ ys)

/-- A caller of the persistent queue does not get the popped item. -/
def Spec.visible : Op α → Res α → Res α
  | .popleft, .item _ => .unit
  | _, r => r

/-- `op` is not an item assignment. -/
def Spec.notSet : Op α → Bool
  | .set _ _ => false
  | _ => true

/-! ## Lemmas -/

theorem open_ok {cd : Codec α} (hcd : cd.Lawful) {ck : Nat} (hck : 0 < ck) {d : Dir}
    {cs : List (List α)} (h : Chunks cd d cs) (hm : MetaReadable cd d) {maxlen : Option Int}
    {effs : List Eff} {q : PQ α} (ho : PQ.open cd ck d maxlen = .ok (effs, q)) :
    ∃ b : Option Nat, maxlen = b.map Int.ofNat ∧ Sim b q.buffer (keep b cs.flatten) ∧
      (∀ p, p <+: effs → ∃ cs', Chunks cd (d.applyAll p) cs' ∧ cs'.flatten = cs.flatten) ∧
      (∀ p, p <+: effs → SameBelow cs.length d (d.applyAll p)) ∧
      (∃ cs', Live cd ck cs.length d (d.applyAll effs) q cs' ∧ cs'.flatten = cs.flatten) ∧
      MetaReadable cd (d.applyAll effs) ∧ q.gen = cs.length + 1 := by
  obtain ⟨b, rfl, hb⟩ := open_ok_bound ho
  obtain ⟨effs', q', h1, h2⟩ := open_spec hcd hck h hm hb
  rw [h1] at ho
  cases ho
  exact ⟨b, rfl, h2⟩

theorem MetaReadable.congr {cd : Codec α} {d d' : Dir} (h : MetaReadable cd d)
    (hm : d'.metaFile = d.metaFile) : MetaReadable cd d' := fun b hb => h b (hm ▸ hb)

theorem Live.chunks {cd : Codec α} {ck n0 : Nat} {d0 d : Dir} {q : PQ α} {cs : List (List α)}
    (h : Live cd ck n0 d0 d q cs) : Chunks cd d cs := by
  obtain ⟨_, _, _, rfl, _, _, _, _, hT⟩ := h
  exact hT.chunks

theorem history_chunks {cd : Codec α} (hcd : cd.Lawful) {ck : Nat} (hck : 0 < ck) {d : Dir}
    {all : List α} (h : Spec.History cd ck d all) :
    ∃ cs, Chunks cd d cs ∧ cs.flatten = all ∧ MetaReadable cd d := by
  induction h with
  | fresh => exact ⟨[], chunks_empty cd, rfl, by intro b hb; cases hb⟩
  | session _ ho hr ih =>
    obtain ⟨cs, h1, rfl, h3⟩ := ih
    obtain ⟨b, _, _, _, _, ⟨cs', k1, k2⟩, k3, _⟩ := open_ok hcd hck h1 h3 ho
    obtain ⟨_, r2, cs2, r3, r4⟩ := run_spec _ k1 hr
    refine ⟨cs2, ?_, by rw [r4, k2], ?_⟩
    · rw [applyAll_append]; exact r3.chunks
    · rw [applyAll_append]; exact k3.congr r2
  | crashOpen _ ho hp hm ih =>
    obtain ⟨cs, h1, rfl, h3⟩ := ih
    obtain ⟨b, _, _, k1, _⟩ := open_ok hcd hck h1 h3 ho
    obtain ⟨cs', k2, k3⟩ := k1 _ hp
    exact ⟨cs', k2, k3, hm⟩
  | crashWrite _ ho hr hys hx hp hne ih =>
    obtain ⟨cs, h1, rfl, h3⟩ := ih
    obtain ⟨b, _, _, _, _, ⟨cs', k1, k2⟩, k3, _⟩ := open_ok hcd hck h1 h3 ho
    obtain ⟨_, r2, cs2, r3, r4⟩ := run_spec _ k1 hr
    obtain ⟨_, w2, ⟨cs3, w3, w4⟩, _⟩ := writeAll_spec _ r3 hys
    obtain ⟨x1, x2, _⟩ := write_spec w3 hx
    obtain ⟨cs4, x3, x4⟩ := x1 _ hp hne
    rw [applyAll_append, applyAll_append, applyAll_append]
    refine ⟨cs4, x3, by rw [x4, w4, r4, k2], ?_⟩
    exact ((k3.congr r2).congr (w2 _ (List.prefix_refl _)).2).congr (x2 _ hp).2

/-! ## C18 -/

/-- **C18.** Take any directory left by any earlier history, open it, complete any calls `ops`, and
let the process die at any point of one more `append(x)`: between any two bytes it writes to the
data file or the index file, or between the creations of the two files of a new chunk.  Reopening
with any valid `maxlen` then succeeds, and iterates over exactly the newest `maxlen` of the items
completely appended before, followed by `x` only if every byte of it had been written. -/
theorem crash_during_append_recovers {cd : Codec α} (hcd : cd.Lawful) {ck : Nat} (hck : 0 < ck)
    {d : Dir} {all : List α} (h : Spec.History cd ck d all) {maxlen : Option Int}
    {e e' e2 p : List Eff} {q q' q2 : PQ α} {ops : List (Op α)} {outs : List (Res α)} {x : α}
    (ho : PQ.open cd ck d maxlen = .ok (e, q)) (hr : q.run cd ck ops = .ok (e', outs, q'))
    (ha : q'.append cd ck x = .ok (e2, q2)) (hp : p <+: e2) (maxlen' : Option Nat)
    (hmax : ∀ m, maxlen' = some m → 0 < m) :
    ∃ e3 q3, PQ.open cd ck (d.applyAll (e ++ (e' ++ p))) (maxlen'.map Int.ofNat) = .ok (e3, q3) ∧
      (q3.iter = keep maxlen' (all ++ inserted ops) ∨
        (p = e2 ∧ q3.iter = keep maxlen' (all ++ inserted ops ++ [x]))) := by
  obtain ⟨q1, hw⟩ : ∃ q1, q'.write cd ck x = .ok (e2, q1) := by
    unfold PQ.append at ha
    split at ha
    · cases ha
    · rename_i e3 q3 hw
      split at ha
      · cases ha
      · cases ha; exact ⟨q3, hw⟩
  by_cases hpe : p = e2
  · subst hpe
    have hr' : q.run cd ck (ops ++ [.append x]) = .ok (e' ++ p, outs ++ [.unit], q2) := by
      clear hp hw h ho
      revert q e' outs
      induction ops with
      | nil => intro e' q outs hr; cases hr; simp [PQ.run, PQ.step, ha]
      | cons op ops ih =>
        intro e' q outs hr
        unfold PQ.run at hr
        split at hr
        · cases hr
        · rename_i a1 a2 a3 hs
          split at hr
          · cases hr
          · rename_i b1 b2 b3 hrun
            cases hr
            simp only [List.cons_append, PQ.run, hs, ih hrun, List.append_assoc]
    have hh := Spec.History.session h ho hr'
    obtain ⟨cs, c1, c2, c3⟩ := history_chunks hcd hck hh
    obtain ⟨e3, q3, g1, g2, _⟩ := open_spec hcd hck c1 c3 hmax
    refine ⟨e3, q3, g1, .inr ⟨rfl, ?_⟩⟩
    have hins : inserted (ops ++ [.append x]) = inserted ops ++ [x] := by
      clear hr' hh c2 hr h ho
      induction ops with
      | nil => rfl
      | cons op ops ih => rw [List.cons_append, inserted_cons, inserted_cons, ih, List.append_assoc]
    rw [c2, hins, ← List.append_assoc] at g2
    exact g2.1
  · have hh := Spec.History.crashWrite h ho hr (ys := []) rfl hw hp hpe
    simp only [List.nil_append, List.append_nil] at hh
    obtain ⟨cs, c1, c2, c3⟩ := history_chunks hcd hck hh
    obtain ⟨e3, q3, g1, g2, _⟩ := open_spec hcd hck c1 c3 hmax
    refine ⟨e3, q3, g1, .inl ?_⟩
    rw [c2] at g2
    exact g2.1

/-! ## C20 -/

/-- **C20 (partial).** After any number of sessions, each closed or crashed anywhere except while
`meta.pkl` was being written for the first time, the directory can be reopened with any valid
`maxlen`; the queue then holds exactly the newest `maxlen` of all completed appends of all sessions,
and whatever the new session does, at every moment of it the two files of every chunk that existed
before are untouched.

Missing: a crash while `meta.pkl` is being written, see `restart_after_torn_meta_fails`. -/
theorem restarts_keep_newest_partial {cd : Codec α} (hcd : cd.Lawful) {ck : Nat} (hck : 0 < ck)
    {d : Dir} {all : List α} (h : Spec.History cd ck d all) (maxlen : Option Nat)
    (hmax : ∀ m, maxlen = some m → 0 < m) :
    ∃ e q, PQ.open cd ck d (maxlen.map Int.ofNat) = .ok (e, q) ∧ q.iter = keep maxlen all ∧
      ∀ (ops : List (Op α)) (e' : List Eff) (outs : List (Res α)) (q' : PQ α),
        q.run cd ck ops = .ok (e', outs, q') → ∀ p, p <+: e ++ e' → ∀ g, d.dat g ≠ none →
          (d.applyAll p).dat g = d.dat g ∧ (d.applyAll p).idx g = d.idx g := by
  obtain ⟨cs, c1, c2, c3⟩ := history_chunks hcd hck h
  obtain ⟨e, q, g1, g2, _, g4, ⟨cs', g5, _⟩, _⟩ := open_spec hcd hck c1 c3 hmax
  refine ⟨e, q, g1, by rw [← c2]; exact g2.1, ?_⟩
  intro ops e' outs q' hr p hp g hg
  have hlt : g < cs.length := by
    rcases Nat.lt_or_ge g cs.length with hlt | hge
    · exact hlt
    · exact absurd (c1.free g hge) hg
  rcases prefix_append_cases hp with ⟨h1, _⟩ | ⟨r, rfl, h2⟩
  · have := g4 p h1 g hlt
    exact ⟨this.2, this.1⟩
  · rw [applyAll_append]
    have := (run_spec _ g5 hr).1 r h2 g hlt
    exact ⟨this.2, this.1⟩

/-- **C20 is violated** by a crash during the very first opening: between the creation of
`meta.pkl` and the writing of its contents.  The directory can then never be opened again (an empty
pickle file raises `EOFError`). -/
theorem restart_after_torn_meta_fails {cd : Codec α} {ck : Nat}
    (hck : 0 < ck) (hempty : cd.metaLoads [] = .error .eofError) :
    ∃ e q p, PQ.open cd ck Dir.empty none = .ok (e, (q : PQ α)) ∧ p <+: e ∧
      ∀ ck' (maxlen : Option Int) r, PQ.open cd ck' (Dir.empty.applyAll p) maxlen ≠ .ok r := by
  refine ⟨.metaOpen :: (cd.metaDumps ⟨none, 1, none⟩).map Eff.metaByte ++ [.mkdir, .idxOpen 0, .datOpen 0],
    ⟨⟨none, 1, none⟩, 1, some ⟨0, 0, decide (ck < 0)⟩, ⟨none, [], []⟩⟩, [.metaOpen], ?_, ?_, ?_⟩
  · simp [PQ.open, RAQ.new, RAQ.applyMaxlen, PQ.openWith, loadMeta, Dir.empty, loadChunks, Writer.new,
      hck, validMaxlen]
  · exact ⟨_, rfl⟩
  · intro ck' maxlen r hr
    have hw : ∀ buf : RAQ α, PQ.openWith cd ck' (Dir.empty.applyAll [.metaOpen]) none maxlen buf
        = .error .eofError := by
      intro buf
      simp [PQ.openWith, loadMeta, Dir.empty, Dir.applyAll, Dir.apply, hempty]
    unfold PQ.open at hr
    cases hv : validMaxlen maxlen with
    | false => rw [hv] at hr; simp at hr
    | true =>
      rw [hv, if_pos rfl] at hr
      cases hn : RAQ.new maxlen ([] : List α) with
      | error er => rw [hn] at hr; cases hr
      | ok buf => rw [hn] at hr; simp only [hw] at hr; cases hr

/-! ## C19 -/

/-- Writing an item of less than `2^64` pickled bytes succeeds (the chunk size is far below that
too). -/
theorem write_succeeds {cd : Codec α} {ck n0 : Nat} {d0 d : Dir} {q : PQ α} {cs : List (List α)}
    (hck : 0 < ck) (hck' : ck < 2 ^ 64) (h : Live cd ck n0 d0 d q cs) {x : α}
    (hx : (cd.dumps x).length < 2 ^ 64) (hg : q.gen < 2 ^ 64) :
    ∃ e q', q.write cd ck x = .ok (e, q') ∧ q'.gen ≤ q.gen + 1 := by
  obtain ⟨init, t, w, rfl, htail, hgen, _, _, hT⟩ := h
  have happ : ∀ w : Writer, w.full = false → w.offset ≤ ck → w.gen < 2 ^ 64 →
      ∃ e w', w.append cd ck x = .ok (e, w') := by
    intro w h1 h2 h3
    unfold Writer.append
    rw [if_neg (by simp [h1])]
    have : pack ⟨w.gen, w.offset, (cd.dumps x).length, (cd.crc (cd.dumps x)).val⟩
        = .ok (Entry.bytes ⟨w.gen, w.offset, (cd.dumps x).length, (cd.crc (cd.dumps x)).val⟩) := by
      unfold pack
      rw [if_pos]
      exact ⟨h3, by simp only; omega, hx, (cd.crc (cd.dumps x)).isLt⟩
    simp only [this]
    exact ⟨_, _, rfl⟩
  unfold PQ.write
  simp only [htail]
  cases hf : w.full with
  | false =>
    have hoff : w.offset ≤ ck := by
      have := hT.full; rw [hf] at this
      have := of_decide_eq_false this.symm; omega
    obtain ⟨e, w', h1⟩ := happ w hf hoff (by rw [hT.gen]; omega)
    simp only [Bool.false_eq_true, if_false, h1]
    exact ⟨_, _, rfl, by simp⟩
  | true =>
    have hnew : Writer.new ck q.gen = .ok ([.idxOpen q.gen, .datOpen q.gen], ⟨q.gen, 0, decide (ck < 0)⟩) := by
      unfold Writer.new; rw [if_pos hck]
    obtain ⟨e, w', h1⟩ := happ ⟨q.gen, 0, decide (ck < 0)⟩ (by simp) (by simp) hg
    simp only [if_true, hnew, h1]
    exact ⟨_, _, rfl, by simp⟩

theorem writeAll_succeeds {cd : Codec α} {ck n0 : Nat} {d0 : Dir}
    (hck : 0 < ck) (hck' : ck < 2 ^ 64) (xs : List α) : ∀ {d : Dir} {q : PQ α} {cs : List (List α)},
    Live cd ck n0 d0 d q cs → (∀ x ∈ xs, (cd.dumps x).length < 2 ^ 64) →
    q.gen + xs.length ≤ 2 ^ 64 →
    ∃ e q', q.writeAll cd ck xs = .ok (e, q') ∧ q'.gen ≤ q.gen + xs.length := by
  induction xs with
  | nil => intro d q cs h _ _; exact ⟨[], q, rfl, by simp⟩
  | cons x xs ih =>
    intro d q cs h hx hg
    rw [List.length_cons] at hg
    obtain ⟨e, q1, h1, h2⟩ := write_succeeds hck hck' h (hx x (by simp)) (by omega)
    obtain ⟨_, _, ⟨cs', h3, _⟩, _⟩ := write_spec h h1
    obtain ⟨e', q2, h4, h5⟩ := ih h3 (fun y hy => hx y (by simp [hy])) (by omega)
    exact ⟨e ++ e', q2, by simp [PQ.writeAll, h1, h4], by rw [List.length_cons]; omega⟩

theorem run_matches {cd : Codec α} {ck n0 : Nat} {d0 : Dir} (hck : 0 < ck) (hck' : ck < 2 ^ 64)
    {b : Option Nat} (ops : List (Op α)) :
    ∀ {d : Dir} {q : PQ α} {cs : List (List α)} {l : List α}, Live cd ck n0 d0 d q cs →
    Sim b q.buffer l → (∀ op ∈ ops, Spec.notSet op = true) →
    (∀ x ∈ inserted ops, (cd.dumps x).length < 2 ^ 64) →
    q.gen + (inserted ops).length ≤ 2 ^ 64 →
    ∃ e outs q', q.run cd ck ops = .ok (e, outs, q') ∧
      outs = List.zipWith Spec.visible ops (Queue.Spec.run b l ops).1 ∧
      Sim b q'.buffer (Queue.Spec.run b l ops).2 := by
  induction ops with
  | nil => intro d q cs l _ hs _ _ _; exact ⟨[], [], q, rfl, rfl, hs⟩
  | cons op ops ih =>
    intro d q cs l hl hs hop hx hg
    rw [inserted_cons] at hx hg
    rw [List.length_append] at hg
    obtain ⟨ew, qw, w1, w2⟩ := writeAll_succeeds hck hck' (opItems op) hl
      (fun x h => hx x (by simp [h])) (by omega)
    obtain ⟨_, _, ⟨cs1, w3, _⟩, w4, _⟩ := writeAll_spec _ hl w1
    -- the step
    have hstep : ∃ q1, q.step cd ck op = .ok (ew, Spec.visible op (Queue.Spec.step b l op).1, q1) ∧
        q1.tail = qw.tail ∧ q1.gen = qw.gen ∧ Sim b q1.buffer (Queue.Spec.step b l op).2 := by
      cases op with
      | append x =>
        obtain ⟨b', h1, h2⟩ := RAQ.append_spec hs x
        have hwx : q.write cd ck x = .ok (ew, qw) := by
          simp only [opItems, PQ.writeAll] at w1
          cases hw : q.write cd ck x with
          | error e => rw [hw] at w1; cases w1
          | ok r => rw [hw] at w1; cases w1; simp
        rw [← w4] at h1
        simp only [PQ.step, PQ.append, hwx, h1]
        exact ⟨_, rfl, rfl, rfl, h2⟩
      | extend xs =>
        obtain ⟨b', h1, h2⟩ := RAQ.extend_spec hs xs
        have hwx : q.writeAll cd ck xs = .ok (ew, qw) := w1
        rw [← w4] at h1
        simp only [PQ.step, PQ.extend, hwx, h1]
        exact ⟨_, rfl, rfl, rfl, h2⟩
      | popleft =>
        cases w1
        have h1 := RAQ.step_sim hs .popleft
        simp only [RAQ.step] at h1
        cases hb : q.buffer.popleft with
        | error e =>
          rw [hb] at h1
          simp only [PQ.step, PQ.popleft, hb]
          refine ⟨q, ?_, rfl, rfl, h1.2⟩
          rw [← h1.1]; rfl
        | ok r =>
          obtain ⟨y, buf'⟩ := r
          rw [hb] at h1
          simp only [PQ.step, PQ.popleft, hb]
          refine ⟨{ q with buffer := buf' }, ?_, rfl, rfl, h1.2⟩
          rw [← h1.1]; rfl
      | get i =>
        cases w1
        have h1 := RAQ.step_sim hs (.get i)
        simp only [RAQ.step] at h1
        cases hb : q.buffer.get i with
        | error e =>
          rw [hb] at h1
          simp only [PQ.step, PQ.get, hb]
          refine ⟨q, ?_, rfl, rfl, h1.2⟩
          rw [← h1.1]; rfl
        | ok r =>
          rw [hb] at h1
          simp only [PQ.step, PQ.get, hb]
          refine ⟨q, ?_, rfl, rfl, h1.2⟩
          rw [← h1.1]; rfl
      | set i x => have := hop (.set i x) (by simp); cases this
      | len =>
        cases w1
        have h1 := RAQ.step_sim hs .len
        exact ⟨q, by rw [← h1.1]; rfl, rfl, rfl, h1.2⟩
      | iter =>
        cases w1
        have h1 := RAQ.step_sim hs .iter
        exact ⟨q, by rw [← h1.1]; rfl, rfl, rfl, h1.2⟩
    obtain ⟨q1, s1, s2, s3, s4⟩ := hstep
    obtain ⟨e', outs', q2, r1, r2, r3⟩ := ih (w3.congr s2 s3) s4
      (fun o ho => hop o (by simp [ho])) (fun x h => hx x (by simp [h])) (by omega)
    refine ⟨ew ++ e', Spec.visible op (Queue.Spec.step b l op).1 :: outs', q2, ?_, ?_, ?_⟩
    · simp only [PQ.run, s1, r1]
    · simp only [Queue.Spec.run, List.zipWith_cons_cons, r2]
    · simpa only [Queue.Spec.run] using r3

/-- A random sample depends on the queue only through its contents. -/
theorem raqSample_congr {q q' : RAQ α} (h : q.iter = q'.iter) (perm : List Nat) (s : Nat → Nat)
    (fuel : Nat) (n : Int) : Sample.raqSample perm s fuel q n = Sample.raqSample perm s fuel q' n := by
  unfold Sample.raqSample
  rw [← RAQ.iter_length q, ← RAQ.iter_length q', h]
  have : ∀ i : Nat, q.get i = q'.get i := fun i => by rw [RAQ.get_spec, RAQ.get_spec, h]
  simp only [this]

/-- **C19 (partial).** Open any directory left by any history; make any calls (item assignment
excluded; `extend` with a list).  If every added item pickles to less than `2^64` bytes (and there
are fewer than `2^64` chunks), no call fails to write, and every observation equals that of a
`RandomAccessQueue` built from the loaded items and given the same calls, except that `popleft`
returns `None`; afterwards iteration and every random sample agree too.

Missing: item assignment is not supported, and `extend` with a one-shot iterator loses the items in
memory, see `persistent_extend_iterator_loses`. -/
theorem persistent_session_matches_memory_partial {cd : Codec α} (hcd : cd.Lawful) {ck : Nat}
    (hck : 0 < ck) (hck' : ck < 2 ^ 64) {d : Dir} {all : List α} (h : Spec.History cd ck d all)
    (maxlen : Option Nat) (hmax : ∀ m, maxlen = some m → 0 < m) (ops : List (Op α))
    (hops : ∀ op ∈ ops, Spec.notSet op = true)
    (hsize : ∀ x ∈ inserted ops, (cd.dumps x).length < 2 ^ 64)
    (hgens : d.bound + 1 + (inserted ops).length ≤ 2 ^ 64) :
    ∃ e q r e' outs q', PQ.open cd ck d (maxlen.map Int.ofNat) = .ok (e, q) ∧
      RAQ.new (maxlen.map Int.ofNat) all = .ok r ∧ q.run cd ck ops = .ok (e', outs, q') ∧
      outs = List.zipWith Spec.visible ops (r.run ops).1 ∧ q'.iter = (r.run ops).2.iter ∧
      ∀ perm s fuel n, q'.sample perm s fuel n = Sample.raqSample perm s fuel (r.run ops).2 n := by
  obtain ⟨cs, c1, c2, c3⟩ := history_chunks hcd hck h
  obtain ⟨e, q, g1, g2, _, _, ⟨cs', g5, _⟩, _, hgen⟩ := open_spec hcd hck c1 c3 hmax
  obtain ⟨r, r1, r2⟩ := RAQ.new_sim maxlen all
  rw [c2] at g2
  have hc := c1.bound
  obtain ⟨e', outs, q', k1, k2, k3⟩ := run_matches hck hck' ops g5 g2 hops hsize (by omega)
  have hrun := RAQ.run_sim ops r2
  refine ⟨e, q, r, e', outs, q', g1, r1, k1, ?_, ?_, ?_⟩
  · rw [k2, hrun.1]
  · exact k3.1.trans hrun.2.1.symm
  · intro perm s fuel n
    exact raqSample_congr (k3.1.trans hrun.2.1.symm) perm s fuel n

/-- **C19 is violated** when `extend` is given an iterator that can be consumed only once: whatever
the queue, the in-memory contents do not change, although all items are written to disk, where a
`RandomAccessQueue` would hold them. -/
theorem persistent_extend_iterator_loses {cd : Codec α} {ck n0 : Nat} {d0 d : Dir} {q q' : PQ α}
    {cs : List (List α)} {b : Option Nat} {l xs : List α} {e : List Eff}
    (h : Live cd ck n0 d0 d q cs) (hs : Sim b q.buffer l) (he : q.extend cd ck xs [] = .ok (e, q')) :
    q'.iter = q.iter ∧ ∃ cs', Chunks cd (d.applyAll e) cs' ∧ cs'.flatten = cs.flatten ++ xs := by
  unfold PQ.extend at he
  split at he
  · cases he
  · rename_i e1 q1 hw
    obtain ⟨_, _, ⟨cs', h3, h4⟩, h5, _⟩ := writeAll_spec _ h hw
    split at he
    · cases he
    · rename_i buf hb
      cases he
      refine ⟨?_, cs', h3.chunks, h4⟩
      obtain ⟨buf', e1', e2'⟩ := RAQ.extend_spec hs []
      rw [h5, e1'] at hb
      cases hb
      have : keep b l = l := by
        cases b with
        | none => rfl
        | some m =>
          have := hs.2.2 m rfl
          simp [keep, newest, Nat.sub_eq_zero_of_le this]
      rw [List.append_nil, this] at e2'
      exact e2'.1.trans hs.1.symm

/-- **C19, item assignment.** An assignment `q[i] = x` anywhere in a session raises
`NotImplementedError`, writes nothing, and changes neither the other observations nor the queue. -/
theorem persistent_set_refused {cd : Codec α} {ck : Nat} (pre post : List (Op α)) (i : Int) (x : α) :
    ∀ {q q' : PQ α} {e : List Eff} {outs : List (Res α)},
    q.run cd ck (pre ++ post) = .ok (e, outs, q') →
    q.run cd ck (pre ++ .set i x :: post) = .ok (e,
      outs.take pre.length ++ .raised .notImplemented :: outs.drop pre.length, q') := by
  induction pre with
  | nil =>
    intro q q' e outs h
    simp only [List.nil_append] at h
    simp [PQ.run, PQ.step, PQ.set, h]
  | cons op pre ih =>
    intro q q' e outs h
    simp only [List.cons_append, PQ.run] at h ⊢
    cases hs : q.step cd ck op with
    | error er => simp [hs] at h
    | ok r =>
      obtain ⟨e1, o1, q1⟩ := r
      simp only [hs] at h ⊢
      cases hr : q1.run cd ck (pre ++ post) with
      | error er => simp [hr] at h
      | ok r =>
        obtain ⟨e2, o2, q2⟩ := r
        simp only [hr, Except.ok.injEq, Prod.mk.injEq] at h
        obtain ⟨rfl, rfl, rfl⟩ := h
        simp [ih hr]

/-- **C19, closing.** After any session `close()` succeeds; the closed queue reads as before, but
`append`, `extend` with at least one item and a second `close` raise `AttributeError`. -/
theorem persistent_close {cd : Codec α} (hcd : cd.Lawful) {ck : Nat} (hck : 0 < ck) {d : Dir}
    {all : List α} (h : Spec.History cd ck d all) {maxlen : Option Int} {e e' : List Eff}
    {q q' : PQ α} {ops : List (Op α)} {outs : List (Res α)}
    (ho : PQ.open cd ck d maxlen = .ok (e, q)) (hr : q.run cd ck ops = .ok (e', outs, q')) :
    ∃ c, q'.close = .ok c ∧ c.iter = q'.iter ∧ c.len = q'.len ∧ (∀ i, c.get i = q'.get i) ∧
      (∀ perm s fuel n, c.sample perm s fuel n = q'.sample perm s fuel n) ∧
      (∀ x, c.append cd ck x = .error .attributeError) ∧
      (∀ x xs, c.extend cd ck (x :: xs) (x :: xs) = .error .attributeError) ∧
      c.close = .error .attributeError := by
  obtain ⟨cs, c1, _, c3⟩ := history_chunks hcd hck h
  obtain ⟨b, _, _, _, _, ⟨cs', g5, _⟩, _⟩ := open_ok hcd hck c1 c3 ho
  obtain ⟨_, _, ⟨cs'', k, _⟩⟩ := run_spec ops g5 hr
  obtain ⟨w, hw⟩ : ∃ w, q'.tail = some w := let ⟨_, _, w, _, hw, _⟩ := k; ⟨w, hw⟩
  refine ⟨{ q' with tail := none }, by simp [PQ.close, hw], rfl, rfl, fun _ => rfl,
    fun _ _ _ _ => rfl, ?_, ?_, rfl⟩
  · intro x; simp [PQ.append, PQ.write]
  · intro x xs; simp [PQ.extend, PQ.writeAll, PQ.write]

/-! ## Concrete cases -/

/-- Unary numbers, for the example codec. -/
def encNat (n : Nat) : Bytes := List.replicate n 1 ++ [0]

/-- Read a unary number. -/
def decNat : Bytes → Nat × Bytes
  | [] => (0, [])
  | b :: bs => if b = 1 then ((decNat bs).1 + 1, (decNat bs).2) else (0, bs)

theorem decNat_encNat (n : Nat) (r : Bytes) : decNat (encNat n ++ r) = (n, r) := by
  induction n with
  | zero => simp [encNat, decNat]
  | succ n ih =>
    have : encNat (n + 1) ++ r = 1 :: (encNat n ++ r) := by simp [encNat, List.replicate_succ]
    rw [this, decNat]; simp [ih]

def encMax : Option Int → Nat
  | none => 0
  | some (.ofNat n) => 2 * n + 1
  | some (.negSucc n) => 2 * n + 2

def decMax (n : Nat) : Option Int :=
  if n = 0 then none else if n % 2 = 1 then some (.ofNat (n / 2)) else some (.negSucc (n / 2 - 1))

theorem decMax_encMax (m : Option Int) : decMax (encMax m) = m := by
  rcases m with _ | n | n
  · rfl
  · have h : encMax (some (.ofNat n)) = 2 * n + 1 := rfl
    rw [h]; unfold decMax
    rw [if_neg (by omega), if_pos (by omega), show (2 * n + 1) / 2 = n by omega]
  · have h : encMax (some (.negSucc n)) = 2 * n + 2 := rfl
    rw [h]; unfold decMax
    rw [if_neg (by omega), if_neg (by omega), show (2 * n + 2) / 2 - 1 = n by omega]

/-- A simple stand-in for `pickle` and `crc32`: an item is a number, pickled in unary. -/
def exCodec : Codec Nat where
  dumps := encNat
  loads b := if b = [] then .error .eofError else .ok (decNat b).1
  crc b := ⟨b.length % 2 ^ 32, Nat.mod_lt _ (by decide)⟩
  metaDumps m := encNat (encMax m.maxlen) ++ (encNat m.commSize ++
    encNat (match m.ancestor with | none => 0 | some a => a + 1))
  metaLoads b :=
    if b = [] then .error .eofError
    else .ok ⟨decMax (decNat b).1, (decNat (decNat b).2).1,
      match (decNat (decNat (decNat b).2).2).1 with | 0 => none | a + 1 => some a⟩

theorem exCodec_lawful : exCodec.Lawful := by
  constructor
  · intro x
    have h := decNat_encNat x []
    rw [List.append_nil] at h
    simp only [exCodec]
    rw [if_neg (by simp [encNat]), h]
  · rintro ⟨m, c, a⟩
    simp only [exCodec]
    rw [if_neg (by simp [encNat]), decNat_encNat, decMax_encMax]
    simp only [decNat_encNat]
    have h : ∀ k, decNat (encNat k) = (k, []) := fun k => by
      have := decNat_encNat k []; rwa [List.append_nil] at this
    cases a <;> simp [h]

/-- Two sessions of appends (with rotation: chunks of more than 4 bytes are closed), then a crash in
the middle of an index record of a third session; the fourth opening with `maxlen = 3`. -/
def exDir : Except PyErr Dir :=
  match PQ.open exCodec 4 Dir.empty (some 3) with
  | .error e => .error e
  | .ok (e1, q1) =>
    match q1.run exCodec 4 [.append 5, .extend [2, 1, 4], .popleft] with
    | .error e => .error e
    | .ok (e2, _, _) =>
      let d := Dir.empty.applyAll (e1 ++ e2)
      match PQ.open exCodec 4 d none with
      | .error e => .error e
      | .ok (e3, q3) =>
        match q3.append exCodec 4 7 with
        | .error e => .error e
        | .ok (e4, q4) =>
          match q4.append exCodec 4 9 with
          | .error e => .error e
          | .ok (e5, _) => .ok (d.applyAll (e3 ++ e4 ++ e5.take 20))

example : (exDir.bind fun d => (PQ.open exCodec 4 d (some 3)).map fun r => r.2.iter)
    = .ok [1, 4, 7] := by decide +kernel

/-- Reachable directories with data exist: the hypotheses of the theorems above can be met. -/
example : ∃ d, Spec.History exCodec 4 d [5, 2] ∧ MetaReadable exCodec d ∧
    exCodec.Lawful ∧ exCodec.metaLoads [] = .error .eofError := by
  obtain ⟨e, q, h1, h2⟩ := open_spec exCodec_lawful (ck := 4) (by decide) (chunks_empty exCodec)
    (by intro b hb; cases hb) (b := some 3) (by simp)
  obtain ⟨h3, _, _, ⟨cs, h4, _⟩, _, hgen⟩ := h2
  have hg : q.gen + (inserted ([.append 5, .append 2] : List (Op Nat))).length ≤ 2 ^ 64 := by
    rw [hgen]; decide
  obtain ⟨e', outs, q', k1, _⟩ := run_matches (by decide) (by decide) [.append 5, .append 2] h4 h3
    (by decide) (by decide +kernel) hg
  have hh := Spec.History.session .fresh h1 k1
  obtain ⟨_, _, _, hm⟩ := history_chunks exCodec_lawful (by decide) hh
  exact ⟨_, hh, hm, exCodec_lawful, rfl⟩

/-- A session with a refused assignment in the middle, then `close`, then a refused `append`. -/
example : ((PQ.open exCodec 4 Dir.empty (some 3)).bind fun r =>
      (r.2.run exCodec 4 [.append 5, .set 0 9, .append 2, .iter]).bind fun r' =>
        r'.2.2.close.map fun c => (r'.2.1, c.iter, (c.append exCodec 4 1).map fun r => r.2.iter))
    = .ok ([.unit, .raised .notImplemented, .unit, .items [5, 2]], [5, 2],
        .error .attributeError) := by decide +kernel

end Pfrl.Persist
