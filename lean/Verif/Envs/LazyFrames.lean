import Verif.Basic
import Mathlib.Data.List.Basic
import Mathlib.Data.List.Nodup
import Mathlib.Data.List.Zip
import Mathlib.Logic.Function.Iterate
import Mathlib.Tactic.Linarith

/-!
# Lazily stacked frames (C152)

`LazyFrames` keeps a list of frames and concatenates them only when it is converted to an array, perhaps long after the environment has
gone on.  C47 treats stacked observations as values.  Here frames and lists are objects in memory: the deques of the wrapper are
changed in place, and an observation is the address of a list of addresses of frames.
-/

namespace Pfrl.LazyFrames

variable {F : Type}

/-! ## Model -/

/-- Memory and the wrapper: arrays at addresses below `nArr`, lists and deques of arrays at addresses below `nLst`, and the deques
`self.frames`. -/
structure Sys (F : Type) where
  nArr : ℕ
  arr : ℕ → F
  nLst : ℕ
  lst : ℕ → List ℕ
  deques : List ℕ

/-- `VectorFrameStack.__init__`, `pfrl/wrappers/vector_frame_stack.py:69-74`: an empty deque for each environment. -/
def Sys.new [Inhabited F] (n : ℕ) : Sys F := ⟨0, fun _ => default, n, fun _ => [], List.range n⟩

/-- The arrays the environments return are new. -/
def newArrays (s : Sys F) : List F → Sys F × List ℕ
  | [] => (s, [])
  | f :: fs =>
    let r := newArrays { s with nArr := s.nArr + 1, arr := fun a => if a = s.nArr then f else s.arr a } fs
    (r.1, s.nArr :: r.2)

/-- Changing a list or deque in place. -/
def modify (s : Sys F) (d : ℕ) (g : List ℕ → List ℕ) : Sys F := { s with lst := fun x => if x = d then g (s.lst d) else s.lst x }

/-- `frames.append(ob)` of a deque with `maxlen=k`. -/
def pushed (k a : ℕ) (l : List ℕ) : List ℕ := (l ++ [a]).drop (l.length + 1 - k)

/-- `for _ in range(self.k): frames.append(ob)`, `pfrl/wrappers/vector_frame_stack.py:89-90` and, for `FrameStack`,
`pfrl/wrappers/atari_wrappers.py:211-212`. -/
def fill (k : ℕ) (s : Sys F) (d a : ℕ) : Sys F := (List.range k).foldl (fun s _ => modify s d (pushed k a)) s

/-- The observations of `_get_ob`: `list(frames)` makes a new list, which the `LazyFrames` keeps. -/
def newLists (s : Sys F) : List ℕ → Sys F × List ℕ
  | [] => (s, [])
  | d :: ds =>
    let r := newLists { s with nLst := s.nLst + 1, lst := fun x => if x = s.nLst then s.lst d else s.lst x } ds
    (r.1, s.nLst :: r.2)

/-- `_get_ob`, `pfrl/wrappers/vector_frame_stack.py:99-105`. -/
def getOb (k : ℕ) (s : Sys F) : Except PyErr (Sys F × List ℕ) :=
  match s.deques with
  | [] => .error .indexError
  | d :: _ => if (s.lst d).length = k then .ok (newLists s s.deques) else .error .assertionError

/-- A call of the wrapper, with what the wrapped environments return. -/
inductive Op (F : Type) where
  | reset (mask : Option (List Bool)) (frames : List F)
  | step (frames : List F)

/-- `reset` and `step`, `pfrl/wrappers/vector_frame_stack.py:83-97`.  `FrameStack.reset` and `FrameStack.step`,
`pfrl/wrappers/atari_wrappers.py:209-222`, are the case of one environment and no mask. -/
def call (k : ℕ) (s : Sys F) : Op F → Except PyErr (Sys F × List ℕ)
  | .reset mask frames =>
    let r := newArrays s frames
    let mask := mask.getD (List.replicate s.deques.length false)
    getOb k ((List.zip mask (List.zip r.1.deques r.2)).foldl (fun s p => if p.1 then s else fill k s p.2.1 p.2.2) r.1)
  | .step frames =>
    let r := newArrays s frames
    getOb k ((List.zip r.1.deques r.2).foldl (fun s p => modify s p.1 (pushed k p.2)) r.1)

/-- A history, with the observations returned by each call. -/
def run (k : ℕ) : List (Op F) → Sys F → Except PyErr (Sys F × List (List ℕ))
  | [], s => .ok (s, [])
  | op :: ops, s =>
    match call k s op with
    | .error e => .error e
    | .ok (s, obs) =>
      match run k ops s with
      | .error e => .error e
      | .ok (s, out) => .ok (s, obs :: out)

/-- `LazyFrames.__array__`, `pfrl/wrappers/atari_wrappers.py:268-272`, before the concatenation: the frames of an observation, as memory
is now. -/
def Sys.frames (s : Sys F) (o : ℕ) : List F := (s.lst o).map s.arr

/-! ## Specification -/

/-- The stacks of `k` frames the environments show, one for each, as values: a step puts the new frame at the end and drops the oldest
one, and a reset fills the stack of an environment that is not masked with the first frame. -/
def Spec.next (k : ℕ) (ws : List (List F)) : Op F → List (List F)
  | .step frames => List.zipWith (fun w f => (w ++ [f]).drop (w.length + 1 - k)) ws frames
  | .reset none frames => frames.map fun f => List.replicate k f
  | .reset (some mask) frames => List.zipWith (fun m (p : List F × F) => if m then p.1 else List.replicate k p.2) mask (List.zip ws frames)

/-- The stacks after each call. -/
def Spec.shown (k : ℕ) : List (List F) → List (Op F) → List (List (List F))
  | _, [] => []
  | ws, op :: ops => Spec.next k ws op :: Spec.shown k (Spec.next k ws op) ops

/-- The environments return a frame each, and there is a mask entry for each. -/
def Spec.Sized (n : ℕ) : Op F → Prop
  | .step frames => frames.length = n
  | .reset none frames => frames.length = n
  | .reset (some mask) frames => frames.length = n ∧ mask.length = n

/-- How many frames the environments return in a call. -/
def Spec.nFrames : Op F → ℕ
  | .step frames => frames.length
  | .reset _ frames => frames.length

/-! ## Lemmas -/

/-- Changing several lists in place. -/
def modAll (s : Sys F) (l : List (ℕ × (List ℕ → List ℕ))) : Sys F := l.foldl (fun s p => modify s p.1 p.2) s

theorem modAll_spec : ∀ (l : List (ℕ × (List ℕ → List ℕ))) (s : Sys F), (l.map Prod.fst).Nodup →
    (modAll s l).nArr = s.nArr ∧ (modAll s l).arr = s.arr ∧ (modAll s l).nLst = s.nLst ∧ (modAll s l).deques = s.deques ∧
    (∀ x ∉ l.map Prod.fst, (modAll s l).lst x = s.lst x) ∧ ∀ p ∈ l, (modAll s l).lst p.1 = p.2 (s.lst p.1)
  | [], s, _ => ⟨rfl, rfl, rfl, rfl, fun _ _ => rfl, fun p hp => by cases hp⟩
  | q :: l, s, hn => by
    have hn' := List.nodup_cons.1 hn
    obtain ⟨h1, h2, h3, h4, h5, h6⟩ := modAll_spec l (modify s q.1 q.2) hn'.2
    refine ⟨h1, h2, h3, h4, ?_, ?_⟩
    · intro x hx
      simp only [List.map_cons, List.mem_cons, not_or] at hx
      have := h5 x hx.2
      simp only [modAll, List.foldl_cons] at this ⊢
      rw [this]
      simp [modify, hx.1]
    · intro p hp
      rcases List.mem_cons.1 hp with rfl | hp
      · have := h5 p.1 hn'.1
        simp only [modAll, List.foldl_cons] at this ⊢
        rw [this]
        simp [modify]
      · have hne : p.1 ≠ q.1 := fun he => hn'.1 (he ▸ List.mem_map_of_mem hp)
        have := h6 p hp
        simp only [modAll, List.foldl_cons] at this ⊢
        rw [this]
        simp [modify, hne]

theorem modify_modify (s : Sys F) (d : ℕ) (g g' : List ℕ → List ℕ) : modify (modify s d g) d g' = modify s d fun l => g' (g l) := by
  unfold modify
  simp only [if_true]
  congr 1
  funext x
  by_cases h : x = d <;> simp [h]

theorem modify_id (s : Sys F) (d : ℕ) : modify s d (fun l => l) = s := by
  unfold modify
  have : (fun x => if x = d then s.lst d else s.lst x) = s.lst := by
    funext x
    by_cases h : x = d <;> simp [h]
  rw [this]

theorem fill_eq (k : ℕ) (s : Sys F) (d a : ℕ) : fill k s d a = modify s d ((pushed k a)^[k]) := by
  unfold fill
  have : ∀ (j : ℕ) (s : Sys F), (List.range j).foldl (fun s _ => modify s d (pushed k a)) s = modify s d ((pushed k a)^[j]) := by
    intro j
    induction j with
    | zero => exact fun s => (modify_id s d).symm
    | succ j ih =>
      intro s
      rw [List.range_succ, List.foldl_append, ih]
      simp only [List.foldl_cons, List.foldl_nil, modify_modify]
      congr 1
      funext l
      rw [Function.iterate_succ_apply']
  exact this k s

theorem pushed_iter (k a : ℕ) (l : List ℕ) (hl : l.length ≤ k) : ∀ j, (pushed k a)^[j] l = (l ++ List.replicate j a).drop (l.length + j - k)
  | 0 => by
    have : l.length + 0 - k = 0 := by omega
    rw [this]
    simp
  | j + 1 => by
    rw [Function.iterate_succ_apply', pushed_iter k a l hl j]
    unfold pushed
    have e : l ++ List.replicate (j + 1) a = (l ++ List.replicate j a) ++ [a] := by
      rw [List.replicate_succ', List.append_assoc]
    rw [e]
    have hd : l.length + j - k ≤ (l ++ List.replicate j a).length := by simp
    rw [← List.drop_append_of_le_length hd, List.drop_drop]
    congr 1
    simp
    omega

theorem pushed_fill (k a : ℕ) (l : List ℕ) (hl : l.length ≤ k) : (pushed k a)^[k] l = List.replicate k a := by
  rw [pushed_iter k a l hl k]
  have : l.length + k - k = l.length := by omega
  rw [this, List.drop_left]

theorem newArrays_spec : ∀ (fs : List F) (s : Sys F), (newArrays s fs).1.nArr = s.nArr + fs.length ∧
    (∀ a < s.nArr, (newArrays s fs).1.arr a = s.arr a) ∧ (newArrays s fs).1.nLst = s.nLst ∧ (newArrays s fs).1.lst = s.lst ∧
    (newArrays s fs).1.deques = s.deques ∧ (newArrays s fs).2.map (newArrays s fs).1.arr = fs ∧
    ∀ a ∈ (newArrays s fs).2, a < s.nArr + fs.length
  | [], s => ⟨rfl, fun _ _ => rfl, rfl, rfl, rfl, rfl, fun _ h => by cases h⟩
  | f :: fs, s => by
    obtain ⟨h1, h2, h3, h4, h5, h6, h7⟩ :=
      newArrays_spec fs { s with nArr := s.nArr + 1, arr := fun a => if a = s.nArr then f else s.arr a }
    simp only at h1 h2 h3 h4 h5 h7
    refine ⟨?_, ?_, h3, h4, h5, ?_, ?_⟩
    · simp only [newArrays, h1, List.length_cons]
      omega
    · intro a ha
      simp only [newArrays]
      rw [h2 a (by omega), if_neg (by omega)]
    · simp only [newArrays, List.map_cons, h6]
      rw [h2 _ (by omega), if_pos rfl]
    · intro a ha
      simp only [newArrays, List.mem_cons] at ha
      rw [List.length_cons]
      rcases ha with rfl | ha
      · omega
      · have := h7 a ha
        omega

theorem newLists_spec : ∀ (ds : List ℕ) (s : Sys F), (∀ d ∈ ds, d < s.nLst) → (newLists s ds).1.nArr = s.nArr ∧
    (newLists s ds).1.arr = s.arr ∧ (newLists s ds).1.deques = s.deques ∧ s.nLst ≤ (newLists s ds).1.nLst ∧
    (∀ x < s.nLst, (newLists s ds).1.lst x = s.lst x) ∧ (newLists s ds).2.map (newLists s ds).1.lst = ds.map s.lst ∧
    (∀ o ∈ (newLists s ds).2, s.nLst ≤ o ∧ o < (newLists s ds).1.nLst) ∧
    ∀ x, s.nLst ≤ x → x < (newLists s ds).1.nLst → ∃ d ∈ ds, (newLists s ds).1.lst x = s.lst d
  | [], s, _ => ⟨rfl, rfl, rfl, le_refl _, fun _ _ => rfl, rfl, fun _ h => (by cases h), fun x h1 h2 => absurd h2 (not_lt.2 h1)⟩
  | d :: ds, s, hd => by
    obtain ⟨h1, h2, h3, h4, h5, h6, h7, h8⟩ :=
      newLists_spec ds { s with nLst := s.nLst + 1, lst := fun x => if x = s.nLst then s.lst d else s.lst x } (by
        intro e he
        have := hd e (by simp [he])
        simp only
        omega)
    simp only at h1 h2 h3 h4 h5 h6 h7 h8
    refine ⟨h1, h2, h3, by simp only [newLists]; omega, ?_, ?_, ?_, ?_⟩
    · intro x hx
      simp only [newLists]
      rw [h5 x (by omega), if_neg (by omega)]
    · simp only [newLists, List.map_cons, h6]
      rw [h5 _ (by omega), if_pos rfl]
      congr 1
      apply List.map_congr_left
      intro e he
      have := hd e (by simp [he])
      rw [if_neg (by omega)]
    · intro o ho
      simp only [newLists, List.mem_cons] at ho ⊢
      rcases ho with rfl | ho
      · omega
      · have := h7 o ho
        omega
    · intro x hx1 hx2
      simp only [newLists] at hx2 ⊢
      by_cases he : x = s.nLst
      · exact ⟨d, by simp, by rw [h5 x (by omega), if_pos he]⟩
      · obtain ⟨e, he1, he2⟩ := h8 x (by omega) hx2
        refine ⟨e, by simp [he1], ?_⟩
        have := hd e (by simp [he1])
        rw [he2, if_neg (by omega)]

/-- The deques hold the stacks, and everything is in memory. -/
structure Inv (k : ℕ) (s : Sys F) (ws : List (List F)) : Prop where
  nodup : s.deques.Nodup
  deques : ∀ d ∈ s.deques, d < s.nLst
  lists : ∀ x < s.nLst, ∀ a ∈ s.lst x, a < s.nArr
  shown : s.deques.map s.frames = ws
  short : ∀ d ∈ s.deques, (s.lst d).length ≤ k

/-- Old observations show what they showed. -/
structure Keeps (s s' : Sys F) : Prop where
  nArr : s.nArr ≤ s'.nArr
  nLst : s.nLst ≤ s'.nLst
  arr : ∀ a < s.nArr, s'.arr a = s.arr a
  lst : ∀ x < s.nLst, x ∉ s.deques → s'.lst x = s.lst x
  deques : s'.deques = s.deques

theorem Keeps.refl (s : Sys F) : Keeps s s := ⟨le_refl _, le_refl _, fun _ _ => rfl, fun _ _ _ => rfl, rfl⟩

theorem Keeps.trans {s s' s'' : Sys F} (a : Keeps s s') (b : Keeps s' s'') : Keeps s s'' :=
  ⟨a.nArr.trans b.nArr, a.nLst.trans b.nLst, fun x hx => (b.arr x (lt_of_lt_of_le hx a.nArr)).trans (a.arr x hx),
    fun x hx hd => (b.lst x (lt_of_lt_of_le hx a.nLst) (by rw [a.deques]; exact hd)).trans (a.lst x hx hd), b.deques.trans a.deques⟩

theorem Keeps.frames {k : ℕ} {s s' : Sys F} {ws : List (List F)} (h : Keeps s s') (inv : Inv k s ws) {o : ℕ} (ho : o < s.nLst)
    (hd : o ∉ s.deques) : s'.frames o = s.frames o := by
  unfold Sys.frames
  rw [h.lst o ho hd]
  apply List.map_congr_left
  intro a ha
  exact h.arr a (inv.lists o ho a ha)

/-- A call that changes every deque `d` by appending, `g a`, where `a` is the frame of its environment. -/
theorem update_spec {k n : ℕ} {s : Sys F} {ws : List (List F)} (inv : Inv k s ws) (hn : s.deques.length = n) (fs : List F) (hfs : fs.length = n)
    (g : ℕ → ℕ → List ℕ → List ℕ) (ws' : List (List F))
    (hlen : ∀ i a l, l.length ≤ k → (g i a l).length ≤ k)
    (hmem : ∀ i a l x, x ∈ g i a l → x = a ∨ x ∈ l)
    (hws : ∀ s' : Sys F, s' = (newArrays s fs).1 → ws' = List.zipWith (fun (p : ℕ × ℕ) a => ((g p.2 a (s.lst p.1)).map s'.arr))
      s.deques.zipIdx (newArrays s fs).2)
    (t : Sys F) (ht : t = modAll (newArrays s fs).1 (List.zipWith (fun (p : ℕ × ℕ) a => (p.1, g p.2 a)) s.deques.zipIdx (newArrays s fs).2)) :
    Inv k t ws' ∧ Keeps s t ∧ t.nArr = s.nArr + fs.length := by
  obtain ⟨a1, a2, a3, a4, a5, a6, a7⟩ := newArrays_spec fs s
  have hal : (newArrays s fs).2.length = n := by
    have := congrArg List.length a6
    rw [List.length_map] at this
    omega
  have hfst : (List.zipWith (fun (p : ℕ × ℕ) a => (p.1, g p.2 a)) s.deques.zipIdx (newArrays s fs).2).map Prod.fst = s.deques := by
    rw [List.map_zipWith]
    apply List.ext_getElem
    · simp; omega
    · intro i h1 h2
      simp
  obtain ⟨m1, m2, m3, m4, m5, m6⟩ := modAll_spec _ (newArrays s fs).1 (by rw [hfst]; exact inv.nodup)
  rw [hfst] at m5
  rw [← ht] at m1 m2 m3 m4 m5 m6
  have hat : ∀ (i : ℕ) (h : i < s.deques.length) (h' : i < (newArrays s fs).2.length),
      t.lst s.deques[i] = g i (newArrays s fs).2[i] (s.lst s.deques[i]) := by
    intro i h h'
    have := m6 (s.deques[i], g i (newArrays s fs).2[i]) (by
      apply List.mem_iff_getElem.2
      exact ⟨i, by simp; omega, by simp⟩)
    rw [a4] at this
    exact this
  have keeps : Keeps s t := ⟨by omega, by omega, fun a ha => by rw [m2, a2 a ha], fun x hx hd => by rw [m5 x hd, a4], by rw [m4, a5]⟩
  have hdl : ∀ d ∈ s.deques, ∃ (i : ℕ) (h : i < s.deques.length) (h' : i < (newArrays s fs).2.length), s.deques[i] = d ∧
      t.lst d = g i (newArrays s fs).2[i] (s.lst d) := by
    intro d hd
    obtain ⟨i, h, rfl⟩ := List.getElem_of_mem hd
    exact ⟨i, h, by omega, rfl, hat i h (by omega)⟩
  refine ⟨⟨by rw [keeps.deques]; exact inv.nodup, ?_, ?_, ?_, ?_⟩, keeps, by omega⟩
  · intro d hd
    rw [keeps.deques] at hd
    have := inv.deques d hd
    omega
  · intro x hx a ha
    by_cases hd : x ∈ s.deques
    · obtain ⟨i, h, h', -, he⟩ := hdl x hd
      rw [he] at ha
      rcases hmem _ _ _ _ ha with rfl | ha
      · have := a7 _ (List.getElem_mem h')
        omega
      · have := inv.lists x (by omega) a ha
        omega
    · rw [keeps.lst x (by omega) hd] at ha
      have := inv.lists x (by omega) a ha
      omega
  · rw [hws _ rfl, keeps.deques]
    apply List.ext_getElem
    · simp; omega
    · intro i h1 h2
      have h3 : i < s.deques.length := by simpa using h1
      simp only [List.getElem_map, List.getElem_zipWith, List.getElem_zipIdx, Nat.zero_add, Sys.frames]
      rw [hat i h3 (by omega), m2]
  · intro d hd
    rw [keeps.deques] at hd
    obtain ⟨i, h, h', -, he⟩ := hdl d hd
    rw [he]
    exact hlen _ _ _ (inv.short d hd)

theorem pushed_length (k a : ℕ) (l : List ℕ) : (pushed k a l).length ≤ k := by
  simp [pushed]
  omega

theorem pushed_mem {k a x : ℕ} {l : List ℕ} (h : x ∈ pushed k a l) : x = a ∨ x ∈ l := by
  have := List.mem_of_mem_drop h
  simp only [List.mem_append, List.mem_singleton] at this
  exact this.symm

theorem getOb_spec {k : ℕ} {t : Sys F} {ws : List (List F)} (inv : Inv k t ws) (hne : ws ≠ []) (hk : ∀ w ∈ ws, w.length = k) :
    ∃ s obs, getOb k t = .ok (s, obs) ∧ Inv k s ws ∧ Keeps t s ∧ s.nArr = t.nArr ∧ obs.map s.frames = ws ∧
      ∀ o ∈ obs, t.nLst ≤ o ∧ o < s.nLst := by
  obtain ⟨h1, h2, h3, h4, h5, h6, h7, h8⟩ := newLists_spec t.deques t inv.deques
  have hg : getOb k t = .ok (newLists t t.deques) := by
    unfold getOb
    cases hd : t.deques with
    | nil => exact absurd (by rw [← inv.shown, hd]; rfl) hne
    | cons d ds =>
      have : (t.frames d).length = k := hk _ (by rw [← inv.shown, hd]; simp)
      simp only
      rw [if_pos (by simpa [Sys.frames] using this)]
  have hf : ∀ x < t.nLst, (newLists t t.deques).1.frames x = t.frames x := by
    intro x hx
    simp only [Sys.frames, h5 x hx, h2]
  refine ⟨_, _, hg, ⟨?_, ?_, ?_, ?_, ?_⟩, ⟨by omega, h4, fun a _ => by rw [h2], fun x hx _ => h5 x hx, h3⟩, h1, ?_, h7⟩
  · rw [h3]; exact inv.nodup
  · intro d hd
    rw [h3] at hd
    exact lt_of_lt_of_le (inv.deques d hd) h4
  · intro x hx a ha
    rw [h1]
    by_cases hxt : x < t.nLst
    · rw [h5 x hxt] at ha
      exact inv.lists x hxt a ha
    · obtain ⟨d, hd, he⟩ := h8 x (by omega) hx
      rw [he] at ha
      exact inv.lists d (inv.deques d hd) a ha
  · rw [h3, ← inv.shown]
    exact List.map_congr_left fun d hd => hf d (inv.deques d hd)
  · intro d hd
    rw [h3] at hd
    rw [h5 d (inv.deques d hd)]
    exact inv.short d hd
  · rw [← inv.shown]
    have : (newLists t t.deques).2.map (newLists t t.deques).1.frames = ((newLists t t.deques).2.map (newLists t t.deques).1.lst).map (List.map t.arr) := by
      rw [List.map_map]
      apply List.map_congr_left
      intro o _
      simp only [Sys.frames, h2, Function.comp]
    rw [this, h6, List.map_map]
    rfl

theorem step_list (k : ℕ) (ds as : List ℕ) (s : Sys F) : (List.zip ds as).foldl (fun s p => modify s p.1 (pushed k p.2)) s
    = modAll s (List.zipWith (fun (p : ℕ × ℕ) a => (p.1, pushed k a)) ds.zipIdx as) := by
  have : List.zipWith (fun (p : ℕ × ℕ) a => (p.1, pushed k a)) ds.zipIdx as = (List.zip ds as).map fun p => (p.1, pushed k p.2) := by
    apply List.ext_getElem
    · simp
    · intro i h1 h2
      simp
  rw [this, modAll, List.foldl_map]

theorem reset_list (k : ℕ) (mask : List Bool) (ds as : List ℕ) (hm : mask.length = ds.length) (s : Sys F) :
    (List.zip mask (List.zip ds as)).foldl (fun s p => if p.1 then s else fill k s p.2.1 p.2.2) s
    = modAll s (List.zipWith (fun (p : ℕ × ℕ) a => (p.1, fun l => if mask.getD p.2 false then l else (pushed k a)^[k] l)) ds.zipIdx as) := by
  have : List.zipWith (fun (p : ℕ × ℕ) a => (p.1, fun l => if mask.getD p.2 false then l else (pushed k a)^[k] l)) ds.zipIdx as
      = (List.zip mask (List.zip ds as)).map fun p => (p.2.1, fun l => if p.1 then l else (pushed k p.2.2)^[k] l) := by
    apply List.ext_getElem
    · simp
      omega
    · intro i h1 h2
      have : i < mask.length := by simp at h2; omega
      simp [List.getD_eq_getElem?_getD, this]
  rw [this, modAll, List.foldl_map]
  congr 1
  funext s p
  cases hp : p.1 with
  | true => simp only [if_true, modify_id]
  | false => simp only [Bool.false_eq_true, if_false, fill_eq]

theorem call_spec {k n : ℕ} {s : Sys F} {ws : List (List F)} (inv : Inv k s ws) (hn : s.deques.length = n) (hpos : 0 < n) {op : Op F}
    (hop : Spec.Sized n op) (hk : ∀ w ∈ Spec.next k ws op, w.length = k) :
    ∃ s' obs, call k s op = .ok (s', obs) ∧ Inv k s' (Spec.next k ws op) ∧ Keeps s s' ∧ s'.nArr = s.nArr + Spec.nFrames op ∧
      obs.map s'.frames = Spec.next k ws op ∧ ∀ o ∈ obs, s.nLst ≤ o ∧ o < s'.nLst := by
  have hwl : ws.length = n := by rw [← inv.shown]; simpa using hn
  have finish : ∀ (t : Sys F), Inv k t (Spec.next k ws op) → Keeps s t → t.nArr = s.nArr + Spec.nFrames op → call k s op = getOb k t →
      Spec.next k ws op ≠ [] → ∃ s' obs, call k s op = .ok (s', obs) ∧ Inv k s' (Spec.next k ws op) ∧ Keeps s s' ∧
      s'.nArr = s.nArr + Spec.nFrames op ∧ obs.map s'.frames = Spec.next k ws op ∧ ∀ o ∈ obs, s.nLst ≤ o ∧ o < s'.nLst := by
    intro t i1 i2 i3 i4 i5
    obtain ⟨s', obs, g1, g2, g3, g4, g5, g6⟩ := getOb_spec i1 i5 hk
    exact ⟨s', obs, i4.trans g1, g2, i2.trans g3, by omega, g5, fun o ho => ⟨i2.nLst.trans (g6 o ho).1, (g6 o ho).2⟩⟩
  have ne : ∀ l : List (List F), l.length = n → l ≠ [] := by
    rintro l hl rfl
    simp at hl
    omega
  have old : ∀ (fs : List F) (d : ℕ), d ∈ s.deques → (s.lst d).map (newArrays s fs).1.arr = s.frames d := by
    intro fs d hd
    exact List.map_congr_left fun a ha => (newArrays_spec fs s).2.1 a (inv.lists d (inv.deques d hd) a ha)
  have alen : ∀ fs : List F, (newArrays s fs).2.length = fs.length := by
    intro fs
    have := congrArg List.length (newArrays_spec fs s).2.2.2.2.2.1
    rwa [List.length_map] at this
  have aget : ∀ (fs : List F) (i : ℕ) (h : i < (newArrays s fs).2.length) (h' : i < fs.length),
      (newArrays s fs).1.arr (newArrays s fs).2[i] = fs[i] := by
    intro fs i h h'
    have := (newArrays_spec fs s).2.2.2.2.2.1
    have e : ((newArrays s fs).2.map (newArrays s fs).1.arr)[i]'(by simpa using h) = fs[i] := by simp only [this]
    simpa using e
  have wsget : ∀ (i : ℕ) (h : i < ws.length) (h' : i < s.deques.length), ws[i] = s.frames s.deques[i] := by
    intro i h h'
    have e : (s.deques.map s.frames)[i]'(by simpa using h') = ws[i] := by simp only [inv.shown]
    rw [← e]
    simp
  have resetCase : ∀ (mask : List Bool) (fs : List F), mask.length = n → fs.length = n →
      Inv k ((List.zip mask (List.zip (newArrays s fs).1.deques (newArrays s fs).2)).foldl
        (fun s p => if p.1 then s else fill k s p.2.1 p.2.2) (newArrays s fs).1)
        (List.zipWith (fun m (p : List F × F) => if m then p.1 else List.replicate k p.2) mask (List.zip ws fs)) ∧
      Keeps s ((List.zip mask (List.zip (newArrays s fs).1.deques (newArrays s fs).2)).foldl
        (fun s p => if p.1 then s else fill k s p.2.1 p.2.2) (newArrays s fs).1) ∧
      ((List.zip mask (List.zip (newArrays s fs).1.deques (newArrays s fs).2)).foldl
        (fun s p => if p.1 then s else fill k s p.2.1 p.2.2) (newArrays s fs).1).nArr = s.nArr + fs.length := by
    intro mask fs hm hfs
    have hd := (newArrays_spec fs s).2.2.2.2.1
    rw [hd, reset_list k mask _ _ (by omega)]
    refine update_spec inv hn fs hfs (fun i a l => if mask.getD i false then l else (pushed k a)^[k] l) _ ?_ ?_ ?_ _ rfl
    · intro i a l hl
      split
      · exact hl
      · rw [pushed_fill k a l hl]
        simp
    · intro i a l x hx
      split at hx
      · exact .inr hx
      · have : ∀ j, x ∈ (pushed k a)^[j] l → x = a ∨ x ∈ l := by
          intro j
          induction j with
          | zero => exact fun h => .inr h
          | succ j ih =>
            intro h
            rw [Function.iterate_succ_apply'] at h
            rcases pushed_mem h with h | h
            · exact .inl h
            · exact ih h
        exact this k hx
    · rintro _ rfl
      apply List.ext_getElem
      · simp [alen]
        omega
      · intro i h1 h2
        have q1 : i < mask.length := by simp at h1; omega
        have q2 : i < s.deques.length := by omega
        have q3 : i < fs.length := by omega
        have q4 : i < (newArrays s fs).2.length := by rw [alen]; exact q3
        simp only [List.getElem_zipWith, List.getElem_zip, List.getElem_zipIdx, Nat.zero_add]
        have hmg : mask.getD i false = mask[i] := by simp [List.getD_eq_getElem?_getD, q1]
        rw [hmg]
        cases mask[i] with
        | true =>
          simp only [if_true]
          rw [old fs _ (List.getElem_mem q2), wsget i (by omega) q2]
        | false =>
          simp only [Bool.false_eq_true, if_false]
          rw [pushed_fill k _ _ (inv.short _ (List.getElem_mem q2)), List.map_replicate, aget fs i q4 q3]
  cases op with
  | step fs =>
    have hfs : fs.length = n := hop
    have hd := (newArrays_spec fs s).2.2.2.2.1
    obtain ⟨u1, u2, u3⟩ := update_spec inv hn fs hfs (fun _ a => pushed k a) (Spec.next k ws (.step fs)) (fun _ a l _ => pushed_length k a l)
      (fun _ a l x hx => pushed_mem hx) (by
      rintro _ rfl
      apply List.ext_getElem
      · simp [Spec.next, alen]
        omega
      · intro i h1 h2
        have q3 : i < fs.length := by simp [Spec.next] at h1; omega
        have q2 : i < s.deques.length := by omega
        have q4 : i < (newArrays s fs).2.length := by rw [alen]; exact q3
        simp only [Spec.next, List.getElem_zipWith, List.getElem_zipIdx, pushed]
        rw [wsget i (by omega) q2, List.map_drop, List.map_append, old fs _ (List.getElem_mem q2), List.map_singleton, aget fs i q4 q3]
        simp [Sys.frames]) _ rfl
    refine finish _ u1 u2 u3 ?_ (ne _ (by simp [Spec.next]; omega))
    simp only [call, hd, step_list]
  | reset mask fs =>
    cases mask with
    | none =>
      have hfs : fs.length = n := hop
      obtain ⟨r1, r2, r3⟩ := resetCase (List.replicate s.deques.length false) fs (by simpa using hn) hfs
      have he : List.zipWith (fun m (p : List F × F) => if m then p.1 else List.replicate k p.2) (List.replicate s.deques.length false)
          (List.zip ws fs) = Spec.next k ws (.reset none fs) := by
        apply List.ext_getElem
        · simp [Spec.next]
          omega
        · intro i h1 h2
          simp [Spec.next]
      rw [he] at r1
      exact finish _ r1 r2 r3 rfl (ne _ (by simpa [Spec.next] using hfs))
    | some mask =>
      obtain ⟨hfs, hm⟩ : fs.length = n ∧ mask.length = n := hop
      obtain ⟨r1, r2, r3⟩ := resetCase mask fs hm hfs
      exact finish _ r1 r2 r3 rfl (ne _ (by simp [Spec.next]; omega))

theorem next_sized {k n : ℕ} {ws : List (List F)} (hl : ws.length = n) (hk : ∀ w ∈ ws, w.length = k) {op : Op F} (hop : Spec.Sized n op) :
    (Spec.next k ws op).length = n ∧ ∀ w ∈ Spec.next k ws op, w.length = k := by
  cases op with
  | step fs =>
    have hfs : fs.length = n := hop
    refine ⟨by simp [Spec.next]; omega, ?_⟩
    intro w hw
    obtain ⟨i, h, rfl⟩ := List.getElem_of_mem hw
    have h1 : i < ws.length := by simp [Spec.next] at h; omega
    have := hk _ (List.getElem_mem h1)
    simp [Spec.next, this]
  | reset mask fs =>
    cases mask with
    | none =>
      have hfs : fs.length = n := hop
      refine ⟨by simpa [Spec.next] using hfs, ?_⟩
      intro w hw
      obtain ⟨f, _, rfl⟩ := List.mem_map.1 hw
      simp
    | some mask =>
      obtain ⟨hfs, hm⟩ : fs.length = n ∧ mask.length = n := hop
      refine ⟨by simp [Spec.next]; omega, ?_⟩
      intro w hw
      obtain ⟨i, h, rfl⟩ := List.getElem_of_mem hw
      have h1 : i < ws.length := by simp [Spec.next] at h; omega
      have := hk _ (List.getElem_mem h1)
      simp only [Spec.next, List.getElem_zipWith, List.getElem_zip]
      split
      · exact this
      · simp

theorem run_spec {k n : ℕ} (hpos : 0 < n) : ∀ (ops : List (Op F)) (s : Sys F) (ws : List (List F)), Inv k s ws → s.deques.length = n →
    (∀ w ∈ ws, w.length = k) → (∀ op ∈ ops, Spec.Sized n op) →
    ∃ s' out, run k ops s = .ok (s', out) ∧ Keeps s s' ∧ s'.nArr = s.nArr + (ops.map Spec.nFrames).sum ∧
      out.map (List.map s'.frames) = Spec.shown k ws ops ∧ ∀ obs ∈ out, ∀ o ∈ obs, ∀ a ∈ s'.lst o, a < s'.nArr
  | [], s, ws, _, _, _, _ => ⟨s, [], rfl, .refl s, by simp, rfl, fun _ h => by cases h⟩
  | op :: ops, s, ws, inv, hn, hk, hops => by
    have hwl : ws.length = n := by rw [← inv.shown]; simpa using hn
    obtain ⟨_, hk'⟩ := next_sized hwl hk (hops op (by simp))
    obtain ⟨s1, obs, c1, c2, c3, c4, c5, c6⟩ := call_spec inv hn hpos (hops op (by simp)) hk'
    obtain ⟨s2, out, r1, r2, r3, r4, r5⟩ := run_spec hpos ops s1 _ c2 (by rw [c3.deques]; exact hn) hk' fun o ho => hops o (by simp [ho])
    have notd : ∀ o ∈ obs, o ∉ s1.deques := by
      intro o ho hd
      rw [c3.deques] at hd
      have := inv.deques o hd
      have := (c6 o ho).1
      omega
    refine ⟨s2, obs :: out, by simp only [run, c1, r1], c3.trans r2, ?_, ?_, ?_⟩
    · rw [List.map_cons, List.sum_cons]
      omega
    · rw [List.map_cons, r4, Spec.shown, ← c5]
      congr 1
      exact List.map_congr_left fun o ho => r2.frames c2 (c6 o ho).2 (notd o ho)
    · intro b hb o ho a ha
      rcases List.mem_cons.1 hb with rfl | hb
      · rw [r2.lst o (c6 o ho).2 (notd o ho)] at ha
        exact lt_of_lt_of_le (c2.lists o (c6 o ho).2 a ha) r2.nArr
      · exact r5 b hb o ho a ha

/-! ## C152 -/

/-- **C152.** After a first reset of all environments, every history of steps and resets, with any masks, succeeds, and if the
observations returned by all the calls are converted to arrays only at its end, each has the frames its environment showed at the
time: those of the stack of values.  Frames are shared: all observations consist of the arrays the environments returned, of which
there is one for each environment and call. -/
theorem lazy_observations [Inhabited F] (k n : ℕ) (hn : 0 < n) (first : List F) (hf : first.length = n) (ops : List (Op F))
    (hops : ∀ op ∈ ops, Spec.Sized n op) :
    ∃ s out, run k (.reset none first :: ops) (Sys.new n) = .ok (s, out) ∧
      out.map (List.map s.frames) = Spec.shown k (List.replicate n []) (.reset none first :: ops) ∧
      s.nArr = n * (ops.length + 1) ∧ ∀ obs ∈ out, ∀ o ∈ obs, ∀ a ∈ s.lst o, a < s.nArr := by
  have inv : Inv k (Sys.new n : Sys F) (List.replicate n []) := by
    refine ⟨List.nodup_range, ?_, ?_, ?_, ?_⟩
    · intro d hd
      simpa [Sys.new] using hd
    · intro x _ a ha
      simp [Sys.new] at ha
    · apply List.ext_getElem
      · simp [Sys.new]
      · intro i h1 h2
        simp [Sys.new, Sys.frames]
    · intro d _
      simp [Sys.new]
  have hd : (Sys.new n : Sys F).deques.length = n := by simp [Sys.new]
  have hs : Spec.Sized n (.reset none first : Op F) := hf
  have hk : ∀ w ∈ Spec.next k (List.replicate n []) (.reset none first), w.length = k := by
    intro w hw
    obtain ⟨f, _, rfl⟩ := List.mem_map.1 hw
    simp
  obtain ⟨s1, obs, c1, c2, c3, c4, c5, c6⟩ := call_spec inv hd hn hs hk
  obtain ⟨s2, out, r1, r2, r3, r4, r5⟩ := run_spec hn ops s1 _ c2 (by rw [c3.deques]; exact hd) hk hops
  have notd : ∀ o ∈ obs, o ∉ s1.deques := by
    intro o ho hd
    rw [c3.deques] at hd
    have := inv.deques o hd
    have := (c6 o ho).1
    omega
  have hsum : (ops.map Spec.nFrames).sum = n * ops.length := by
    clear r1 r2 r3 r4 r5
    induction ops with
    | nil => simp
    | cons op ops ih =>
      have h1 : Spec.nFrames op = n := by
        have := hops op (by simp)
        cases op with
        | step fs => exact this
        | reset mask fs =>
          cases mask with
          | none => exact this
          | some m => exact this.1
      rw [List.map_cons, List.sum_cons, ih fun o ho => hops o (by simp [ho]), h1, List.length_cons, Nat.mul_succ, Nat.add_comm]
  refine ⟨s2, obs :: out, by simp only [run, c1, r1], ?_, ?_, ?_⟩
  · rw [List.map_cons, r4, Spec.shown, ← c5]
    congr 1
    exact List.map_congr_left fun o ho => r2.frames c2 (c6 o ho).2 (notd o ho)
  · have h0 : (Sys.new n : Sys F).nArr = 0 := rfl
    have h1 : Spec.nFrames (.reset none first : Op F) = n := hf
    rw [r3, c4, hsum, h0, h1, Nat.mul_succ]
    omega
  · intro b hb o ho a ha
    rcases List.mem_cons.1 hb with rfl | hb
    · rw [r2.lst o (c6 o ho).2 (notd o ho)] at ha
      exact lt_of_lt_of_le (c2.lists o (c6 o ho).2 a ha) r2.nArr
    · exact r5 b hb o ho a ha

/-! ## Limits -/

/-- **C152 (limit).** Frames are not copied: if an environment changes an array it has returned, observations returned before change
too. -/
theorem reused_arrays_corrupt : ∃ (ops : List (Op ℕ)) (s : Sys ℕ) (o : ℕ), run 2 ops (Sys.new 1) = .ok (s, [[o]]) ∧ s.frames o = [7, 7] ∧
    ({ s with arr := fun a => if a = 0 then 8 else s.arr a } : Sys ℕ).frames o = [8, 8] :=
  ⟨[.reset none [7]], _, 1, rfl, rfl, rfl⟩

/-- **C152 (limit).** A step before the first reset fails. -/
theorem step_before_reset [Inhabited F] (k n : ℕ) (hk : 2 ≤ k) (hn : 0 < n) (f : List F) : ∃ e, run k [.step f] (Sys.new n) = .error e := by
  obtain ⟨m, rfl⟩ : ∃ m, n = m + 1 := ⟨n - 1, by omega⟩
  have hd := (newArrays_spec f (Sys.new (m + 1) : Sys F)).2.2.2.2.1
  have hl := (newArrays_spec f (Sys.new (m + 1) : Sys F)).2.2.2.1
  have hlen : ∀ (l : List (ℕ × ℕ)) (s : Sys F) (c : ℕ), (l.map Prod.fst).Nodup → (s.lst c).length = 0 →
      ((l.foldl (fun s p => modify s p.1 (pushed k p.2)) s).lst c).length ≤ 1 ∧
      (l.foldl (fun s p => modify s p.1 (pushed k p.2)) s).deques = s.deques := by
    intro l s c hnd hc
    have e : l.foldl (fun s p => modify s p.1 (pushed k p.2)) s = modAll s (l.map fun p => (p.1, pushed k p.2)) := by
      rw [modAll, List.foldl_map]
    obtain ⟨-, -, -, h4, h5, h6⟩ := modAll_spec (l.map fun p => (p.1, pushed k p.2)) s (by rw [List.map_map]; exact hnd)
    rw [e]
    refine ⟨?_, h4⟩
    by_cases hm : c ∈ (l.map fun p => (p.1, pushed k p.2)).map Prod.fst
    · obtain ⟨p, hp, rfl⟩ := List.mem_map.1 hm
      obtain ⟨q, hq, rfl⟩ := List.mem_map.1 hp
      rw [h6 _ hp]
      simp only [pushed, List.length_drop, List.length_append, List.length_singleton] at hc ⊢
      omega
    · rw [h5 c hm]
      omega
  have hz : ((List.zip (newArrays (Sys.new (m + 1)) f).1.deques (newArrays (Sys.new (m + 1) : Sys F) f).2).map Prod.fst).Nodup := by
    rw [hd]
    refine List.Nodup.sublist (l₂ := (Sys.new (m + 1) : Sys F).deques) ?_ List.nodup_range
    generalize (Sys.new (m + 1) : Sys F).deques = l
    generalize (newArrays (Sys.new (m + 1) : Sys F) f).2 = l'
    induction l generalizing l' with
    | nil => simp
    | cons a l ih =>
      cases l' with
      | nil => simp
      | cons b l' => simpa using ih l'
  obtain ⟨l1, l2⟩ := hlen _ (newArrays (Sys.new (m + 1) : Sys F) f).1 0 hz (by rw [hl]; rfl)
  refine ⟨.assertionError, ?_⟩
  have hg : call k (Sys.new (m + 1) : Sys F) (.step f) = .error .assertionError := by
    simp only [call, getOb]
    rw [l2, hd]
    have : (Sys.new (m + 1) : Sys F).deques = 0 :: (List.range m).map Nat.succ := by simp [Sys.new, List.range_succ_eq_map]
    rw [this]
    simp only
    rw [hd] at l1
    rw [if_neg (by rw [this] at l1; omega)]
  simp only [run, hg]

/-! ## Non-vacuity -/

/-- Two environments, stacks of two: the second environment is not reset by the masked reset. -/
example : Spec.shown 2 [[], []] [.reset none [1, 10], .step [2, 11], .reset (some [false, true]) [3, 11], .step [4, 12]]
    = [[[1, 1], [10, 10]], [[1, 2], [10, 11]], [[3, 3], [10, 11]], [[3, 4], [11, 12]]] := by decide

example : ∀ op ∈ [(.step [2, 11] : Op ℕ), .reset (some [false, true]) [3, 11], .step [4, 12]], Spec.Sized 2 op := by
  simp [Spec.Sized]

end Pfrl.LazyFrames
