import Mathlib.Data.List.Basic

/-!
# Frame stacking (C47)

The observations of the wrapped environment are given with the events; the stack is kept as the list of the frames
in the deque.  (`LazyFrames` holds a copy of that list; concatenating the frames is not modelled.)
-/

namespace Pfrl.Envs.Frames

variable {O : Type _}

/-! ## Model -/

/-- `append` on `deque([], maxlen=k)`. -/
def push (k : Nat) (l : List O) (x : O) : List O := (l ++ [x]).drop (l.length + 1 - k)

/-- `for _ in range(self.k): self.frames.append(ob)`. -/
def fill (k : Nat) : Nat → List O → O → List O
  | 0, l, _ => l
  | j + 1, l, x => fill k j (push k l x) x

/-- A call on `FrameStack`, with the observation the wrapped environment returns. -/
inductive Ev (O : Type _) where
  | reset (o : O)
  | step (o : O)

/-- `FrameStack.reset`, `FrameStack.step` up to `_get_ob`, `pfrl/wrappers/atari_wrappers.py:209-217`. -/
def FrameStack.call (k : Nat) (frames : List O) : Ev O → List O
  | .reset o => fill k k frames o
  | .step o => push k frames o

/-- `FrameStack._get_ob`, `atari_wrappers.py:220-222`; `none` if the assertion fails. -/
def FrameStack.getOb (k : Nat) (frames : List O) : Option (List O) :=
  if frames.length = k then some frames else none

/-- The frames after some calls, `atari_wrappers.py:189-222`.  A failing assertion leaves the frames as they are,
so the calls can go on after it. -/
def FrameStack.run (k : Nat) (evs : List (Ev O)) : List O := evs.foldl (FrameStack.call k) []

/-- A call on `VectorFrameStack`, with the observations the wrapped vector environment returns, one for each
environment (also for those which are not reset). -/
inductive VEv (O : Type _) where
  | reset (mask : Option (List Bool)) (obs : List O)
  | step (obs : List O)

/-- `VectorFrameStack.reset` and `step` up to `_get_ob`, `pfrl/wrappers/vector_frame_stack.py:83-97`.  `zip` ends
with its shortest argument; the deques beyond that keep their frames. -/
def VectorFrameStack.call (k : Nat) (frames : List (List O)) : VEv O → List (List O)
  | .reset none obs => frames.mapIdx fun i f => match obs[i]? with
      | some o => fill k k f o
      | none => f
  | .reset (some mask) obs => frames.mapIdx fun i f => match mask[i]?, obs[i]? with
      | some false, some o => fill k k f o
      | _, _ => f
  | .step obs => frames.mapIdx fun i f => match obs[i]? with
      | some o => push k f o
      | none => f

/-- `VectorFrameStack._get_ob`, `vector_frame_stack.py:99-105`; `none` if an assertion fails (or `frames[0]` does not
exist).  Only the length of the first stack is checked. -/
def VectorFrameStack.getOb (n k : Nat) (frames : List (List O)) : Option (List (List O)) :=
  if frames.length = n ∧ (frames[0]?).map List.length = some k then some frames else none

/-- The frames after some calls, `vector_frame_stack.py:69-97`. -/
def VectorFrameStack.run (n k : Nat) (evs : List (VEv O)) : List (List O) :=
  evs.foldl (VectorFrameStack.call k) (List.replicate n [])

/-! ## Specification -/

/-- `stack` shows the last `k` frames of the episode `fs`, oldest first, the first frame being repeated in front if
there are fewer than `k`: the entry `j` is the frame `len + j - k` of the episode, or the frame 0 if that is
negative. -/
def Spec.Shows (k : Nat) (fs stack : List O) : Prop :=
  stack.length = k ∧ ∀ j : Nat, j < k → stack[j]? = fs[fs.length + j - k]?

/-- What a call on the vector means for environment `i`. -/
def Spec.evAt (i : Nat) : VEv O → Option (Ev O)
  | .reset none obs => (obs[i]?).map .reset
  | .reset (some mask) obs => if mask[i]? = some false then (obs[i]?).map .reset else none
  | .step obs => (obs[i]?).map .step

/-- The frames of the current episode after some calls, if there was a reset. -/
def Spec.episode (evs : List (Ev O)) : Option (List O) :=
  evs.foldl (fun e ev => match ev with
    | .reset o => some [o]
    | .step o => e.map fun fs => fs ++ [o]) none

/-! ## Lemmas -/

theorem push_length (k : Nat) (l : List O) (x : O) : (push k l x).length = min (l.length + 1) k := by
  unfold push; simp; omega

theorem push_getElem? (k : Nat) {l : List O} (hl : l.length = k) (x : O) {j : Nat} (hj : j < k) :
    (push k l x)[j]? = if j + 1 = k then some x else l[j + 1]? := by
  unfold push
  rw [List.getElem?_drop, hl]
  have h1 : k + 1 - k + j = j + 1 := by omega
  rw [h1]
  split
  · rw [List.getElem?_append_right (by omega)]
    simp [*]
  · rw [List.getElem?_append_left (by omega)]

theorem push_le (k : Nat) (l : List O) (x : O) : (push k l x).length ≤ k := by
  rw [push_length]; omega

theorem fill_eq (k : Nat) (x : O) : ∀ (j : Nat) (l : List O), l.length ≤ k →
    fill k j l x = (l ++ List.replicate j x).drop (l.length + j - k)
  | 0, l, hl => by
    unfold fill
    rw [show l.length + 0 - k = 0 by omega]; simp
  | j + 1, l, hl => by
    unfold fill
    rw [fill_eq k x j _ (push_le k l x), push_length]
    unfold push
    rw [← List.drop_append_of_le_length (by simp), List.drop_drop]
    congr 1
    · omega
    · simp [List.replicate_succ]

theorem fill_full (k : Nat) {l : List O} (hl : l.length ≤ k) (x : O) : fill k k l x = List.replicate k x := by
  rw [fill_eq k x k l hl, show l.length + k - k = l.length by omega, List.drop_left]

theorem shows_reset (k : Nat) (o : O) : Spec.Shows k [o] (List.replicate k o) := by
  refine ⟨by simp, fun j hj => ?_⟩
  have : [o].length + j - k = 0 := by simp; omega
  rw [this]
  simp [hj]

theorem shows_push {k : Nat} {fs l : List O} (hne : fs ≠ []) (h : Spec.Shows k fs l) (o : O) :
    Spec.Shows k (fs ++ [o]) (push k l o) := by
  refine ⟨by rw [push_length, h.1]; omega, fun j hj => ?_⟩
  have hpos : 0 < fs.length := List.length_pos_iff.mpr hne
  rw [push_getElem? k h.1 o hj]
  split
  · rename_i hjk
    rw [show (fs ++ [o]).length + j - k = fs.length by simp; omega]
    simp
  · rw [h.2 (j + 1) (by omega), List.getElem?_append_left (by simp; omega)]
    congr 1
    simp; omega

theorem call_le (k : Nat) {l : List O} (hl : l.length ≤ k) (ev : Ev O) : (FrameStack.call k l ev).length ≤ k := by
  cases ev with
  | reset o => simp [FrameStack.call, fill_full k hl]
  | step o => exact push_le _ _ _

/-- The state of one stack: its length is bounded, and it shows the episode, if there is one. -/
def Good (k : Nat) (e : Option (List O)) (l : List O) : Prop :=
  l.length ≤ k ∧ ∀ fs, e = some fs → fs ≠ [] ∧ Spec.Shows k fs l

theorem good_call {k : Nat} {e : Option (List O)} {l : List O} (h : Good k e l) (ev : Ev O) :
    Good k (match ev with
      | .reset o => some [o]
      | .step o => e.map fun fs => fs ++ [o]) (FrameStack.call k l ev) := by
  refine ⟨call_le k h.1 ev, ?_⟩
  cases ev with
  | reset o =>
    intro fs hfs
    cases hfs
    refine ⟨by simp, ?_⟩
    simp only [FrameStack.call, fill_full k h.1]
    exact shows_reset k o
  | step o =>
    intro fs hfs
    obtain ⟨gs, hgs, rfl⟩ := Option.map_eq_some_iff.mp hfs
    obtain ⟨h1, h2⟩ := h.2 gs hgs
    exact ⟨by simp, shows_push h1 h2 o⟩

theorem good_run (k : Nat) : ∀ (evs : List (Ev O)) (e : Option (List O)) (l : List O), Good k e l →
    Good k (evs.foldl (fun e ev => match ev with
      | .reset o => some [o]
      | .step o => e.map fun fs => fs ++ [o]) e) (evs.foldl (FrameStack.call k) l)
  | [], _, _, h => h
  | ev :: evs, e, l, h => by
    rw [List.foldl_cons, List.foldl_cons]
    exact good_run k evs _ _ (good_call h ev)

theorem vcall_length (k : Nat) (frames : List (List O)) (ev : VEv O) :
    (VectorFrameStack.call k frames ev).length = frames.length := by
  cases ev with
  | reset mask obs => cases mask <;> simp [VectorFrameStack.call]
  | step obs => simp [VectorFrameStack.call]

theorem vcall_get (k : Nat) (frames : List (List O)) (ev : VEv O) (i : Nat) :
    (VectorFrameStack.call k frames ev)[i]? = (frames[i]?).map fun f =>
      match Spec.evAt i ev with
      | some e => FrameStack.call k f e
      | none => f := by
  cases ev with
  | reset mask obs =>
    cases mask with
    | none =>
      simp only [VectorFrameStack.call, List.getElem?_mapIdx, Spec.evAt]
      cases obs[i]? <;> rfl
    | some mask =>
      simp only [VectorFrameStack.call, List.getElem?_mapIdx, Spec.evAt]
      rcases h1 : mask[i]? with _ | b
      · rfl
      · cases b
        · cases obs[i]? <;> rfl
        · rfl
  | step obs =>
    simp only [VectorFrameStack.call, List.getElem?_mapIdx, Spec.evAt]
    cases obs[i]? <;> rfl

theorem vrun_get (k : Nat) (i : Nat) : ∀ (evs : List (VEv O)) (frames : List (List O)),
    (evs.foldl (VectorFrameStack.call k) frames).length = frames.length ∧
    (evs.foldl (VectorFrameStack.call k) frames)[i]? =
      (frames[i]?).map fun f => (evs.filterMap (Spec.evAt i)).foldl (FrameStack.call k) f
  | [], frames => by simp
  | ev :: evs, frames => by
    rw [List.foldl_cons]
    obtain ⟨h1, h2⟩ := vrun_get k i evs (VectorFrameStack.call k frames ev)
    refine ⟨by rw [h1, vcall_length], ?_⟩
    rw [h2, vcall_get, List.filterMap_cons, Option.map_map]
    congr 1
    funext f
    simp only [Function.comp_apply]
    cases Spec.evAt i ev <;> rfl

/-! ## C47 -/

/-- **C47.** After any calls among which there is a reset, the observation returned by `FrameStack` shows the last
`k` frames of the current episode (the frames since the last reset), with the first frame repeated in front if there
are fewer; and no assertion fails. -/
theorem frame_stack (k : Nat) (evs : List (Ev O)) {fs : List O} (h : Spec.episode evs = some fs) :
    ∃ stack, FrameStack.getOb k (FrameStack.run k evs) = some stack ∧ Spec.Shows k fs stack := by
  have hg := good_run k evs none [] ⟨by simp, by simp⟩
  obtain ⟨_, hs⟩ := hg.2 fs h
  refine ⟨_, ?_, hs⟩
  unfold FrameStack.getOb FrameStack.run
  rw [if_pos hs.1]

/-- **C47 (vector).** After any calls on `n` environments such that the first environment has been reset, the
observations returned by `VectorFrameStack` show, for every environment that has been reset, the last `k` frames of
its current episode, whatever happened to the other environments: a masked reset leaves its stack alone. -/
theorem vector_frame_stack (n k : Nat) (hn : 0 < n) (evs : List (VEv O))
    (h0 : (Spec.episode (evs.filterMap (Spec.evAt 0))).isSome) :
    ∃ stacks, VectorFrameStack.getOb n k (VectorFrameStack.run n k evs) = some stacks ∧ stacks.length = n ∧
      ∀ (i : Nat) (fs : List O), i < n → Spec.episode (evs.filterMap (Spec.evAt i)) = some fs →
        ∃ stack, stacks[i]? = some stack ∧ Spec.Shows k fs stack := by
  have hget : ∀ i, i < n → (VectorFrameStack.run n k evs)[i]? =
      some ((evs.filterMap (Spec.evAt i)).foldl (FrameStack.call k) []) := by
    intro i hi
    unfold VectorFrameStack.run
    rw [(vrun_get k i evs _).2]
    simp [hi]
  have hshow : ∀ (i : Nat) (fs : List O), Spec.episode (evs.filterMap (Spec.evAt i)) = some fs →
      Spec.Shows k fs ((evs.filterMap (Spec.evAt i)).foldl (FrameStack.call k) []) := by
    intro i fs hfs
    have hg := good_run k (evs.filterMap (Spec.evAt i)) none [] ⟨by simp, by simp⟩
    exact (hg.2 fs hfs).2
  have hlen : (VectorFrameStack.run n k evs).length = n := by
    unfold VectorFrameStack.run
    rw [(vrun_get k 0 evs _).1]; simp
  obtain ⟨fs0, hfs0⟩ := Option.isSome_iff_exists.mp h0
  refine ⟨VectorFrameStack.run n k evs, ?_, hlen, ?_⟩
  · unfold VectorFrameStack.getOb
    rw [if_pos]
    refine ⟨hlen, ?_⟩
    rw [hget 0 hn, Option.map_some, (hshow 0 fs0 hfs0).1]
  · intro i fs hi hfs
    exact ⟨_, hget i hi, hshow i fs hfs⟩

example : FrameStack.getOb 3 (FrameStack.run 3 [.reset 9, .step 8, .reset 1, .step 2]) = some [1, 1, 2] := by decide

example : FrameStack.getOb 3 (FrameStack.run 3 [.reset 1, .step 2, .step 3, .step 4]) = some [2, 3, 4] := by decide

/-- The second environment goes on while the first is reset. -/
example : VectorFrameStack.getOb 2 2 (VectorFrameStack.run 2 2
    [.reset none [10, 20], .step [11, 21], .reset (some [false, true]) [12, 21], .step [13, 22]]) =
    some [[12, 13], [21, 22]] := by decide

end Pfrl.Envs.Frames
