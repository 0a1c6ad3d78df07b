import Verif.Files.Pretrained

/-!
# Preparing an output directory (C79)

`pfrl/experiments/prepare_output_dir.py`: what a crash during `prepare_output_dir` may do to an old experiment.
-/

namespace Pfrl.OutputDir

open Pfrl.Pretrained (Bytes Write extraction)

variable {Name Time : Type} [DecidableEq Name] [DecidableEq Time]

/-! ## Model -/

/-- The files of a directory by their path in it. -/
abbrev Dir (Name : Type) := Name → Option Bytes

/-- The output directory and its backups, by time stamp. -/
structure Fs (Name Time : Type) where
  out : Option (Dir Name)
  backup : Time → Option (Dir Name)

/-- One change of the file system. -/
inductive Effect (Name Time : Type) where
  /-- `os.makedirs(backup_dir)` -/
  | mkBackup (t : Time)
  /-- a write to a file in a backup -/
  | inBackup (t : Time) (w : Write Name)
  /-- `os.makedirs(outdir, exist_ok=True)` -/
  | mkOut
  /-- `open(..., "a")` -/
  | touch (n : Name)
  /-- a write to a file in the output directory -/
  | inOut (w : Write Name)

/-- What an effect does. -/
def Effect.apply (e : Effect Name Time) (fs : Fs Name Time) : Fs Name Time :=
  match e with
  | .mkBackup t => { fs with backup := Function.update fs.backup t (some fun _ => none) }
  | .inBackup t w => { fs with backup := Function.update fs.backup t ((fs.backup t).map w.apply) }
  | .mkOut => { fs with out := some (fs.out.getD fun _ => none) }
  | .touch n => { fs with out := fs.out.map fun d => Function.update d n (some ((d n).getD [])) }
  | .inOut w => { fs with out := fs.out.map w.apply }

/-- A sequence of effects. -/
def applyAll (es : List (Effect Name Time)) (fs : Fs Name Time) : Fs Name Time := es.foldl (fun fs e => e.apply fs) fs

/-- What `prepare_output_dir` puts into the directory: the line for `start.txt`, and the other files (`args.txt`,
`environ.txt`, `command.txt` and, under git, four more) in the order of writing. -/
structure Info (Name : Type) where
  startFile : Name
  startLine : Bytes
  files : List (Name × Bytes)

/-- `shutil.copytree(outdir, backup_dir)`, `prepare_output_dir.py:131`: the files in the order of the directory listing.
Subdirectories are part of the paths. -/
def copytree (listing : List (Name × Bytes)) (t : Time) : List (Effect Name Time) :=
  .mkBackup t :: (extraction listing).map (Effect.inBackup t)

/-- The effects after the backup: `prepare_output_dir.py:133-160` and `save_git_information`, lines 50-65. -/
def writes (info : Info Name) : List (Effect Name Time) :=
  [.mkOut, .touch info.startFile] ++ info.startLine.map (fun b => .inOut (.append info.startFile b)) ++
    (extraction info.files).map Effect.inOut

/-- `prepare_output_dir`, `prepare_output_dir.py:68-162`: the changes it makes in their order, and whether it raises after them
(`copytree` refuses a directory that exists).  `listing` is what `os.listdir` gives for the output directory. -/
def prepare (fs : Fs Name Time) (listing : List (Name × Bytes)) (makeBackup : Bool) (t : Time) (info : Info Name) :
    List (Effect Name Time) × Option PyErr :=
  if fs.out.isSome ∧ makeBackup = true then
    if (fs.backup t).isSome then ([], some .runtimeError) else (copytree listing t ++ writes info, none)
  else (writes info, none)

/-! ## Specification -/

/-- The listing of a directory: all its files with their contents, each once. -/
def Spec.Lists (listing : List (Name × Bytes)) (d : Dir Name) : Prop := ∀ n, Pretrained.Spec.content listing n = d n

/-- The names that `prepare_output_dir` writes to. -/
def Spec.Written (info : Info Name) (n : Name) : Prop := n = info.startFile ∨ ∃ m ∈ info.files, m.1 = n

/-! ## Lemmas -/

omit [DecidableEq Name] [DecidableEq Time] in
theorem prefix_append_cases {a b done : List (Effect Name Time)} (h : done <+: a ++ b) :
    done <+: a ∨ ∃ rest, done = a ++ rest ∧ rest <+: b := by
  rcases List.prefix_or_prefix_of_prefix h (List.prefix_append a b) with h1 | ⟨rest, rfl⟩
  · exact Or.inl h1
  · exact Or.inr ⟨rest, rfl, (List.prefix_append_right_inj a).mp h⟩

theorem applyAll_append (a b : List (Effect Name Time)) (fs : Fs Name Time) :
    applyAll (a ++ b) fs = applyAll b (applyAll a fs) := by simp [applyAll]

theorem applyAll_inBackup (t : Time) : ∀ (ws : List (Write Name)) (fs : Fs Name Time) (d : Dir Name), fs.backup t = some d →
    applyAll (ws.map (Effect.inBackup t)) fs =
      { fs with backup := Function.update fs.backup t (some (ws.foldl (fun f o => o.apply f) d)) }
  | [], fs, d, h => by
    simp only [applyAll, List.map_nil, List.foldl_nil]
    rw [← h, Function.update_eq_self]
  | w :: ws, fs, d, h => by
    rw [List.map_cons, applyAll, List.foldl_cons, ← applyAll]
    rw [applyAll_inBackup t ws _ (w.apply d) (by simp [Effect.apply, h])]
    simp [Effect.apply]

/-- Effects on the output directory only. -/
def OnOut : Effect Name Time → Prop
  | .mkOut => True
  | .touch _ => True
  | .inOut _ => True
  | _ => False

theorem onOut_backup {e : Effect Name Time} (h : OnOut e) (fs : Fs Name Time) : (e.apply fs).backup = fs.backup := by
  cases e <;> first | rfl | exact h.elim

theorem applyAll_onOut : ∀ {es : List (Effect Name Time)}, (∀ e ∈ es, OnOut e) → ∀ fs : Fs Name Time,
    (applyAll es fs).backup = fs.backup
  | [], _, _ => rfl
  | e :: es, h, fs => by
    rw [applyAll, List.foldl_cons, ← applyAll, applyAll_onOut (fun e he => h e (by simp [he])), onOut_backup (h e (by simp))]

omit [DecidableEq Name] [DecidableEq Time] in
theorem writes_onOut (info : Info Name) : ∀ e ∈ (writes info : List (Effect Name Time)), OnOut e := by
  intro e he
  simp only [writes, List.mem_append, List.mem_cons, List.mem_map, List.not_mem_nil, or_false] at he
  rcases he with ((rfl | rfl) | ⟨b, _, rfl⟩) | ⟨w, _, rfl⟩ <;> trivial

omit [DecidableEq Name] [DecidableEq Time] in
theorem mem_extraction {listing : List (Name × Bytes)} {w : Write Name} (h : w ∈ extraction listing) :
    ∃ m ∈ listing, w = .truncate m.1 ∨ ∃ b, w = .append m.1 b := by
  obtain ⟨m, hm, hw⟩ := List.mem_flatMap.mp h
  refine ⟨m, hm, ?_⟩
  rcases List.mem_cons.mp hw with rfl | hw
  · exact Or.inl rfl
  · obtain ⟨b, _, rfl⟩ := List.mem_map.mp hw
    exact Or.inr ⟨b, rfl⟩

/-- An effect of the second part changes no file with another name. -/
theorem writes_frame (info : Info Name) (n : Name) (hn : ¬ Spec.Written info n) :
    ∀ e ∈ (writes info : List (Effect Name Time)), ∀ fs : Fs Name Time, fs.out.bind (· n) = (e.apply fs).out.bind (· n) := by
  intro e he fs
  simp only [writes, List.mem_append, List.mem_cons, List.mem_map, List.not_mem_nil, or_false] at he
  have h1 : n ≠ info.startFile := fun h => hn (Or.inl h)
  rcases he with ((rfl | rfl) | ⟨b, _, rfl⟩) | ⟨w, hw, rfl⟩
  · cases h : fs.out <;> simp [Effect.apply, h]
  · cases h : fs.out <;> simp [Effect.apply, h, Function.update_of_ne h1]
  · cases h : fs.out <;> simp [Effect.apply, h, Write.apply, Function.update_of_ne h1]
  · obtain ⟨m, hm, hw⟩ := mem_extraction hw
    have h2 : n ≠ m.1 := fun h => hn (Or.inr ⟨m, hm, h.symm⟩)
    rcases hw with rfl | ⟨b, rfl⟩ <;> cases h : fs.out <;> simp [Effect.apply, h, Write.apply, Function.update_of_ne h2]

theorem applyAll_frame {P : Fs Name Time → Prop} : ∀ {es : List (Effect Name Time)},
    (∀ e ∈ es, ∀ fs, P fs → P (e.apply fs)) → ∀ fs, P fs → P (applyAll es fs)
  | [], _, _, h => h
  | e :: es, he, fs, h => applyAll_frame (es := es) (fun e' h' => he e' (by simp [h'])) _ (he e (by simp) fs h)

theorem copytree_prefix_out (listing : List (Name × Bytes)) (t : Time) (fs : Fs Name Time) :
    ∀ es, es <+: copytree listing t → (applyAll es fs).out = fs.out ∧ ∀ t', t' ≠ t → (applyAll es fs).backup t' = fs.backup t' := by
  intro es hes
  have hmem : ∀ e ∈ es, e = .mkBackup t ∨ ∃ w, e = .inBackup t w := by
    intro e he
    rcases List.mem_cons.mp (hes.subset he) with rfl | h
    · exact Or.inl rfl
    · obtain ⟨w, _, rfl⟩ := List.mem_map.mp h
      exact Or.inr ⟨w, rfl⟩
  refine applyAll_frame (P := fun fs' => fs'.out = fs.out ∧ ∀ t', t' ≠ t → fs'.backup t' = fs.backup t') ?_ fs
    ⟨rfl, fun _ _ => rfl⟩
  intro e he fs' ⟨h1, h2⟩
  rcases hmem e he with rfl | ⟨w, rfl⟩
  · exact ⟨h1, fun t' ht' => by simpa [Effect.apply, Function.update_of_ne ht'] using h2 t' ht'⟩
  · exact ⟨h1, fun t' ht' => by simpa [Effect.apply, Function.update_of_ne ht'] using h2 t' ht'⟩

theorem copytree_all (listing : List (Name × Bytes)) (t : Time) (fs : Fs Name Time) :
    applyAll (copytree listing t) fs =
      { fs with backup := Function.update fs.backup t (some (Pretrained.Spec.content listing)) } := by
  rw [copytree, applyAll, List.foldl_cons, ← applyAll, applyAll_inBackup t _ _ (fun _ => none) (by simp [Effect.apply]),
    Pretrained.extraction_content]
  simp [Effect.apply]

theorem applyAll_inOut : ∀ (ws : List (Write Name)) (fs : Fs Name Time) (d : Dir Name), fs.out = some d →
    applyAll (ws.map Effect.inOut) fs = { fs with out := some (ws.foldl (fun f o => o.apply f) d) }
  | [], fs, d, h => by simp [applyAll, ← h]
  | w :: ws, fs, d, h => by
    rw [List.map_cons, applyAll, List.foldl_cons, ← applyAll, applyAll_inOut ws _ (w.apply d) (by simp [Effect.apply, h])]
    simp [Effect.apply]

theorem append_line (n : Name) : ∀ (b : Bytes) (d : Dir Name) (c : Bytes), d n = some c →
    (b.map (Write.append n)).foldl (fun f o => o.apply f) d = Function.update d n (some (c ++ b))
  | [], d, c, h => by simp [← h]
  | x :: b, d, c, h => by
    rw [List.map_cons, List.foldl_cons, append_line n b _ (c ++ [x]) (by simp [Write.apply, h])]
    simp [Write.apply, h]

theorem extraction_over (a : List (Name × Bytes)) (d : Dir Name) (n : Name) :
    (extraction a).foldl (fun f o => o.apply f) d n = (Pretrained.Spec.content a n).or (d n) := by
  induction a using List.reverseRecOn with
  | nil => simp [extraction, Pretrained.Spec.content]
  | append_singleton a m ih =>
    rw [extraction, List.flatMap_append, List.foldl_append]
    rw [extraction] at ih
    simp only [List.flatMap_cons, List.flatMap_nil, List.append_nil]
    rw [Pretrained.write_member, Pretrained.content_append]
    by_cases h : m.1 = n
    · subst h
      simp
    · rw [Function.update_of_ne (Ne.symm h), if_neg h, ih]

/-! ## C79 -/

/-- **C79 (nothing is lost).** Let there be an old experiment in the output directory, and let `prepare_output_dir` be called with
`make_backup`.  At whatever byte it is cut off, the old experiment is there in full: either the output directory is as it was,
or there is a complete copy of it in the new backup.  Backups made earlier stay as they are. -/
theorem backup_before_overwrite (fs : Fs Name Time) (old : Dir Name) (hold : fs.out = some old) (listing : List (Name × Bytes))
    (hl : Spec.Lists listing old) (t : Time) (info : Info Name) (done : List (Effect Name Time))
    (hdone : done <+: (prepare fs listing true t info).1) :
    ((applyAll done fs).out = some old ∨ (applyAll done fs).backup t = some old) ∧
      ∀ t' d, fs.backup t' = some d → (applyAll done fs).backup t' = some d := by
  unfold prepare at hdone
  rw [if_pos (by simp [hold])] at hdone
  by_cases hb : (fs.backup t).isSome
  · rw [if_pos hb] at hdone
    obtain rfl := List.prefix_nil.mp hdone
    exact ⟨Or.inl hold, fun t' d h => h⟩
  · rw [if_neg hb] at hdone
    have hother : ∀ t' d, fs.backup t' = some d → t' ≠ t := by
      rintro t' d h rfl
      rw [h] at hb
      exact hb rfl
    rcases prefix_append_cases hdone with h | ⟨rest, rfl, hrest⟩
    · obtain ⟨h1, h2⟩ := copytree_prefix_out listing t fs done h
      exact ⟨Or.inl (by rw [h1, hold]), fun t' d hd => by rw [h2 t' (hother t' d hd), hd]⟩
    · rw [applyAll_append, copytree_all]
      have hon : ∀ e ∈ rest, OnOut e := fun e he => writes_onOut info e (hrest.subset he)
      have hd : Pretrained.Spec.content listing = old := funext hl
      rw [applyAll_onOut hon, hd]
      refine ⟨Or.inr (by simp), ?_⟩
      intro t' d h
      simpa [Function.update_of_ne (hother t' d h)] using h

/-- **C79 (only its own files).** With or without a backup, at whatever byte it is cut off, `prepare_output_dir` has changed no file
of the output directory other than the ones it writes itself: scores, logs and saved agents of the old experiment stay. -/
theorem other_files_untouched (fs : Fs Name Time) (listing : List (Name × Bytes)) (makeBackup : Bool) (t : Time)
    (info : Info Name) (done : List (Effect Name Time)) (hdone : done <+: (prepare fs listing makeBackup t info).1) (n : Name)
    (hn : ¬ Spec.Written info n) : (applyAll done fs).out.bind (· n) = fs.out.bind (· n) := by
  have hw : ∀ (es : List (Effect Name Time)) (fs' : Fs Name Time), es <+: writes info → fs'.out.bind (· n) = fs.out.bind (· n) →
      (applyAll es fs').out.bind (· n) = fs.out.bind (· n) := by
    intro es fs' hes hfs'
    refine applyAll_frame (P := fun fs' => fs'.out.bind (· n) = fs.out.bind (· n)) ?_ fs' hfs'
    intro e he fs'' h
    rw [← writes_frame info n hn e (hes.subset he) fs'', h]
  unfold prepare at hdone
  split_ifs at hdone with h1 h2
  · obtain rfl := List.prefix_nil.mp hdone
    rfl
  · rcases prefix_append_cases hdone with h | ⟨rest, rfl, hrest⟩
    · rw [(copytree_prefix_out listing t fs done h).1]
    · rw [applyAll_append, copytree_all]
      exact hw rest _ hrest rfl
  · exact hw done fs hdone rfl

/-- **C79 (what is there when it returns).** When `prepare_output_dir` returns, `start.txt` is what it was with one line added, and
each of the other files has exactly the new content. -/
theorem prepared (fs : Fs Name Time) (listing : List (Name × Bytes)) (makeBackup : Bool) (t : Time) (info : Info Name)
    (hstart : ∀ m ∈ info.files, m.1 ≠ info.startFile) (hok : (prepare fs listing makeBackup t info).2 = none) :
    ∃ d, (applyAll (prepare fs listing makeBackup t info).1 fs).out = some d ∧
      d info.startFile = some (((fs.out.bind (· info.startFile)).getD []) ++ info.startLine) ∧
      ∀ n b, Pretrained.Spec.content info.files n = some b → d n = some b := by
  have hw : ∀ fs' : Fs Name Time, ∃ d, (applyAll (writes info) fs').out = some d ∧
      d info.startFile = some (((fs'.out.bind (· info.startFile)).getD []) ++ info.startLine) ∧
      ∀ n b, Pretrained.Spec.content info.files n = some b → d n = some b := by
    intro fs'
    unfold writes
    rw [applyAll_append, applyAll_append]
    have h0 : applyAll [.mkOut, .touch info.startFile] fs' = { fs' with out := some (Function.update (fs'.out.getD fun _ => none)
        info.startFile (some (((fs'.out.bind (· info.startFile)).getD [])))) } := by
      cases h : fs'.out <;> simp [applyAll, Effect.apply, h]
    rw [h0]
    have h1 : (info.startLine.map fun b => Effect.inOut (Write.append info.startFile b)) =
        ((info.startLine.map (Write.append info.startFile)).map Effect.inOut : List (Effect Name Time)) := by simp
    rw [h1, applyAll_inOut (info.startLine.map (Write.append info.startFile)) _ _ rfl,
      append_line _ _ _ _ (Function.update_self ..), applyAll_inOut (extraction info.files) _ _ rfl]
    refine ⟨_, rfl, ?_, ?_⟩
    · rw [extraction_over]
      have : Pretrained.Spec.content info.files info.startFile = none := by
        unfold Pretrained.Spec.content
        rw [Option.map_eq_none_iff, List.find?_eq_none]
        intro m hm
        simpa using hstart m (List.mem_reverse.mp hm)
      rw [this]
      simp
    · intro n b hb
      rw [extraction_over, hb]
      rfl
  unfold prepare at hok ⊢
  split_ifs at hok ⊢ with h1 h2
  · simp only
    rw [applyAll_append, copytree_all]
    exact hw _
  · exact hw fs

/-- An old experiment with a score file, which is restarted and dies after ten changes: the backup is complete, `start.txt` has
part of the new line. -/
def demoFs : Fs String Nat := ⟨some fun n => if n = "start.txt" then some [1] else if n = "scores.txt" then some [5, 6] else none, fun _ => none⟩

def demoListing : List (String × Bytes) := [("scores.txt", [5, 6]), ("start.txt", [1])]

def demoInfo : Info String := ⟨"start.txt", [2, 3], [("args.txt", [9])]⟩

example : Spec.Lists demoListing (fun n => if n = "start.txt" then some [1] else if n = "scores.txt" then some [5, 6] else none) := by
  intro n
  simp only [Pretrained.Spec.content, demoListing, List.reverse_cons, List.reverse_nil, List.nil_append, List.cons_append,
    List.find?_cons, List.find?_nil]
  by_cases h1 : "start.txt" = n
  · simp [h1]
  · by_cases h2 : "scores.txt" = n
    · subst h2
      simp
    · simp [h1, h2, Ne.symm h1, Ne.symm h2]

example : ((applyAll ((prepare demoFs demoListing true 0 demoInfo).1.take 9) demoFs).backup 0).map (fun d => (d "scores.txt", d "start.txt"))
    = some (some [5, 6], some [1]) ∧
    ((applyAll ((prepare demoFs demoListing true 0 demoInfo).1.take 9) demoFs).out).map (fun d => (d "scores.txt", d "start.txt"))
    = some (some [5, 6], some [1, 2]) := by decide +kernel

end Pfrl.OutputDir
