import Verif.Basic
import Mathlib.Logic.Function.Basic
import Mathlib.Data.List.Induction
import Mathlib.Tactic.SplitIfs

/-!
# The cache of pretrained models (C78)

`pfrl/utils/pretrained_models.py`: any number of processes that download models, on one file system, with crashes and errors.
-/

namespace Pfrl.Pretrained

variable {Key Name : Type} [DecidableEq Key] [DecidableEq Name]

abbrev Bytes := List UInt8

/-! ## Model -/

/-- What an archive holds: its members in order. -/
abbrev Archive (Name : Type) := List (Name × Bytes)

/-- One write to the file system by `extractall`: a member is opened, which empties it, and is then written byte by byte. -/
inductive Write (Name : Type) where
  | truncate (name : Name)
  | append (name : Name) (byte : UInt8)
  deriving DecidableEq

/-- `ZipFile.extractall`, `pretrained_models.py:155-156`. -/
def extraction (a : Archive Name) : List (Write Name) :=
  a.flatMap fun m => .truncate m.1 :: m.2.map (Write.append m.1)

/-- Where a process is.  `storing` tells whether it is in `download_and_store_model` (and holds `models.lock`) or in a direct
call of `cached_download`. -/
inductive Pc (Key Name : Type) where
  /-- before `with filelock.FileLock(lock)`, line 146 -/
  | start (key : Key)
  /-- at `is_cached = os.path.exists(path)`, line 151 -/
  | check (key : Key)
  /-- at `if os.path.exists(cache_path)` in `cached_download`, line 113 -/
  | lookup (key : Key) (storing : Bool)
  /-- in `urlretrieve`, line 121; `temp` is what is in the temporary file -/
  | download (key : Key) (storing : Bool) (temp : Bytes)
  /-- at `shutil.move(temp_path, cache_path)`, line 123 -/
  | move (key : Key) (storing : Bool) (temp : Bytes)
  /-- at `os.rename(cache_path, path)`, line 154 -/
  | rename (key : Key)
  /-- at `zipfile.ZipFile(path)`, line 155 -/
  | openZip (key : Key)
  /-- in `extractall`, line 156 -/
  | extract (key : Key) (todo : List (Write Name))
  /-- `download_and_store_model` has returned -/
  | returned (key : Key) (isCached : Bool)
  /-- `cached_download` has returned -/
  | gotCache (key : Key)
  /-- the call has raised, or the process has died -/
  | failed
  deriving DecidableEq

/-- The file system and the processes.  The lock `_dl_lock` is held for one operation at a time only, so it is not a component:
an operation under it is one step. -/
structure Sys (Key Name : Type) where
  cache : Key → Option Bytes
  zip : Key → Option Bytes
  files : Key → Name → Option Bytes
  /-- who holds `models.lock` -/
  holder : Option Nat
  proc : Nat → Pc Key Name

/-- What the server sends, and what `zipfile` makes of a file. -/
structure World (Key Name : Type) where
  served : Key → Bytes
  decode : Bytes → Option (Archive Name)

/-- Does the process hold `models.lock`? -/
def Pc.holds : Pc Key Name → Bool
  | .check _ => true
  | .lookup _ s => s
  | .download _ s _ => s
  | .move _ s _ => s
  | .rename _ => true
  | .openZip _ => true
  | .extract _ _ => true
  | _ => false

/-- The effect of a write. -/
def Write.apply (w : Write Name) (files : Name → Option Bytes) : Name → Option Bytes :=
  match w with
  | .truncate n => Function.update files n (some [])
  | .append n b => Function.update files n (some ((files n).getD [] ++ [b]))

/-- The process goes on at `pc`, and gives back `models.lock` if it holds it no more. -/
def Sys.goto (s : Sys Key Name) (p : Nat) (pc : Pc Key Name) : Sys Key Name :=
  { s with proc := Function.update s.proc p pc
           holder := if (s.proc p).holds = true ∧ pc.holds = false then none else s.holder }

/-- `os.rename` and `zipfile` may raise: the process at `pc` fails and `with` releases the lock. -/
def Sys.fail (s : Sys Key Name) (p : Nat) : Sys Key Name := s.goto p .failed

/-- A scheduled event. -/
inductive Ev (Key : Type) where
  /-- a new process calls `download_and_store_model` -/
  | callStore (p : Nat) (key : Key)
  /-- a new process calls `cached_download` -/
  | callDownload (p : Nat) (key : Key)
  /-- process `p` makes its next step -/
  | step (p : Nat)
  /-- process `p` dies, or its operation raises (no connection, disk full, ...); locks are released by the system or by `with` -/
  | crash (p : Nat)

/-- The next step of a process that has not ended. -/
def Sys.step (w : World Key Name) (s : Sys Key Name) (p : Nat) : Sys Key Name :=
  match s.proc p with
  -- `with filelock.FileLock(lock)`: waits while another process holds the lock
  | .start key => if s.holder = none then { s with proc := Function.update s.proc p (.check key), holder := some p } else s
  | .check key => if (s.zip key).isSome then s.goto p (.returned key true) else s.goto p (.lookup key true)
  | .lookup key st =>
    if (s.cache key).isSome then s.goto p (if st then .rename key else .gotCache key) else s.goto p (.download key st [])
  -- one byte at a time; a short read raises, which is `crash`
  | .download key st temp =>
    if temp.length < (w.served key).length then s.goto p (.download key st ((w.served key).take (temp.length + 1)))
    else s.goto p (.move key st temp)
  | .move key st temp =>
    { s with cache := Function.update s.cache key (some temp) }.goto p (if st then .rename key else .gotCache key)
  | .rename key =>
    match s.cache key with
    | none => s.fail p
    | some b => { s with cache := Function.update s.cache key none, zip := Function.update s.zip key (some b) }.goto p (.openZip key)
  | .openZip key =>
    match (s.zip key).bind w.decode with
    | none => s.fail p
    | some a => s.goto p (.extract key (extraction a))
  | .extract key [] => s.goto p (.returned key false)
  | .extract key (o :: os) => { s with files := Function.update s.files key (o.apply (s.files key)) }.goto p (.extract key os)
  | .returned _ _ => s
  | .gotCache _ => s
  | .failed => s

/-- One event. -/
def Sys.apply (w : World Key Name) (s : Sys Key Name) : Ev Key → Sys Key Name
  | .callStore p key => match s.proc p with
    | .failed => { s with proc := Function.update s.proc p (.start key) }
    | _ => s
  | .callDownload p key => match s.proc p with
    | .failed => { s with proc := Function.update s.proc p (.lookup key false) }
    | _ => s
  | .step p => s.step w p
  | .crash p => s.fail p

/-- A history. -/
def Sys.run (w : World Key Name) (s : Sys Key Name) (evs : List (Ev Key)) : Sys Key Name := evs.foldl (Sys.apply w) s

/-- An empty models directory and no process (a process number not in use is `failed`). -/
def Sys.empty : Sys Key Name := ⟨fun _ => none, fun _ => none, fun _ _ => none, none, fun _ => .failed⟩

/-! ## Specification -/

/-- The content an archive gives a member: that of its last entry with this name. -/
def Spec.content (a : Archive Name) (n : Name) : Option Bytes := (a.reverse.find? fun m => m.1 = n).map Prod.snd

/-- The directory of a model holds all that the archive holds. -/
def Spec.Complete (a : Archive Name) (files : Name → Option Bytes) : Prop :=
  ∀ n b, Spec.content a n = some b → files n = some b

/-- The event is the death of, or an error in, a process that has stored the archive but has not finished extracting it. -/
def Spec.Interrupts (s : Sys Key Name) : Ev Key → Prop
  | .crash p => ∃ key, s.proc p = .openZip key ∨ ∃ todo, s.proc p = .extract key todo
  | _ => False

/-- No process is interrupted in that way. -/
def Spec.Uninterrupted (w : World Key Name) : Sys Key Name → List (Ev Key) → Prop
  | _, [] => True
  | s, e :: evs => ¬ Spec.Interrupts s e ∧ Spec.Uninterrupted w (s.apply w e) evs

/-! ## Lemmas -/

/-- Holding the lock: `holder` is the only process whose program counter says so. -/
structure Locked (s : Sys Key Name) : Prop where
  owner : ∀ p, (s.proc p).holds = true → s.holder = some p
  holds : ∀ p, s.holder = some p → (s.proc p).holds = true

omit [DecidableEq Key] [DecidableEq Name] in
theorem Locked.goto {s : Sys Key Name} (h : Locked s) {p : Nat} {pc : Pc Key Name}
    (hk : pc.holds = true → (s.proc p).holds = true) : Locked (s.goto p pc) := by
  constructor
  · intro q hq
    unfold Sys.goto at hq ⊢
    by_cases hqp : q = p
    · subst hqp
      simp only [Function.update_self] at hq
      rw [if_neg (by rw [hq]; simp)]
      exact h.owner q (hk hq)
    · simp only [Function.update_of_ne hqp] at hq
      have h1 := h.owner q hq
      rw [if_neg]
      · exact h1
      · rintro ⟨h2, _⟩
        have := h.owner p h2
        rw [h1, Option.some.injEq] at this
        exact hqp this
  · intro q hq
    unfold Sys.goto at hq ⊢
    by_cases hc : (s.proc p).holds = true ∧ pc.holds = false
    · rw [if_pos hc] at hq
      cases hq
    · rw [if_neg hc] at hq
      have h1 := h.holds q hq
      by_cases hqp : q = p
      · subst hqp
        simp only [Function.update_self]
        by_contra hn
        exact hc ⟨h1, by simpa using hn⟩
      · simp only [Function.update_of_ne hqp]
        exact h1

omit [DecidableEq Key] [DecidableEq Name] in
theorem Locked.congr {s t : Sys Key Name} (h : Locked s) (h1 : t.proc = s.proc) (h2 : t.holder = s.holder) : Locked t :=
  ⟨fun p hp => by rw [h2]; rw [h1] at hp; exact h.owner p hp, fun p hp => by rw [h1]; rw [h2] at hp; exact h.holds p hp⟩

/-- What a program counter says about the files. -/
def PcOk (w : World Key Name) (cache zip : Key → Option Bytes) : Pc Key Name → Prop
  | .lookup k st => st = true → zip k = none
  | .download k st t => t = (w.served k).take t.length ∧ (st = true → zip k = none)
  | .move k st t => t = w.served k ∧ (st = true → zip k = none)
  | .rename k => (cache k).isSome ∧ zip k = none
  | .openZip k => (zip k).isSome
  | .extract k _ => (zip k).isSome
  | .returned k _ => (zip k).isSome
  | _ => True

/-- The process has put the archive of the model in its place. -/
def Writer (k : Key) : Pc Key Name → Prop
  | .openZip k' => k' = k
  | .extract k' _ => k' = k
  | .returned k' c => k' = k ∧ c = false
  | _ => False

structure Inv (w : World Key Name) (s : Sys Key Name) : Prop where
  locked : Locked s
  cache : ∀ k b, s.cache k = some b → b = w.served k
  zip : ∀ k b, s.zip k = some b → b = w.served k
  ok : ∀ p, PcOk w s.cache s.zip (s.proc p)
  unique : ∀ p q k, Writer k (s.proc p) → Writer k (s.proc q) → p = q

omit [DecidableEq Key] [DecidableEq Name] in
theorem Inv.goto {w : World Key Name} {s : Sys Key Name} (h : Inv w s) {p : Nat} {pc : Pc Key Name}
    (hk : pc.holds = true → (s.proc p).holds = true) (hok : PcOk w s.cache s.zip pc)
    (hw : ∀ k, Writer k pc → ∀ q, q ≠ p → ¬ Writer k (s.proc q)) : Inv w (s.goto p pc) := by
  refine ⟨h.locked.goto hk, h.cache, h.zip, ?_, ?_⟩
  · intro q
    by_cases hq : q = p
    · subst hq
      simpa [Sys.goto] using hok
    · simpa [Sys.goto, Function.update_of_ne hq] using h.ok q
  · intro q r k hq hr
    simp only [Sys.goto] at hq hr
    by_cases h1 : q = p
    · by_cases h2 : r = p
      · rw [h1, h2]
      · subst h1
        rw [Function.update_self] at hq
        rw [Function.update_of_ne h2] at hr
        exact absurd hr (hw k hq r h2)
    · by_cases h2 : r = p
      · subst h2
        rw [Function.update_self] at hr
        rw [Function.update_of_ne h1] at hq
        exact absurd hq (hw k hr q h1)
      · rw [Function.update_of_ne h1] at hq
        rw [Function.update_of_ne h2] at hr
        exact h.unique q r k hq hr

omit [DecidableEq Key] [DecidableEq Name] in
/-- A process without the lock does not care about files disappearing from the cache. -/
theorem PcOk.unlocked {w : World Key Name} {c z c' z' : Key → Option Bytes} {pc : Pc Key Name} (h : PcOk w c z pc)
    (hl : pc.holds = false) (hz : ∀ k, (z k).isSome → (z' k).isSome) : PcOk w c' z' pc := by
  cases pc with
  | lookup k st => exact fun hst => absurd hst (by simpa [Pc.holds] using hl)
  | download k st t => exact ⟨h.1, fun hst => absurd hst (by simpa [Pc.holds] using hl)⟩
  | move k st t => exact ⟨h.1, fun hst => absurd hst (by simpa [Pc.holds] using hl)⟩
  | rename k => cases hl
  | openZip k => exact hz k h
  | extract k _ => exact hz k h
  | returned k _ => exact hz k h
  | _ => trivial

omit [DecidableEq Key] [DecidableEq Name] in
theorem PcOk.cached {w : World Key Name} {c z c' : Key → Option Bytes} {pc : Pc Key Name} (h : PcOk w c z pc)
    (hc : ∀ k, (c k).isSome → (c' k).isSome) : PcOk w c' z pc := by
  cases pc with
  | rename k => exact ⟨hc k h.1, h.2⟩
  | _ => exact h

omit [DecidableEq Key] [DecidableEq Name] in
theorem Writer.not_of_none {w : World Key Name} {s : Sys Key Name} (h : Inv w s) {k : Key} (hz : s.zip k = none) (q : Nat) :
    ¬ Writer k (s.proc q) := by
  intro hw
  have := h.ok q
  cases hq : s.proc q <;> rw [hq] at hw this <;> simp_all [Writer, PcOk]

omit [DecidableEq Key] [DecidableEq Name] in
theorem inv_empty (w : World Key Name) : Inv w (Sys.empty : Sys Key Name) := by
  refine ⟨⟨?_, ?_⟩, ?_, ?_, ?_, ?_⟩ <;> simp [Sys.empty, Pc.holds, PcOk, Writer]

theorem Inv.step {w : World Key Name} {s : Sys Key Name} (h : Inv w s) (p : Nat) : Inv w (s.step w p) := by
  have hokp := h.ok p
  unfold Sys.step
  cases hp : s.proc p with
  | start key =>
    simp only
    split_ifs with hn
    · refine ⟨⟨?_, ?_⟩, h.cache, h.zip, ?_, ?_⟩
      · intro q hq
        by_cases hqp : q = p
        · rw [hqp]
        · simp only [Function.update_of_ne hqp] at hq
          have := h.locked.owner q hq
          rw [hn] at this
          cases this
      · intro q hq
        simp only [Option.some.injEq] at hq
        subst hq
        simp [Pc.holds]
      · intro q
        by_cases hqp : q = p
        · subst hqp
          simp [PcOk]
        · simpa [Function.update_of_ne hqp] using h.ok q
      · intro q r k hq hr
        have hq' : q ≠ p := by
          rintro rfl
          simp [Writer] at hq
        have hr' : r ≠ p := by
          rintro rfl
          simp [Writer] at hr
        simp only [Function.update_of_ne hq', Function.update_of_ne hr'] at hq hr
        exact h.unique q r k hq hr
    · exact h
  | check key =>
    simp only
    split_ifs with hz
    · exact h.goto (by simp [Pc.holds]) (by simpa [PcOk] using hz) (by simp [Writer])
    · exact h.goto (by simp [Pc.holds, hp]) (by simpa [PcOk] using hz) (by simp [Writer])
  | lookup key st =>
    rw [hp] at hokp
    simp only
    split_ifs with hc hst
    · exact h.goto (by simp [Pc.holds, hp, hst]) ⟨hc, hokp hst⟩ (by simp [Writer])
    · exact h.goto (by simp [Pc.holds]) trivial (by simp [Writer])
    · exact h.goto (by simp [Pc.holds, hp]) ⟨by simp, hokp⟩ (by simp [Writer])
  | download key st temp =>
    rw [hp] at hokp
    simp only
    split_ifs with hl
    · refine h.goto (by simp [Pc.holds, hp]) ⟨?_, hokp.2⟩ (by simp [Writer])
      rw [List.length_take, Nat.min_eq_left (by omega)]
    · refine h.goto (by simp [Pc.holds, hp]) ⟨?_, hokp.2⟩ (by simp [Writer])
      rw [hokp.1, List.take_of_length_le (by omega)]
  | move key st temp =>
    rw [hp] at hokp
    simp only
    have hmid : Inv w { s with cache := Function.update s.cache key (some temp) } := by
      refine ⟨h.locked.congr rfl rfl, ?_, h.zip, ?_, h.unique⟩
      · intro k b hb
        by_cases hk : k = key
        · subst hk
          simp only [Function.update_self, Option.some.injEq] at hb
          rw [← hb]
          exact hokp.1
        · simp only [Function.update_of_ne hk] at hb
          exact h.cache k b hb
      · intro q
        refine (h.ok q).cached ?_
        intro k hk
        by_cases hk' : k = key
        · subst hk'
          simp
        · simpa [Function.update_of_ne hk'] using hk
    split_ifs with hst
    · exact hmid.goto (by simp [Pc.holds, hp, hst]) ⟨by simp, hokp.2 hst⟩ (by simp [Writer])
    · exact hmid.goto (by simp [Pc.holds]) trivial (by simp [Writer])
  | rename key =>
    rw [hp] at hokp
    obtain ⟨b, hb⟩ := Option.isSome_iff_exists.mp hokp.1
    simp only [hb]
    have hown := h.locked.owner p (by simp [hp, Pc.holds])
    have hother : ∀ q, q ≠ p → (s.proc q).holds = false := by
      intro q hq
      by_contra hn
      have := h.locked.owner q (by simpa using hn)
      rw [hown, Option.some.injEq] at this
      exact hq this.symm
    have hmono : ∀ k, (s.zip k).isSome → (Function.update s.zip key (some b) k).isSome := by
      intro k hk
      by_cases hk' : k = key
      · subst hk'
        simp
      · simpa [Function.update_of_ne hk'] using hk
    have hwriter := Writer.not_of_none h hokp.2
    have hl : Locked { s with cache := Function.update s.cache key none, zip := Function.update s.zip key (some b) } :=
      h.locked.congr rfl rfl
    refine ⟨hl.goto (by simp [Pc.holds, hp]), ?_, ?_, ?_, ?_⟩
    · intro k b' hb'
      simp only [Sys.goto] at hb'
      by_cases hk : k = key
      · subst hk
        simp at hb'
      · simp only [Function.update_of_ne hk] at hb'
        exact h.cache k b' hb'
    · intro k b' hb'
      simp only [Sys.goto] at hb'
      by_cases hk : k = key
      · subst hk
        simp only [Function.update_self, Option.some.injEq] at hb'
        rw [← hb']
        exact h.cache _ _ hb
      · simp only [Function.update_of_ne hk] at hb'
        exact h.zip k b' hb'
    · intro q
      simp only [Sys.goto]
      by_cases hq : q = p
      · subst hq
        simp [PcOk]
      · simp only [Function.update_of_ne hq]
        exact (h.ok q).unlocked (hother q hq) hmono
    · intro q r k hq hr
      simp only [Sys.goto] at hq hr
      by_cases h1 : q = p
      · by_cases h2 : r = p
        · rw [h1, h2]
        · subst h1
          rw [Function.update_self] at hq
          rw [Function.update_of_ne h2] at hr
          obtain rfl : key = k := hq
          exact absurd hr (hwriter r)
      · by_cases h2 : r = p
        · subst h2
          rw [Function.update_self] at hr
          rw [Function.update_of_ne h1] at hq
          obtain rfl : key = k := hr
          exact absurd hq (hwriter q)
        · rw [Function.update_of_ne h1] at hq
          rw [Function.update_of_ne h2] at hr
          exact h.unique q r k hq hr
  | openZip key =>
    rw [hp] at hokp
    simp only
    cases (s.zip key).bind w.decode with
    | none => exact h.goto (by simp [Pc.holds]) trivial (by simp [Writer])
    | some a =>
      refine h.goto (by simp [Pc.holds, hp]) hokp ?_
      intro k hk q hq hw
      exact hq (h.unique q p k hw (by rw [hp]; exact hk))
  | extract key todo =>
    rw [hp] at hokp
    cases todo with
    | nil =>
      refine h.goto (by simp [Pc.holds]) hokp ?_
      intro k hk q hq hw
      exact hq (h.unique q p k hw (by rw [hp]; exact hk.1))
    | cons o os =>
      simp only
      have hmid : Inv w { s with files := Function.update s.files key (o.apply (s.files key)) } :=
        ⟨h.locked.congr rfl rfl, h.cache, h.zip, h.ok, h.unique⟩
      refine hmid.goto (by simp [Pc.holds, hp]) hokp ?_
      intro k hk q hq hw
      exact hq (h.unique q p k hw (by rw [hp]; exact hk))
  | returned key c => exact h
  | gotCache key => exact h
  | failed => exact h

theorem Inv.apply {w : World Key Name} {s : Sys Key Name} (h : Inv w s) (e : Ev Key) : Inv w (s.apply w e) := by
  have hnew : ∀ (p : Nat) (pc : Pc Key Name), s.proc p = .failed → pc.holds = false → PcOk w s.cache s.zip pc →
      (∀ k, ¬ Writer k pc) → Inv w { s with proc := Function.update s.proc p pc } := by
    intro p pc hf hl hok hw
    have := h.goto (p := p) (pc := pc) (by simp [hl]) hok (fun k hk => absurd hk (hw k))
    rw [Sys.goto, if_neg (by simp [hf, Pc.holds])] at this
    exact this
  cases e with
  | callStore p key =>
    simp only [Sys.apply]
    split
    · exact hnew p _ (by assumption) rfl trivial (by simp [Writer])
    · exact h
  | callDownload p key =>
    simp only [Sys.apply]
    split
    · exact hnew p _ (by assumption) rfl (by simp [PcOk]) (by simp [Writer])
    · exact h
  | step p => exact h.step p
  | crash p => exact h.goto (by simp [Pc.holds]) trivial (by simp [Writer])

theorem Inv.run {w : World Key Name} : ∀ (evs : List (Ev Key)) {s : Sys Key Name}, Inv w s → Inv w (s.run w evs)
  | [], _, h => h
  | e :: evs, _, h => Inv.run evs (h.apply e)

/-! ### What is in the directory of a model -/

theorem content_append (a : Archive Name) (m : Name × Bytes) (n : Name) :
    Spec.content (a ++ [m]) n = if m.1 = n then some m.2 else Spec.content a n := by
  unfold Spec.content
  rw [List.reverse_append, List.reverse_singleton, List.singleton_append, List.find?_cons]
  by_cases h : m.1 = n <;> simp [h]

theorem write_member (n : Name) (b : Bytes) (f : Name → Option Bytes) :
    (Write.truncate n :: b.map (Write.append n)).foldl (fun f o => o.apply f) f = Function.update f n (some b) := by
  have : ∀ (b c : Bytes) (f : Name → Option Bytes),
      (b.map (Write.append n)).foldl (fun f o => o.apply f) (Function.update f n (some c)) = Function.update f n (some (c ++ b)) := by
    intro b
    induction b with
    | nil => intro c f; simp
    | cons x b ih =>
      intro c f
      rw [List.map_cons, List.foldl_cons]
      have h1 : (Write.append n x).apply (Function.update f n (some c)) = Function.update f n (some (c ++ [x])) := by
        simp [Write.apply]
      rw [h1, ih]
      simp
  rw [List.foldl_cons]
  have := this b [] f
  simpa [Write.apply] using this

theorem extraction_content (a : Archive Name) :
    (extraction a).foldl (fun f o => o.apply f) (fun _ => none) = Spec.content a := by
  induction a using List.reverseRecOn with
  | nil => rfl
  | append_singleton a m ih =>
    rw [extraction, List.flatMap_append, List.foldl_append]
    rw [extraction] at ih
    rw [ih]
    simp only [List.flatMap_cons, List.flatMap_nil, List.append_nil]
    rw [write_member]
    funext n
    rw [content_append]
    by_cases h : m.1 = n
    · subst h
      simp
    · rw [Function.update_of_ne (Ne.symm h), if_neg h]

/-- The process is extracting the archive of the model. -/
def Active (k : Key) : Pc Key Name → Prop
  | .openZip k' => k' = k
  | .extract k' _ => k' = k
  | _ => False

/-- The model is in place: nobody is at work on it and all is extracted. -/
structure Done (w : World Key Name) (s : Sys Key Name) (k : Key) : Prop where
  zip : (s.zip k).isSome
  quiet : ∀ p, ¬ Active k (s.proc p)
  files : ∀ a, w.decode (w.served k) = some a → s.files k = Spec.content a

/-- The stages of a model if no extraction is interrupted. -/
inductive Stage (w : World Key Name) (s : Sys Key Name) (k : Key) : Prop where
  | absent (hz : s.zip k = none) (hf : s.files k = fun _ => none)
  | stored (p : Nat) (hp : s.proc p = .openZip k) (hf : s.files k = fun _ => none)
  | extracting (p : Nat) (todo : List (Write Name)) (hp : s.proc p = .extract k todo)
      (hf : ∀ a, w.decode (w.served k) = some a → todo.foldl (fun f o => o.apply f) (s.files k) = Spec.content a)
  | done (h : Done w s k)

structure Inv2 (w : World Key Name) (s : Sys Key Name) : Prop where
  inv : Inv w s
  stage : ∀ k, Stage w s k
  returned : ∀ p k c, s.proc p = .returned k c → Done w s k

omit [DecidableEq Key] [DecidableEq Name] in
theorem Active.holds {k : Key} {pc : Pc Key Name} (h : Active k pc) : pc.holds = true := by
  cases pc <;> first | rfl | exact h.elim

omit [DecidableEq Key] [DecidableEq Name] in
theorem Active.writer {k : Key} {pc : Pc Key Name} (h : Active k pc) : Writer k pc := by
  cases pc <;> first | exact h | exact h.elim

omit [DecidableEq Key] in
/-- A step of a process that is not extracting, does not touch `zip` and `files`, and does not return. -/
theorem Inv2.frame {w : World Key Name} {s t : Sys Key Name} (h : Inv2 w s) {p : Nat} {pc : Pc Key Name} (ht : Inv w t)
    (hproc : t.proc = Function.update s.proc p pc) (hzip : t.zip = s.zip) (hfiles : t.files = s.files)
    (hold : ∀ k, ¬ Active k (s.proc p)) (hnew : ∀ k, ¬ Active k pc)
    (hret : ∀ k c, pc = .returned k c → Done w s k) : Inv2 w t := by
  have hne : ∀ q k, Active k (s.proc q) → q ≠ p := by
    rintro q k hq rfl
    exact hold k hq
  have hdone : ∀ k, Done w s k → Done w t k := by
    intro k hd
    refine ⟨by rw [hzip]; exact hd.zip, ?_, by rw [hfiles]; exact hd.files⟩
    intro q
    rw [hproc]
    by_cases hq : q = p
    · subst hq
      rw [Function.update_self]
      exact hnew k
    · rw [Function.update_of_ne hq]
      exact hd.quiet q
  refine ⟨ht, ?_, ?_⟩
  · intro k
    cases h.stage k with
    | absent hz hf => exact .absent (by rw [hzip]; exact hz) (by rw [hfiles]; exact hf)
    | stored q hq hf =>
      refine .stored q ?_ (by rw [hfiles]; exact hf)
      rw [hproc, Function.update_of_ne (hne q k (by rw [hq]; rfl))]
      exact hq
    | extracting q todo hq hf =>
      refine .extracting q todo ?_ (by rw [hfiles]; exact hf)
      rw [hproc, Function.update_of_ne (hne q k (by rw [hq]; rfl))]
      exact hq
    | done hd => exact .done (hdone k hd)
  · intro q k c hq
    rw [hproc] at hq
    by_cases hqp : q = p
    · subst hqp
      rw [Function.update_self] at hq
      exact hdone k (hret k c hq)
    · rw [Function.update_of_ne hqp] at hq
      exact hdone k (h.returned q k c hq)

theorem Inv2.step {w : World Key Name} {s : Sys Key Name} (h : Inv2 w s) (p : Nat) : Inv2 w (s.step w p) := by
  have hinv := h.inv.step p
  have hokp := h.inv.ok p
  unfold Sys.step at hinv ⊢
  cases hp : s.proc p with
  | start key =>
    simp only [hp] at hinv ⊢
    split_ifs at hinv ⊢ with hn
    · exact h.frame hinv rfl rfl rfl (by simp [hp, Active]) (by simp [Active]) (by simp)
    · exact h
  | check key =>
    simp only [hp] at hinv ⊢
    split_ifs at hinv ⊢ with hz
    · refine h.frame hinv rfl rfl rfl (by simp [hp, Active]) (by simp [Active]) ?_
      intro k c hk
      simp only [Pc.returned.injEq] at hk
      obtain ⟨rfl, _⟩ := hk
      have hown := h.inv.locked.owner p (by simp [hp, Pc.holds])
      have hbusy : ∀ q, Active key (s.proc q) → False := by
        intro q hq
        have := h.inv.locked.owner q hq.holds
        rw [hown, Option.some.injEq] at this
        subst this
        rw [hp] at hq
        exact hq
      cases h.stage key with
      | absent hz' _ => rw [hz'] at hz; cases hz
      | stored q hq _ => exact (hbusy q (by rw [hq]; rfl)).elim
      | extracting q todo hq _ => exact (hbusy q (by rw [hq]; rfl)).elim
      | done hd => exact hd
    · exact h.frame hinv rfl rfl rfl (by simp [hp, Active]) (by simp [Active]) (by simp)
  | lookup key st =>
    simp only [hp] at hinv ⊢
    split_ifs at hinv ⊢ with hc hst
    · exact h.frame hinv rfl rfl rfl (by simp [hp, Active]) (by simp [Active]) (by simp)
    · exact h.frame hinv rfl rfl rfl (by simp [hp, Active]) (by simp [Active]) (by simp)
    · exact h.frame hinv rfl rfl rfl (by simp [hp, Active]) (by simp [Active]) (by simp)
  | download key st temp =>
    simp only [hp] at hinv ⊢
    split_ifs at hinv ⊢ with hl
    · exact h.frame hinv rfl rfl rfl (by simp [hp, Active]) (by simp [Active]) (by simp)
    · exact h.frame hinv rfl rfl rfl (by simp [hp, Active]) (by simp [Active]) (by simp)
  | move key st temp =>
    simp only [hp] at hinv ⊢
    split_ifs at hinv ⊢ with hst
    · exact h.frame hinv rfl rfl rfl (by simp [hp, Active]) (by simp [Active]) (by simp)
    · exact h.frame hinv rfl rfl rfl (by simp [hp, Active]) (by simp [Active]) (by simp)
  | rename key =>
    rw [hp] at hokp
    obtain ⟨b, hb⟩ := Option.isSome_iff_exists.mp hokp.1
    simp only [hp, hb] at hinv ⊢
    have hnot : ∀ q, ¬ Writer key (s.proc q) := Writer.not_of_none h.inv hokp.2
    have hdone : ∀ k, k ≠ key → Done w s k → Done w
        ({ s with cache := Function.update s.cache key none, zip := Function.update s.zip key (some b) }.goto p (.openZip key)) k := by
      intro k hk hd
      refine ⟨by simpa [Sys.goto, Function.update_of_ne hk] using hd.zip, ?_, hd.files⟩
      intro q
      by_cases hq : q = p
      · subst hq
        simp [Sys.goto, Active, Ne.symm hk]
      · simpa [Sys.goto, Function.update_of_ne hq] using hd.quiet q
    refine ⟨hinv, ?_, ?_⟩
    · intro k
      by_cases hk : k = key
      · subst hk
        refine .stored p (by simp [Sys.goto]) ?_
        cases h.stage k with
        | absent _ hf => exact hf
        | stored q hq _ => exact absurd (by rw [hq]; rfl) (hnot q)
        | extracting q todo hq _ => exact absurd (by rw [hq]; rfl) (hnot q)
        | done hd =>
          have := hd.zip
          rw [hokp.2] at this
          cases this
      · cases h.stage k with
        | absent hz hf => exact .absent (by simpa [Sys.goto, Function.update_of_ne hk] using hz) hf
        | stored q hq hf =>
          refine .stored q ?_ hf
          have : q ≠ p := by
            rintro rfl
            rw [hp] at hq
            cases hq
          simpa [Sys.goto, Function.update_of_ne this] using hq
        | extracting q todo hq hf =>
          refine .extracting q todo ?_ hf
          have : q ≠ p := by
            rintro rfl
            rw [hp] at hq
            cases hq
          simpa [Sys.goto, Function.update_of_ne this] using hq
        | done hd => exact .done (hdone k hk hd)
    · intro q k c hq
      have hqp : q ≠ p := by
        rintro rfl
        simp [Sys.goto] at hq
      simp only [Sys.goto, Function.update_of_ne hqp] at hq
      have hd := h.returned q k c hq
      refine hdone k ?_ hd
      rintro rfl
      have := hd.zip
      rw [hokp.2] at this
      cases this
  | openZip key =>
    rw [hp] at hokp
    obtain ⟨b, hb⟩ := Option.isSome_iff_exists.mp hokp
    have hserved := h.inv.zip key b hb
    have huniq : ∀ q, q ≠ p → ¬ Writer key (s.proc q) := by
      intro q hq hw
      exact hq (h.inv.unique q p key hw (by rw [hp]; rfl))
    have hempty : s.files key = fun _ => none := by
      cases h.stage key with
      | absent hz _ => rw [hz] at hb; cases hb
      | stored q hq hf => exact hf
      | extracting q todo hq _ =>
        have : q = p := h.inv.unique q p key (by rw [hq]; rfl) (by rw [hp]; rfl)
        subst this
        rw [hp] at hq
        cases hq
      | done hd => exact absurd (by rw [hp]; rfl) (hd.quiet p)
    have hother : ∀ (pc : Pc Key Name) (k : Key), k ≠ key → (∀ k', Active k' pc → k' = key) → Stage w s k →
        Stage w (s.goto p pc) k := by
      intro pc k hk hpc hst
      cases hst with
      | absent hz hf => exact .absent hz hf
      | stored q hq hf =>
        refine .stored q ?_ hf
        have : q ≠ p := by
          rintro rfl
          rw [hp, Pc.openZip.injEq] at hq
          exact hk hq.symm
        simpa [Sys.goto, Function.update_of_ne this] using hq
      | extracting q todo hq hf =>
        refine .extracting q todo ?_ hf
        have : q ≠ p := by
          rintro rfl
          rw [hp] at hq
          cases hq
        simpa [Sys.goto, Function.update_of_ne this] using hq
      | done hd =>
        refine .done ⟨hd.zip, ?_, hd.files⟩
        intro q
        by_cases hq : q = p
        · subst hq
          simp only [Sys.goto, Function.update_self]
          exact fun hact => hk (hpc k hact)
        · simpa [Sys.goto, Function.update_of_ne hq] using hd.quiet q
    have hret : ∀ (pc : Pc Key Name), (∀ k' c, pc ≠ .returned k' c) → (∀ k', Active k' pc → k' = key) →
        ∀ q k c, (s.goto p pc).proc q = .returned k c → Done w (s.goto p pc) k := by
      intro pc hpc hact q k c hq
      have hqp : q ≠ p := by
        rintro rfl
        simp only [Sys.goto, Function.update_self] at hq
        exact hpc k c hq
      simp only [Sys.goto, Function.update_of_ne hqp] at hq
      have hd := h.returned q k c hq
      have hk : k ≠ key := by
        rintro rfl
        exact hd.quiet p (by rw [hp]; rfl)
      refine ⟨hd.zip, ?_, hd.files⟩
      intro r
      by_cases hr : r = p
      · subst hr
        simp only [Sys.goto, Function.update_self]
        exact fun ha => hk (hact k ha)
      · simpa [Sys.goto, Function.update_of_ne hr] using hd.quiet r
    simp only [hp, hb, Option.bind_some] at hinv ⊢
    cases hdec : w.decode b with
    | none =>
      simp only [hdec] at hinv ⊢
      refine ⟨hinv, ?_, hret .failed (by simp) (by simp [Active])⟩
      intro k
      by_cases hk : k = key
      · subst hk
        refine .done ⟨hokp, ?_, ?_⟩
        · intro q
          by_cases hq : q = p
          · subst hq
            simp [Sys.fail, Sys.goto, Active]
          · simp only [Sys.fail, Sys.goto, Function.update_of_ne hq]
            exact fun ha => huniq q hq ha.writer
        · intro a ha
          rw [← hserved, hdec] at ha
          cases ha
      · exact hother .failed k hk (by simp [Active]) (h.stage k)
    | some a =>
      simp only [hdec] at hinv ⊢
      refine ⟨hinv, ?_, hret _ (by simp) (by
        intro k' ha
        exact ha.symm)⟩
      intro k
      by_cases hk : k = key
      · subst hk
        refine .extracting p (extraction a) (by simp [Sys.goto]) ?_
        intro a' ha'
        rw [← hserved, hdec, Option.some.injEq] at ha'
        subst ha'
        have : (s.goto p (.extract k (extraction a))).files k = fun _ => none := hempty
        rw [this]
        exact extraction_content a
      · exact hother _ k hk (by
          intro k' ha
          exact ha.symm) (h.stage k)
  | extract key todo =>
    rw [hp] at hokp
    have huniq : ∀ q, q ≠ p → ¬ Writer key (s.proc q) := by
      intro q hq hw
      exact hq (h.inv.unique q p key hw (by rw [hp]; rfl))
    have hfiles : ∀ a, w.decode (w.served key) = some a → todo.foldl (fun f o => o.apply f) (s.files key) = Spec.content a := by
      cases h.stage key with
      | absent hz _ => rw [PcOk, hz] at hokp; cases hokp
      | stored q hq hf =>
        have : q = p := h.inv.unique q p key (by rw [hq]; rfl) (by rw [hp]; rfl)
        subst this
        rw [hp] at hq
        cases hq
      | extracting q todo' hq hf =>
        have : q = p := h.inv.unique q p key (by rw [hq]; rfl) (by rw [hp]; rfl)
        subst this
        rw [hp, Pc.extract.injEq] at hq
        rw [hq.2]
        exact hf
      | done hd => exact absurd (by rw [hp]; rfl) (hd.quiet p)
    have hretne : ∀ q k c, s.proc q = .returned k c → k ≠ key := by
      rintro q k c hq rfl
      exact (h.returned q k c hq).quiet p (by rw [hp]; rfl)
    have hdone : ∀ (t : Sys Key Name) (pc : Pc Key Name), t.proc = Function.update s.proc p pc → t.zip = s.zip →
        (∀ k, k ≠ key → t.files k = s.files k) → (∀ k', Active k' pc → k' = key) → ∀ k, k ≠ key → Done w s k → Done w t k := by
      intro t pc h1 h2 h3 h4 k hk hd
      refine ⟨by rw [h2]; exact hd.zip, ?_, by rw [h3 k hk]; exact hd.files⟩
      intro q
      rw [h1]
      by_cases hq : q = p
      · subst hq
        rw [Function.update_self]
        exact fun ha => hk (h4 k ha)
      · rw [Function.update_of_ne hq]
        exact hd.quiet q
    have hother : ∀ (t : Sys Key Name) (pc : Pc Key Name), t.proc = Function.update s.proc p pc → t.zip = s.zip →
        (∀ k, k ≠ key → t.files k = s.files k) → (∀ k', Active k' pc → k' = key) → ∀ k, k ≠ key → Stage w t k := by
      intro t pc h1 h2 h3 h4 k hk
      cases h.stage k with
      | absent hz hf => exact .absent (by rw [h2]; exact hz) (by rw [h3 k hk]; exact hf)
      | stored q hq hf =>
        refine .stored q ?_ (by rw [h3 k hk]; exact hf)
        have : q ≠ p := by
          rintro rfl
          rw [hp] at hq
          cases hq
        rw [h1, Function.update_of_ne this]
        exact hq
      | extracting q todo' hq hf =>
        refine .extracting q todo' ?_ (by rw [h3 k hk]; exact hf)
        have : q ≠ p := by
          rintro rfl
          rw [hp, Pc.extract.injEq] at hq
          exact hk hq.1.symm
        rw [h1, Function.update_of_ne this]
        exact hq
      | done hd => exact .done (hdone t pc h1 h2 h3 h4 k hk hd)
    cases todo with
    | nil =>
      simp only [hp] at hinv ⊢
      have hnow : Done w (s.goto p (.returned key false)) key := by
        refine ⟨hokp, ?_, hfiles⟩
        intro q
        by_cases hq : q = p
        · subst hq
          simp [Sys.goto, Active]
        · simp only [Sys.goto, Function.update_of_ne hq]
          exact fun ha => huniq q hq ha.writer
      refine ⟨hinv, ?_, ?_⟩
      · intro k
        by_cases hk : k = key
        · subst hk
          exact .done hnow
        · exact hother (s.goto p (.returned key false)) (.returned key false) rfl rfl (fun _ _ => rfl) (by simp [Active]) k hk
      · intro q k c hq
        by_cases hqp : q = p
        · subst hqp
          simp only [Sys.goto, Function.update_self, Pc.returned.injEq] at hq
          rw [← hq.1]
          exact hnow
        · simp only [Sys.goto, Function.update_of_ne hqp] at hq
          exact hdone (s.goto p (.returned key false)) (.returned key false) rfl rfl (fun _ _ => rfl) (by simp [Active]) k
            (hretne q k c hq) (h.returned q k c hq)
    | cons o os =>
      simp only [hp] at hinv ⊢
      have hf : ∀ k, k ≠ key → Function.update s.files key (o.apply (s.files key)) k = s.files k :=
        fun k hk => Function.update_of_ne hk _ _
      have hact : ∀ k', Active k' (.extract key os : Pc Key Name) → k' = key := by
        intro k' ha
        exact ha.symm
      refine ⟨hinv, ?_, ?_⟩
      · intro k
        by_cases hk : k = key
        · subst hk
          refine .extracting p os (by simp [Sys.goto]) ?_
          intro a ha
          have := hfiles a ha
          rw [List.foldl_cons] at this
          simpa [Sys.goto] using this
        · exact hother (Sys.goto { s with files := Function.update s.files key (o.apply (s.files key)) } p (.extract key os))
            (.extract key os) rfl rfl hf hact k hk
      · intro q k c hq
        have hqp : q ≠ p := by
          rintro rfl
          simp [Sys.goto] at hq
        simp only [Sys.goto, Function.update_of_ne hqp] at hq
        exact hdone (Sys.goto { s with files := Function.update s.files key (o.apply (s.files key)) } p (.extract key os))
          (.extract key os) rfl rfl hf hact k (hretne q k c hq) (h.returned q k c hq)
  | returned key c => exact h
  | gotCache key => exact h
  | failed => exact h

theorem Inv2.apply {w : World Key Name} {s : Sys Key Name} (h : Inv2 w s) {e : Ev Key} (he : ¬ Spec.Interrupts s e) :
    Inv2 w (s.apply w e) := by
  have hinv := h.inv.apply e
  cases e with
  | callStore p key =>
    simp only [Sys.apply] at hinv ⊢
    split at hinv
    · rename_i hf
      exact h.frame (pc := .start key) hinv rfl rfl rfl (by simp [hf, Active]) (by simp [Active]) (by simp)
    · exact h
  | callDownload p key =>
    simp only [Sys.apply] at hinv ⊢
    split at hinv
    · rename_i hf
      exact h.frame (pc := .lookup key false) hinv rfl rfl rfl (by simp [hf, Active]) (by simp [Active]) (by simp)
    · exact h
  | step p => exact h.step p
  | crash p =>
    refine h.frame (pc := .failed) hinv rfl rfl rfl ?_ (by simp [Active]) (by simp)
    intro k hk
    refine he ⟨k, ?_⟩
    cases hp : s.proc p with
    | openZip k' =>
      rw [hp] at hk
      obtain rfl : k' = k := hk
      exact Or.inl rfl
    | extract k' todo =>
      rw [hp] at hk
      obtain rfl : k' = k := hk
      exact Or.inr ⟨todo, rfl⟩
    | _ =>
      rw [hp] at hk
      exact hk.elim

theorem Inv2.run {w : World Key Name} : ∀ (evs : List (Ev Key)) {s : Sys Key Name}, Inv2 w s → Spec.Uninterrupted w s evs →
    Inv2 w (s.run w evs)
  | [], _, h, _ => h
  | _ :: evs, _, h, hu => Inv2.run evs (h.apply hu.1) hu.2

omit [DecidableEq Key] in
theorem inv2_empty (w : World Key Name) : Inv2 w (Sys.empty : Sys Key Name) :=
  ⟨inv_empty w, fun k => .absent rfl rfl, by simp [Sys.empty]⟩

/-! ## C78 -/

/-- **C78 (files are whole).** Whatever processes download whatever models at the same time, and wherever they die or fail: in
every reachable state the file in the download cache and the archive of a model are absent or byte for byte what the server
sends. -/
theorem cached_files_whole (w : World Key Name) (evs : List (Ev Key)) (key : Key) :
    ((Sys.empty.run w evs).cache key = none ∨ (Sys.empty.run w evs).cache key = some (w.served key)) ∧
      ((Sys.empty.run w evs).zip key = none ∨ (Sys.empty.run w evs).zip key = some (w.served key)) := by
  have h := Inv.run evs (inv_empty w)
  constructor
  · cases hc : (Sys.empty.run w evs).cache key with
    | none => exact Or.inl rfl
    | some b => rw [h.cache key b hc]; exact Or.inr rfl
  · cases hc : (Sys.empty.run w evs).zip key with
    | none => exact Or.inl rfl
    | some b => rw [h.zip key b hc]; exact Or.inr rfl

/-- **C78 (`cached_download`).** When a direct call of `cached_download` returns, the whole file is in the cache. -/
theorem cached_download_returns (w : World Key Name) (evs : List (Ev Key)) (p : Nat) (key : Key)
    (hbefore : (Sys.empty.run w evs).proc p ≠ .gotCache key)
    (hafter : (Sys.empty.run w (evs ++ [.step p])).proc p = .gotCache key) :
    (Sys.empty.run w (evs ++ [.step p])).cache key = some (w.served key) := by
  have h := Inv.run evs (inv_empty w)
  have hokp := h.ok p
  have hrun : (Sys.empty : Sys Key Name).run w (evs ++ [.step p]) = ((Sys.empty : Sys Key Name).run w evs).step w p := by
    simp [Sys.run, Sys.apply]
  rw [hrun] at hafter ⊢
  generalize (Sys.empty : Sys Key Name).run w evs = s at *
  simp only [Sys.step] at hafter ⊢
  cases hp : s.proc p with
  | start k => simp only [hp] at hafter; split_ifs at hafter <;> simp_all
  | check k => simp only [hp] at hafter; split_ifs at hafter <;> simp [Sys.goto] at hafter
  | lookup k st =>
    simp only [hp] at hafter ⊢
    split_ifs at hafter ⊢ with h1 h2
    · simp [Sys.goto] at hafter
    · simp only [Sys.goto, Function.update_self, Pc.gotCache.injEq] at hafter
      subst hafter
      obtain ⟨b, hb⟩ := Option.isSome_iff_exists.mp h1
      simp only [Sys.goto]
      rw [hb, h.cache _ b hb]
    · simp [Sys.goto] at hafter
  | download k st t => simp only [hp] at hafter; split_ifs at hafter <;> simp [Sys.goto] at hafter
  | move k st t =>
    rw [hp] at hokp
    simp only [hp] at hafter ⊢
    split_ifs at hafter ⊢ with h1
    · simp [Sys.goto] at hafter
    · simp only [Sys.goto, Function.update_self, Pc.gotCache.injEq] at hafter
      subst hafter
      simp [Sys.goto, hokp.1]
  | rename k => simp only [hp] at hafter; split at hafter <;> simp [Sys.goto, Sys.fail] at hafter
  | openZip k => simp only [hp] at hafter; split at hafter <;> simp [Sys.goto, Sys.fail] at hafter
  | extract k todo => cases todo <;> simp only [hp] at hafter <;> simp [Sys.goto] at hafter
  | returned k c => simp only [hp] at hafter; simp at hafter
  | gotCache k => simp only [hp] at hafter; rw [hp] at hbefore; exact absurd hafter hbefore
  | failed => simp only [hp] at hafter; simp at hafter

/-- **C78 (at most one download).** However the calls interleave and whoever dies, at most one call of
`download_and_store_model` for a model reports that the model was not cached. -/
theorem stored_once (w : World Key Name) (evs : List (Ev Key)) (key : Key) (p q : Nat)
    (hp : (Sys.empty.run w evs).proc p = .returned key false) (hq : (Sys.empty.run w evs).proc q = .returned key false) :
    p = q :=
  (Inv.run evs (inv_empty w)).unique p q key (by rw [hp]; exact ⟨rfl, rfl⟩) (by rw [hq]; exact ⟨rfl, rfl⟩)

/-- **C78 (returned models are complete, partial).** If no process dies or fails between putting the archive in its place and
finishing the extraction, then whenever `download_and_store_model` has returned, cached or not, the directory of the model
holds exactly the files of the archive with their contents, whatever else happened: other processes at work at the same
time, failed downloads, processes that died at any other point.  Missing: interruptions in that section, for which this is
false (`interrupted_extraction_never_repaired`). -/
theorem stored_model_complete_partial (w : World Key Name) (evs : List (Ev Key)) (hu : Spec.Uninterrupted w Sys.empty evs)
    (p : Nat) (key : Key) (isCached : Bool) (hr : (Sys.empty.run w evs).proc p = .returned key isCached)
    (a : Archive Name) (ha : w.decode (w.served key) = some a) (n : Name) :
    (Sys.empty.run w evs).files key n = Spec.content a n := by
  rw [((Inv2.run evs (inv2_empty w) hu).returned p key isCached hr).files a ha]

/-- How many steps a call of `download_and_store_model` for `key` has to go at most; `none` if the process is not in one. -/
def toGo (size writes : Nat) (key : Key) : Pc Key Name → Option Nat
  | .start k => if k = key then some (writes + size + 8) else none
  | .check k => if k = key then some (writes + size + 7) else none
  | .lookup k st => if k = key ∧ st = true then some (writes + size + 6) else none
  | .download k st t => if k = key ∧ st = true then some (writes + 5 + (size - t.length)) else none
  | .move k st _ => if k = key ∧ st = true then some (writes + 4) else none
  | .rename k => if k = key then some (writes + 3) else none
  | .openZip k => if k = key then some (writes + 2) else none
  | .extract k todo => if k = key then some (todo.length + 1) else none
  | .returned k _ => if k = key then some 0 else none
  | _ => none

theorem toGo_step {w : World Key Name} {s : Sys Key Name} (h : Inv w s) {p : Nat} {key : Key} {a : Archive Name}
    (ha : w.decode (w.served key) = some a) (hl : s.holder = none ∨ s.holder = some p) {n : Nat}
    (hn : toGo (w.served key).length (extraction a).length key (s.proc p) = some (n + 1)) :
    ∃ m, m ≤ n ∧ toGo (w.served key).length (extraction a).length key ((s.step w p).proc p) = some m ∧
      ((s.step w p).holder = none ∨ (s.step w p).holder = some p) := by
  have hgoto : ∀ (t : Sys Key Name) (pc : Pc Key Name), t.holder = s.holder →
      ((t.goto p pc).holder = none ∨ (t.goto p pc).holder = some p) := by
    intro t pc ht
    simp only [Sys.goto]
    split_ifs
    · exact Or.inl rfl
    · rw [ht]
      exact hl
  have hokp := h.ok p
  unfold Sys.step
  cases hp : s.proc p with
  | start k =>
    simp only [hp, toGo] at hn
    split_ifs at hn with hk
    subst hk
    have hfree : s.holder = none := by
      rcases hl with hl | hl
      · exact hl
      · have := h.locked.holds p hl
        rw [hp] at this
        cases this
    simp only [hfree, if_true]
    refine ⟨_, ?_, by simp only [Function.update_self, toGo, if_true]; rfl, by simp⟩
    simp only [Option.some.injEq] at hn
    omega
  | check k =>
    simp only [hp, toGo] at hn
    split_ifs at hn with hk
    subst hk
    simp only [Option.some.injEq] at hn
    simp only
    split_ifs
    · exact ⟨0, by omega, by simp [Sys.goto, toGo], hgoto s _ rfl⟩
    · exact ⟨(extraction a).length + (w.served k).length + 6, by omega, by simp [Sys.goto, toGo], hgoto s _ rfl⟩
  | lookup k st =>
    simp only [hp, toGo] at hn
    split_ifs at hn with hk
    obtain ⟨rfl, rfl⟩ := hk
    simp only [Option.some.injEq] at hn
    simp only [if_true]
    split_ifs
    · exact ⟨(extraction a).length + 3, by omega, by simp [Sys.goto, toGo], hgoto s _ rfl⟩
    · exact ⟨(extraction a).length + 5 + (w.served k).length, by omega, by simp [Sys.goto, toGo], hgoto s _ rfl⟩
  | download k st t =>
    simp only [hp, toGo] at hn
    split_ifs at hn with hk
    obtain ⟨rfl, rfl⟩ := hk
    simp only [Option.some.injEq] at hn
    simp only
    split_ifs with hlt
    · refine ⟨(extraction a).length + 5 + ((w.served k).length - (t.length + 1)), by omega, ?_, hgoto s _ rfl⟩
      simp only [Sys.goto, Function.update_self, toGo, and_self, if_true, List.length_take]
      rw [Nat.min_eq_left (by omega)]
    · exact ⟨(extraction a).length + 4, by omega, by simp [Sys.goto, toGo], hgoto s _ rfl⟩
  | move k st t =>
    simp only [hp, toGo] at hn
    split_ifs at hn with hk
    obtain ⟨rfl, rfl⟩ := hk
    simp only [Option.some.injEq] at hn
    exact ⟨(extraction a).length + 3, by omega, by simp [Sys.goto, toGo], hgoto _ _ rfl⟩
  | rename k =>
    rw [hp] at hokp
    simp only [hp, toGo] at hn
    split_ifs at hn with hk
    subst hk
    simp only [Option.some.injEq] at hn
    obtain ⟨b, hb⟩ := Option.isSome_iff_exists.mp hokp.1
    simp only [hb]
    exact ⟨(extraction a).length + 2, by omega, by simp [Sys.goto, toGo], hgoto _ _ rfl⟩
  | openZip k =>
    rw [hp] at hokp
    simp only [hp, toGo] at hn
    split_ifs at hn with hk
    subst hk
    simp only [Option.some.injEq] at hn
    obtain ⟨b, hb⟩ := Option.isSome_iff_exists.mp hokp
    have hserved := h.zip k b hb
    subst hserved
    simp only [hb, Option.bind_some, ha]
    exact ⟨(extraction a).length + 1, by omega, by simp [Sys.goto, toGo], hgoto _ _ rfl⟩
  | extract k todo =>
    simp only [hp, toGo] at hn
    split_ifs at hn with hk
    subst hk
    simp only [Option.some.injEq] at hn
    cases todo with
    | nil => exact ⟨0, by omega, by simp [Sys.goto, toGo], hgoto _ _ rfl⟩
    | cons o os =>
      rw [List.length_cons] at hn
      exact ⟨os.length + 1, by omega, by simp [Sys.goto, toGo], hgoto _ _ rfl⟩
  | returned k c =>
    simp only [hp, toGo] at hn
    split_ifs at hn
    simp at hn
  | gotCache k => simp [hp, toGo] at hn
  | failed => simp [hp, toGo] at hn

/-- **C78 (calls return).** After any history, including crashes anywhere, a call of `download_and_store_model` that finds the
lock free and is left alone returns: no crash leaves something behind that blocks later calls. -/
theorem store_returns (w : World Key Name) (evs : List (Ev Key)) (p : Nat) (key : Key) (a : Archive Name)
    (ha : w.decode (w.served key) = some a) (hp : (Sys.empty.run w evs).proc p = .start key)
    (hl : (Sys.empty.run w evs).holder = none) :
    ∃ n c, (Sys.empty.run w (evs ++ List.replicate n (.step p))).proc p = .returned key c := by
  have h := Inv.run evs (inv_empty w)
  have happ : ∀ n, (Sys.empty : Sys Key Name).run w (evs ++ List.replicate n (.step p)) =
      ((Sys.empty : Sys Key Name).run w evs).run w (List.replicate n (.step p)) := by
    intro n
    simp [Sys.run]
  simp only [happ]
  generalize (Sys.empty : Sys Key Name).run w evs = s at *
  have main : ∀ (k n : Nat) (s : Sys Key Name), n ≤ k → Inv w s → (s.holder = none ∨ s.holder = some p) →
      toGo (w.served key).length (extraction a).length key (s.proc p) = some n →
      ∃ n c, (s.run w (List.replicate n (.step p))).proc p = .returned key c := by
    intro k
    induction k with
    | zero =>
      intro n s hn _ _ ht
      obtain rfl : n = 0 := by omega
      refine ⟨0, ?_⟩
      cases hq : s.proc p with
      | returned k' c =>
        rw [hq] at ht
        simp only [toGo] at ht
        split_ifs at ht with hk
        subst hk
        exact ⟨c, hq⟩
      | _ =>
        rw [hq] at ht
        simp only [toGo] at ht
        first
          | (split_ifs at ht; simp only [Option.some.injEq] at ht; omega)
          | cases ht
    | succ k ih =>
      intro n s hn hs hl ht
      cases n with
      | zero => exact ih 0 s (by omega) hs hl ht
      | succ n =>
        obtain ⟨m, h1, h2, h3⟩ := toGo_step hs ha hl ht
        obtain ⟨j, c, hj⟩ := ih m (s.step w p) (by omega) (hs.step p) h3 h2
        exact ⟨j + 1, c, by rw [List.replicate_succ]; exact hj⟩
  exact main _ _ s (Nat.le_refl _) h (Or.inl hl) (by rw [hp]; simp only [toGo, if_true]; rfl)

/-- A server that sends two bytes, the archive of one file. -/
def demoWorld : World Unit Unit := ⟨fun _ => [1, 2], fun b => if b = [1, 2] then some [((), [7, 8])] else none⟩

/-- `n` steps of process `p`. -/
def steps (p n : Nat) : List (Ev Unit) := List.replicate n (.step p)

/-- **C78 fails for interrupted extractions.** A process dies (or the disk is full) when it has put the archive in its place.
The next call of `download_and_store_model` returns, reports that the model is cached, and the directory of the model is
empty, although the archive has a file.  No later call repairs it. -/
theorem interrupted_extraction_never_repaired :
    ∃ evs : List (Ev Unit), (Sys.empty.run demoWorld evs).proc 1 = .returned () true ∧
      (Sys.empty.run demoWorld evs).files () () = none ∧ Spec.content [((), [7, 8])] () = some [7, 8] ∧
      demoWorld.decode (demoWorld.served ()) = some [((), [7, 8])] ∧
      ∀ (more : List (Ev Unit)), (Sys.empty.run demoWorld (evs ++ more)).files () () = none := by
  refine ⟨.callStore 0 () :: steps 0 8 ++ [.crash 0, .callStore 1 ()] ++ steps 1 2, by decide, by decide, by decide, by decide, ?_⟩
  intro more
  rw [show ∀ (a b : List (Ev Unit)), Sys.run demoWorld Sys.empty (a ++ b) = Sys.run demoWorld (Sys.run demoWorld Sys.empty a) b from
    fun a b => by simp [Sys.run]]
  generalize hs : Sys.run demoWorld Sys.empty (.callStore 0 () :: steps 0 8 ++ [.crash 0, .callStore 1 ()] ++ steps 1 2) = s
  have hinv : Inv demoWorld s := by
    rw [← hs]
    exact Inv.run _ (inv_empty _)
  have hz : (s.zip ()).isSome := by
    rw [← hs]
    decide
  have hf : s.files () () = none := by
    rw [← hs]
    decide
  have ha : ∀ p, ¬ Active () (s.proc p) := by
    intro p hp
    have := hinv.locked.owner p hp.holds
    have hh : s.holder = none := by
      rw [← hs]
      decide
    rw [hh] at this
    cases this
  clear hs
  induction more generalizing s with
  | nil => exact hf
  | cons e more ih =>
    rw [Sys.run, List.foldl_cons]
    have hinv' := hinv.apply e
    have hok : ∀ p, PcOk demoWorld s.cache s.zip (s.proc p) := hinv.ok
    have key : ∀ (t : Sys Unit Unit) (p : Nat) (pc : Pc Unit Unit), t.proc = Function.update s.proc p pc → ¬ Active () pc →
        ∀ q, ¬ Active () (t.proc q) := by
      intro t p pc h1 h2 q
      rw [h1]
      by_cases hq : q = p
      · subst hq
        rw [Function.update_self]
        exact h2
      · rw [Function.update_of_ne hq]
        exact ha q
    have goal : (s.apply demoWorld e).files () () = none ∧ ((s.apply demoWorld e).zip ()).isSome ∧
        ∀ p, ¬ Active () ((s.apply demoWorld e).proc p) := by
      cases e with
      | callStore p k =>
        simp only [Sys.apply]
        split
        · exact ⟨hf, hz, key _ p _ rfl (by simp [Active])⟩
        · exact ⟨hf, hz, ha⟩
      | callDownload p k =>
        simp only [Sys.apply]
        split
        · exact ⟨hf, hz, key _ p _ rfl (by simp [Active])⟩
        · exact ⟨hf, hz, ha⟩
      | crash p => exact ⟨hf, hz, key (s.fail p) p .failed rfl (by simp [Active])⟩
      | step p =>
        have hokp := hok p
        simp only [Sys.apply, Sys.step]
        cases hp : s.proc p with
        | start k =>
          simp only
          split_ifs
          · exact ⟨hf, hz, key _ p _ rfl (by simp [Active])⟩
          · exact ⟨hf, hz, ha⟩
        | check k =>
          simp only
          split_ifs
          · exact ⟨hf, hz, key (s.goto p _) p _ rfl (by simp [Active])⟩
          · exact ⟨hf, hz, key (s.goto p _) p _ rfl (by simp [Active])⟩
        | lookup k st =>
          simp only
          split_ifs
          · exact ⟨hf, hz, key (s.goto p _) p _ rfl (by simp [Active])⟩
          · exact ⟨hf, hz, key (s.goto p _) p _ rfl (by simp [Active])⟩
          · exact ⟨hf, hz, key (s.goto p _) p _ rfl (by simp [Active])⟩
        | download k st t =>
          simp only
          split_ifs
          · exact ⟨hf, hz, key (s.goto p _) p _ rfl (by simp [Active])⟩
          · exact ⟨hf, hz, key (s.goto p _) p _ rfl (by simp [Active])⟩
        | move k st t =>
          simp only
          split_ifs
          · exact ⟨hf, hz, key (Sys.goto { s with cache := Function.update s.cache k (some t) } p _) p _ rfl (by simp [Active])⟩
          · exact ⟨hf, hz, key (Sys.goto { s with cache := Function.update s.cache k (some t) } p _) p _ rfl (by simp [Active])⟩
        | rename k =>
          rw [hp] at hokp
          have := hokp.2
          rw [show k = () from rfl] at this
          rw [this] at hz
          cases hz
        | openZip k => exact absurd (by rw [hp]; rfl) (ha p)
        | extract k todo => exact absurd (by rw [hp]; rfl) (ha p)
        | returned k c => exact ⟨hf, hz, ha⟩
        | gotCache k => exact ⟨hf, hz, ha⟩
        | failed => exact ⟨hf, hz, ha⟩
    exact ih _ hinv' goal.2.1 goal.1 goal.2.2

/-- Two processes store the same model while a third downloads it directly and a fourth dies during its download. -/
def demoHistory : List (Ev Unit) :=
  [.callStore 0 (), .callDownload 2 (), .callStore 1 (), .callDownload 3 (), .step 2, .step 0, .step 1, .step 3, .step 3, .crash 3]
    ++ steps 0 5 ++ steps 2 9 ++ steps 0 9 ++ steps 1 9

instance (s : Sys Unit Unit) (e : Ev Unit) : Decidable (Spec.Interrupts s e) := by
  cases e with
  | crash p =>
    simp only [Spec.Interrupts]
    cases hp : s.proc p with
    | openZip k => exact isTrue ⟨k, Or.inl rfl⟩
    | extract k todo => exact isTrue ⟨k, Or.inr ⟨todo, rfl⟩⟩
    | _ => exact isFalse (by simp)
  | _ => exact isFalse (fun h => h)

def uninterruptedDec : ∀ (evs : List (Ev Unit)) (s : Sys Unit Unit), Decidable (Spec.Uninterrupted demoWorld s evs)
  | [], _ => isTrue trivial
  | e :: evs, s => @instDecidableAnd _ _ inferInstance (uninterruptedDec evs (s.apply demoWorld e))

instance (evs : List (Ev Unit)) (s : Sys Unit Unit) : Decidable (Spec.Uninterrupted demoWorld s evs) := uninterruptedDec evs s

example : Spec.Uninterrupted demoWorld Sys.empty demoHistory := by decide

example : (Sys.empty.run demoWorld demoHistory).proc 0 = .returned () false ∧
    (Sys.empty.run demoWorld demoHistory).proc 1 = .returned () true ∧
    (Sys.empty.run demoWorld demoHistory).proc 2 = .gotCache () ∧
    (Sys.empty.run demoWorld demoHistory).files () () = some [7, 8] := by decide

end Pfrl.Pretrained
