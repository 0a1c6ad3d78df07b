import Verif.Basic
import Mathlib.Data.Fintype.Card
import Mathlib.Data.Fintype.Pigeonhole
import Mathlib.Data.Fintype.BigOperators
import Mathlib.Logic.Function.Iterate
import Mathlib.Tactic.NormNum
import Mathlib.Tactic.Positivity
import Mathlib.Tactic.Linarith
import Mathlib.Tactic.Ring

/-!
# Experiment identifiers (C125)

`generate_exp_id` and the name of the output directory (`pfrl/experiments/prepare_output_dir.py`).  What git
prints, the command line and `pickle.dumps` are inputs.  `binascii.crc32` is written out.
-/

namespace Pfrl.Files.ExpId

/-! ## Model -/

/-- A byte. -/
abbrev Byte := BitVec 8

/-- One bit of the checksum of `binascii.crc32` (polynomial `0xEDB88320`). -/
def shift (s : BitVec 32) : BitVec 32 := (s >>> 1) ^^^ (if s.getLsbD 0 then 0xEDB88320#32 else 0#32)

/-- One byte. -/
def crcByte (s : BitVec 32) (b : Byte) : BitVec 32 := shift^[8] (s ^^^ b.setWidth 32)

/-- `binascii.crc32(source)`. -/
def crc32 (source : List Byte) : BitVec 32 := source.foldl crcByte 0xFFFFFFFF#32 ^^^ 0xFFFFFFFF#32

/-- A hexadecimal digit. -/
def hexDigit (d : ℕ) : Char := ['0', '1', '2', '3', '4', '5', '6', '7', '8', '9', 'a', 'b', 'c', 'd', 'e', 'f'].getD (d % 16) '0'

/-- `"%08x" % c` for a number below `2 ^ 32`. -/
def hex8 (c : BitVec 32) : List Char := (List.range 8).map fun i => hexDigit (c.toNat / 16 ^ (7 - i))

/-- What the functions read: whether there is a git repository, the output of `git rev-parse HEAD` without white
space, that of `git diff HEAD`, and `sys.argv`; `pickle` is `pickle.dumps`. -/
structure World (Argv : Type) where
  underGit : Bool
  head : List Char
  diff : List Byte
  sysArgv : Argv
  pickle : Argv → List Byte

variable {Argv : Type}

/-- `generate_exp_id`, `prepare_output_dir.py:19-47`.  `argv` is the value of the parameter: `sys.argv` if it is
not given. -/
def generateExpId (w : World Argv) (pre : Option (List Char)) (argv : Argv) : Except PyErr (List Char) :=
  if w.underGit = false then .error .runtimeError
  else .ok (['-'].intercalate (pre.toList ++ [w.head] ++ [w.diff, w.pickle argv].map (fun source => hex8 (crc32 source))))

/-- The experiment identifier that `prepare_output_dir` uses, `prepare_output_dir.py:113-119`; its parameter `argv`
is `_argv`. -/
def directoryId (w : World Argv) (expId : Option (List Char)) (_argv : Option Argv) (timestamp : List Char) : Except PyErr (List Char) :=
  match expId with
  | some e => .ok e
  | none => if w.underGit then generateExpId w none w.sysArgv else .ok timestamp

/-- The command written to `command.txt`, `prepare_output_dir.py:152-156`. -/
def command (w : World Argv) (argv : Option Argv) : Argv := argv.getD w.sysArgv

/-! ## Specification -/

/-- Two byte strings that differ, but only within four consecutive bytes. -/
def Spec.SmallChange (x y : List Byte) : Prop :=
  ∃ before a b after, x = before ++ a ++ after ∧ y = before ++ b ++ after ∧ a.length = b.length ∧ a.length ≤ 4 ∧ a ≠ b

/-! ## Lemmas: the checksum -/

theorem shift_top (s : BitVec 32) : (shift s).getLsbD 31 = s.getLsbD 0 := by
  unfold shift
  cases h : s.getLsbD 0 <;> simp

theorem shift_injective : Function.Injective shift := by
  intro s t h
  have h0 : s.getLsbD 0 = t.getLsbD 0 := by rw [← shift_top, ← shift_top, h]
  have h1 : s >>> 1 = t >>> 1 := by
    unfold shift at h
    rw [h0] at h
    have := congrArg (· ^^^ (if t.getLsbD 0 then 0xEDB88320#32 else 0#32)) h
    simpa [BitVec.xor_assoc] using this
  apply BitVec.eq_of_getLsbD_eq
  intro i hi
  rcases i with _ | i
  · exact h0
  · have := congrArg (·.getLsbD i) h1
    simpa [BitVec.getLsbD_ushiftRight, Nat.add_comm] using this

theorem shift_xor (s t : BitVec 32) : shift (s ^^^ t) = shift s ^^^ shift t := by
  unfold shift
  rw [BitVec.getLsbD_xor]
  have e : ∀ x y : BitVec 32, x ^^^ y = 0xEDB88320#32 ^^^ (0xEDB88320#32 ^^^ (x ^^^ y)) := by
    intro x y
    rw [← BitVec.xor_assoc, BitVec.xor_self, BitVec.zero_xor]
  cases s.getLsbD 0 <;> cases t.getLsbD 0 <;> simp [BitVec.ushiftRight_xor_distrib]
  · ac_rfl
  · ac_rfl
  · rw [e]
    ac_rfl

theorem iterate_xor (k : ℕ) (s t : BitVec 32) : shift^[k] (s ^^^ t) = shift^[k] s ^^^ shift^[k] t := by
  induction k generalizing s t with
  | zero => rfl
  | succ k ih => rw [Function.iterate_succ_apply, shift_xor, ih, ← Function.iterate_succ_apply, ← Function.iterate_succ_apply]

theorem shift_shiftLeft (x : BitVec 32) (j : ℕ) (hj : j < 8) (hx : x.toNat < 2 ^ 24) : shift (x <<< (j + 1)) = x <<< j := by
  have h0 : (x <<< (j + 1)).getLsbD 0 = false := by simp
  unfold shift
  rw [h0]
  apply BitVec.eq_of_toNat_eq
  have h1 : x.toNat * 2 ^ (j + 1) < 2 ^ 32 := by
    have : 2 ^ (j + 1) ≤ 2 ^ 8 := Nat.pow_le_pow_right (by norm_num) (by omega)
    calc x.toNat * 2 ^ (j + 1) < 2 ^ 24 * 2 ^ (j + 1) := Nat.mul_lt_mul_of_pos_right hx (by positivity)
      _ ≤ 2 ^ 24 * 2 ^ 8 := Nat.mul_le_mul_left _ this
      _ = 2 ^ 32 := by norm_num
  have h2 : x.toNat * 2 ^ j < 2 ^ 32 := by
    rw [pow_succ, ← mul_assoc] at h1
    omega
  simp only [Bool.false_eq_true, if_false, BitVec.xor_zero, BitVec.toNat_ushiftRight, BitVec.toNat_shiftLeft, Nat.shiftLeft_eq, Nat.shiftRight_eq_div_pow]
  rw [Nat.mod_eq_of_lt h1, Nat.mod_eq_of_lt h2, pow_succ, ← mul_assoc, pow_one, Nat.mul_div_cancel _ (by norm_num)]

theorem iterate_shiftLeft (x : BitVec 32) (hx : x.toNat < 2 ^ 24) : ∀ j ≤ 8, shift^[j] (x <<< j) = x
  | 0, _ => by simp
  | j + 1, h => by rw [Function.iterate_succ_apply, shift_shiftLeft x j (by omega) hx, iterate_shiftLeft x hx j (by omega)]

/-- The bytes of a word, lowest first. -/
def pack : List Byte → BitVec 32
  | [] => 0
  | e :: es => e.setWidth 32 ^^^ (pack es <<< 8)

theorem pack_lt : ∀ es : List Byte, es.length ≤ 4 → (pack es).toNat < 2 ^ (8 * es.length)
  | [], _ => by simp [pack]
  | e :: es, h => by
    have hes : es.length ≤ 3 := by simpa using h
    have ih := pack_lt es (by omega)
    rw [pack, BitVec.toNat_xor]
    have hp : 2 ^ (8 * (e :: es).length) = 2 ^ (8 * es.length) * 2 ^ 8 := by rw [← pow_add, List.length_cons]; congr 1
    apply Nat.xor_lt_two_pow
    · have := e.isLt
      rw [BitVec.toNat_setWidth, Nat.mod_eq_of_lt (by omega), hp]
      have h1 : 1 ≤ 2 ^ (8 * es.length) := Nat.one_le_two_pow
      nlinarith
    · rw [BitVec.toNat_shiftLeft, Nat.shiftLeft_eq]
      refine lt_of_le_of_lt (Nat.mod_le _ _) ?_
      rw [hp]
      exact Nat.mul_lt_mul_of_pos_right ih (by norm_num)

theorem crcByte_xor (s t : BitVec 32) (x y : Byte) : crcByte s x ^^^ crcByte t y = crcByte (s ^^^ t) (x ^^^ y) := by
  unfold crcByte
  rw [← iterate_xor, BitVec.setWidth_xor]
  congr 1
  ac_rfl

theorem fold_xor : ∀ (a b : List Byte) (s t : BitVec 32), a.length = b.length →
    a.foldl crcByte s ^^^ b.foldl crcByte t = (List.zipWith (· ^^^ ·) a b).foldl crcByte (s ^^^ t)
  | [], [], s, t, _ => rfl
  | x :: a, y :: b, s, t, h => by
    rw [List.foldl_cons, List.foldl_cons, List.zipWith_cons_cons, List.foldl_cons, fold_xor a b _ _ (by simpa using h), crcByte_xor]

theorem fold_zero : ∀ (es : List Byte) (d : BitVec 32), es.length ≤ 4 → es.foldl crcByte d = 0 → d = pack es
  | [], d, _, h => h
  | e :: es, d, hl, h => by
    have hes : es.length ≤ 3 := by simpa using hl
    have h1 := fold_zero es _ (by omega) h
    have hlt : (pack es).toNat < 2 ^ 24 := lt_of_lt_of_le (pack_lt es (by omega)) (Nat.pow_le_pow_right (by norm_num) (by omega))
    have h2 : d ^^^ e.setWidth 32 = pack es <<< 8 := by
      apply shift_injective.iterate 8
      rw [iterate_shiftLeft _ hlt 8 le_rfl]
      exact h1
    have h3 := congrArg (· ^^^ e.setWidth 32) h2
    simp only [BitVec.xor_assoc, BitVec.xor_self, BitVec.xor_zero] at h3
    rw [h3, pack, BitVec.xor_comm]

theorem pack_eq_zero : ∀ es : List Byte, es.length ≤ 4 → pack es = 0 → ∀ e ∈ es, e = 0
  | [], _, _ => by simp
  | e :: es, hl, h => by
    have hes : es.length ≤ 3 := by simpa using hl
    have hlt : (pack es).toNat < 2 ^ 24 := lt_of_lt_of_le (pack_lt es (by omega)) (Nat.pow_le_pow_right (by norm_num) (by omega))
    have h1 : e.setWidth 32 = pack es <<< 8 := by
      have := congrArg (· ^^^ (pack es <<< 8)) h
      simpa [pack, BitVec.xor_assoc] using this
    have h2 := congrArg BitVec.toNat h1
    rw [BitVec.toNat_setWidth, BitVec.toNat_shiftLeft, Nat.shiftLeft_eq, Nat.mod_eq_of_lt (by have := e.isLt; omega),
      Nat.mod_eq_of_lt (by omega)] at h2
    have he := e.isLt
    have h3 : (pack es).toNat = 0 := by omega
    have h4 : e.toNat = 0 := by omega
    have h5 : pack es = 0 := BitVec.eq_of_toNat_eq (by simpa using h3)
    intro x hx
    rcases List.mem_cons.mp hx with rfl | hx
    · exact BitVec.eq_of_toNat_eq (by simpa using h4)
    · exact pack_eq_zero es (by omega) h5 x hx

theorem crcByte_injective (b : Byte) : Function.Injective fun s => crcByte s b := by
  intro s t h
  have := shift_injective.iterate 8 h
  have := congrArg (· ^^^ b.setWidth 32) this
  simpa [BitVec.xor_assoc] using this

theorem fold_injective : ∀ l : List Byte, Function.Injective fun s => l.foldl crcByte s
  | [] => fun _ _ h => h
  | b :: l => fun _ _ h => crcByte_injective b (fold_injective l h)

theorem eq_of_zipWith_zero : ∀ a b : List Byte, a.length = b.length → (∀ e ∈ List.zipWith (· ^^^ ·) a b, e = 0) → a = b
  | [], [], _, _ => rfl
  | x :: a, y :: b, hl, h => by
    have h1 := h (x ^^^ y) (by simp)
    have h2 : x = y := by
      have := congrArg (· ^^^ y) h1
      simpa [BitVec.xor_assoc] using this
    rw [h2, eq_of_zipWith_zero a b (by simpa using hl) fun e he => h e (by simp [he])]

theorem crc32_small_change {x y : List Byte} (h : Spec.SmallChange x y) : crc32 x ≠ crc32 y := by
  obtain ⟨u, a, b, v, rfl, rfl, hl, h4, hne⟩ := h
  intro he
  unfold crc32 at he
  have h1 := congrArg (· ^^^ 0xFFFFFFFF#32) he
  simp only [BitVec.xor_assoc, BitVec.xor_self, BitVec.xor_zero, List.foldl_append] at h1
  have h2 := fold_injective v h1
  have h3 := fold_xor a b (u.foldl crcByte 0xFFFFFFFF#32) (u.foldl crcByte 0xFFFFFFFF#32) hl
  have hz : (List.zipWith (· ^^^ ·) a b).length ≤ 4 := by rw [List.length_zipWith]; omega
  rw [h2, BitVec.xor_self, BitVec.xor_self] at h3
  exact hne (eq_of_zipWith_zero a b hl (pack_eq_zero _ hz (fold_zero _ _ hz h3.symm).symm))

/-! ## Lemmas: the text -/

theorem hex8_length (c : BitVec 32) : (hex8 c).length = 8 := by simp [hex8]

theorem hexDigit_inj : ∀ i < 16, ∀ j < 16, hexDigit i = hexDigit j → i = j := by decide

theorem hexDigit_mod (d : ℕ) : hexDigit d = hexDigit (d % 16) := by simp [hexDigit]

theorem hex8_injective : Function.Injective hex8 := by
  intro c d h
  have hd : ∀ i < 8, c.toNat / 16 ^ (7 - i) % 16 = d.toNat / 16 ^ (7 - i) % 16 := by
    intro i hi
    have h1 := congrArg (·[i]?) h
    simp only [hex8, List.getElem?_map, List.getElem?_range hi, Option.map_some, Option.some.injEq] at h1
    rw [hexDigit_mod, hexDigit_mod (d.toNat / _)] at h1
    exact hexDigit_inj _ (Nat.mod_lt _ (by norm_num)) _ (Nat.mod_lt _ (by norm_num)) h1
  have h0 := hd 0 (by norm_num)
  have h1 := hd 1 (by norm_num)
  have h2 := hd 2 (by norm_num)
  have h3 := hd 3 (by norm_num)
  have h4 := hd 4 (by norm_num)
  have h5 := hd 5 (by norm_num)
  have h6 := hd 6 (by norm_num)
  have h7 := hd 7 (by norm_num)
  apply BitVec.eq_of_toNat_eq
  have := c.isLt
  have := d.isLt
  norm_num at h0 h1 h2 h3 h4 h5 h6 h7
  omega

/-- The text of an identifier. -/
theorem id_text (w : World Argv) (pre : Option (List Char)) (argv : Argv) (hg : w.underGit = true) :
    generateExpId w pre argv = .ok ((match pre with | none => [] | some p => p ++ ['-']) ++ w.head ++ ['-'] ++ hex8 (crc32 w.diff) ++ ['-'] ++ hex8 (crc32 (w.pickle argv))) := by
  unfold generateExpId
  rw [if_neg (by simp [hg])]
  cases pre <;> simp [List.intercalate, List.intersperse]

/-! ## C125 -/

/-- **C125, what an identifier stands for.** Two identifiers are equal exactly if the prefixes, the commits, and the
checksums of the changes and of the command lines are. -/
theorem exp_id_components_partial (w w' : World Argv) (hg : w.underGit = true) (hg' : w'.underGit = true) (hh : w.head.length = w'.head.length)
    (pre pre' : Option (List Char)) (argv argv' : Argv) :
    generateExpId w pre argv = generateExpId w' pre' argv' ↔
      pre = pre' ∧ w.head = w'.head ∧ crc32 w.diff = crc32 w'.diff ∧ crc32 (w.pickle argv) = crc32 (w'.pickle argv') := by
  rw [id_text w pre argv hg, id_text w' pre' argv' hg', Except.ok.injEq]
  constructor
  · intro h
    obtain ⟨h, h1⟩ := List.append_inj' h (by simp [hex8_length])
    obtain ⟨h, -⟩ := List.append_inj' h rfl
    obtain ⟨h, h2⟩ := List.append_inj' h (by simp [hex8_length])
    obtain ⟨h, -⟩ := List.append_inj' h rfl
    obtain ⟨h, h3⟩ := List.append_inj' h hh
    refine ⟨?_, h3, hex8_injective h2, hex8_injective h1⟩
    cases pre <;> cases pre'
    · rfl
    · simp at h
    · simp at h
    · rw [List.append_inj_left' h rfl]
  · rintro ⟨rfl, h1, h2, h3⟩
    rw [h1, h2, h3]

/-- **C125, small changes are told apart.** If the uncommitted changes, or the command lines, differ within four
consecutive bytes, the identifiers differ, whatever the rest is. -/
theorem exp_id_small_change (w w' : World Argv) (hg : w.underGit = true) (hg' : w'.underGit = true) (hh : w.head.length = w'.head.length)
    (pre pre' : Option (List Char)) (argv argv' : Argv)
    (h : Spec.SmallChange w.diff w'.diff ∨ Spec.SmallChange (w.pickle argv) (w'.pickle argv')) :
    generateExpId w pre argv ≠ generateExpId w' pre' argv' := by
  intro he
  obtain ⟨-, -, h1, h2⟩ := (exp_id_components_partial w w' hg hg' hh pre pre' argv argv').mp he
  rcases h with h | h
  · exact crc32_small_change h h1
  · exact crc32_small_change h h2

/-- **C125, a directory name.** Without a prefix an identifier consists of hexadecimal digits and dashes. -/
theorem exp_id_characters (w : World Argv) (hg : w.underGit = true) (argv : Argv) (hex : List Char) (hhex : hex = "0123456789abcdef".toList)
    (hh : ∀ c ∈ w.head, c ∈ hex) : ∃ t, generateExpId w none argv = .ok t ∧ ∀ c ∈ t, c ∈ '-' :: hex := by
  refine ⟨_, id_text w none argv hg, ?_⟩
  have h8 : ∀ d : BitVec 32, ∀ c ∈ hex8 d, c ∈ hex := by
    intro d c hc
    obtain ⟨i, _, rfl⟩ := List.mem_map.mp hc
    have : ∀ j < 16, hexDigit j ∈ "0123456789abcdef".toList := by decide
    rw [hexDigit_mod, hhex]
    exact this _ (Nat.mod_lt _ (by norm_num))
  intro c hc
  simp only [List.nil_append, List.mem_append, List.mem_singleton] at hc
  rcases hc with (((hc | rfl) | hc) | rfl) | hc
  · exact List.mem_cons_of_mem _ (hh c hc)
  · exact List.mem_cons_self
  · exact List.mem_cons_of_mem _ (h8 _ c hc)
  · exact List.mem_cons_self
  · exact List.mem_cons_of_mem _ (h8 _ c hc)

/-- **C125, identifiers are not unique.** Two different states of the code can have the same identifier. -/
theorem exp_id_collision (w : World Argv) (pre : Option (List Char)) (argv : Argv) :
    ∃ d d' : List Byte, d ≠ d' ∧ generateExpId { w with diff := d } pre argv = generateExpId { w with diff := d' } pre argv := by
  have : Fintype.card (Fin (2 ^ 32)) < Fintype.card (Fin 5 → Fin (2 ^ 8)) := by
    rw [Fintype.card_fun, Fintype.card_fin, Fintype.card_fin, Fintype.card_fin]
    norm_num
  obtain ⟨f, g, hne, h⟩ := Fintype.exists_ne_map_eq_of_card_lt (fun f : Fin 5 → Fin (2 ^ 8) => (crc32 (List.ofFn fun i => BitVec.ofFin (f i))).toFin) this
  have h1 := congrArg BitVec.ofFin h
  simp only [BitVec.ofFin_toFin] at h1
  refine ⟨List.ofFn fun i => BitVec.ofFin (f i), List.ofFn fun i => BitVec.ofFin (g i), fun h => hne ?_, ?_⟩
  · funext i
    exact congrArg BitVec.toFin (congrFun (List.ofFn_injective h) i)
  · simp only [generateExpId, List.map_cons, h1]

/-- **C125, `argv` is not part of it.** `prepare_output_dir` takes the same directory for all values of its parameter
`argv`, although `command.txt` tells them apart. -/
theorem directory_ignores_argv (w : World Argv) (expId : Option (List Char)) (timestamp : List Char) (a b : Argv) (hab : a ≠ b) :
    directoryId w expId (some a) timestamp = directoryId w expId (some b) timestamp ∧ command w (some a) ≠ command w (some b) :=
  ⟨rfl, hab⟩

/-! ## Non-vacuity -/

/-- The check value of CRC-32: the checksum of `123456789`. -/
example : crc32 [0x31, 0x32, 0x33, 0x34, 0x35, 0x36, 0x37, 0x38, 0x39] = 0xCBF43926#32 := by decide +kernel

/-- Command lines as byte strings. -/
def exampleWorld : World (List Byte) := ⟨true, "0123".toList, [1, 2, 3], [7], fun a => 0x80 :: a⟩

/-- An identifier. -/
example : generateExpId exampleWorld (some "dqn".toList) [5] = .ok "dqn-0123-55bc801d-0a307e3b".toList := by rfl

example : Spec.SmallChange (exampleWorld.pickle [5, 6]) (exampleWorld.pickle [5, 9]) :=
  ⟨[0x80, 5], [6], [9], [], rfl, rfl, rfl, by decide, by decide⟩

end Pfrl.Files.ExpId
