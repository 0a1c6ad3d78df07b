import Verif.Queue.Model
import Verif.Sample.Model

/-!
# Model of `pfrl/collections/persistent_collections.py`

One directory with its meta file and its chunk files.  Everything the process does to the disk is a
list of *effects* in program order; one effect writes one byte, so a crash of the process at any
moment, torn writes included, leaves a prefix of that list on disk.  (Loss of data the operating
system had already accepted, i.e. a power failure, is not modelled: the code never calls `fsync`.)

`pickle` and `crc32` are parameters (`Codec`); the index format is modelled byte by byte.
-/

namespace Pfrl.Persist

open Queue (RAQ)

abbrev Byte := Fin 256
abbrev Bytes := List Byte

/-! ## The index format -/

/-- One index record, `persistent_collections.py:124-130`; the status field is always 0. -/
structure Entry where
  gen : Nat
  offset : Nat
  length : Nat
  crc : Nat
  deriving DecidableEq, Repr

/-- The byte of value `n % 256`. -/
def byteOf (n : Nat) : Byte := ⟨n % 256, Nat.mod_lt _ (by decide)⟩

/-- Little-endian encoding in `w` bytes. -/
def le : Nat → Nat → Bytes
  | 0, _ => []
  | w + 1, n => byteOf n :: le w (n / 256)

/-- Little-endian decoding. -/
def unle : Bytes → Nat
  | [] => 0
  | b :: bs => b.val + 256 * unle bs

/-- `calcsize("QQQIi")`, `persistent_collections.py:96-97`. -/
def entrySize : Nat := 32

/-- The bytes of an index record (native layout of `"QQQIi"` on a little-endian machine: no
padding is needed). -/
def Entry.bytes (e : Entry) : Bytes :=
  le 8 e.gen ++ (le 8 e.offset ++ (le 8 e.length ++ (le 4 e.crc ++ le 4 0)))

/-- `pack(index_format, gen, offset, length, crc, 0)`, `persistent_collections.py:142`;
`struct.error` when a field is out of range. -/
def pack (e : Entry) : Except PyErr Bytes :=
  if e.gen < 2 ^ 64 ∧ e.offset < 2 ^ 64 ∧ e.length < 2 ^ 64 ∧ e.crc < 2 ^ 32 then .ok e.bytes
  else .error .valueError

/-- `unpack(index_format, buf)`, `persistent_collections.py:38`. -/
def unpack (b : Bytes) : Entry :=
  ⟨unle (b.take 8), unle ((b.drop 8).take 8), unle ((b.drop 16).take 8),
    unle ((b.drop 24).take 4)⟩

/-- `read_chunk_index`, `persistent_collections.py:25-40`: the complete records; the loop stops at
the first short slice.  The first argument bounds the iterations. -/
def parseIndex : Nat → Bytes → List Entry
  | 0, _ => []
  | fuel + 1, b =>
    if (b.take entrySize).length ≠ entrySize then []
    else unpack (b.take entrySize) :: parseIndex fuel (b.drop entrySize)

/-! ## Disk -/

/-- The contents of `meta.pkl` that are ever looked at, `persistent_collections.py:241-249`.
Directories are named by numbers. -/
structure Meta where
  maxlen : Option Int
  commSize : Nat
  ancestor : Option Nat
  deriving DecidableEq, Repr

/-- `pickle` and `binascii.crc32`. -/
structure Codec (α : Type _) where
  dumps : α → Bytes
  loads : Bytes → Except PyErr α
  crc : Bytes → Fin (2 ^ 32)
  metaDumps : Meta → Bytes
  metaLoads : Bytes → Except PyErr Meta

/-- A base directory: `meta.pkl`, whether the sub-directory `rank0` exists, and the files
`chunk.{gen}.idx` and `chunk.{gen}.data` in it.  `bound` is an upper bound of the generation numbers
in use (directories are finite). -/
structure Dir where
  metaFile : Option Bytes
  dataDir : Bool
  idx : Nat → Option Bytes
  dat : Nat → Option Bytes
  bound : Nat

/-- A directory that does not exist yet. -/
def Dir.empty : Dir := ⟨none, false, fun _ => none, fun _ => none, 0⟩

/-- One step the process makes on disk. `…Open` is `open(…, "wb")`: create or truncate. -/
inductive Eff where
  | metaOpen
  | metaByte (b : Byte)
  | mkdir
  | idxOpen (g : Nat)
  | datOpen (g : Nat)
  | datByte (g : Nat) (b : Byte)
  | idxByte (g : Nat) (b : Byte)
  deriving DecidableEq, Repr

/-- Change one file in a family of files. -/
def setFile (f : Nat → Option Bytes) (g : Nat) (v : Option Bytes) : Nat → Option Bytes :=
  fun i => if i = g then v else f i

/-- Effect on the disk. -/
def Dir.apply (d : Dir) : Eff → Dir
  | .metaOpen => { d with metaFile := some [] }
  | .metaByte b => { d with metaFile := d.metaFile.map (· ++ [b]) }
  | .mkdir => { d with dataDir := true }
  | .idxOpen g => { d with idx := setFile d.idx g (some []), bound := max d.bound (g + 1) }
  | .datOpen g => { d with dat := setFile d.dat g (some []), bound := max d.bound (g + 1) }
  | .datByte g b => { d with dat := setFile d.dat g ((d.dat g).map (· ++ [b])) }
  | .idxByte g b => { d with idx := setFile d.idx g ((d.idx g).map (· ++ [b])) }

/-- A sequence of effects. -/
def Dir.applyAll (d : Dir) (effs : List Eff) : Dir := effs.foldl Dir.apply d

/-! ## Reading -/

variable {α : Type _}

/-- The body of the loop of `read_chunk`, `persistent_collections.py:50-57`. -/
def readEntry (cd : Codec α) (cdata : Bytes) (e : Entry) : Except PyErr α :=
  let data := (cdata.drop e.offset).take e.length
  if (cd.crc data).val = e.crc then cd.loads data else .error .assertionError

/-- `read_chunk`, `persistent_collections.py:42-57`.  A missing file raises
(`FileNotFoundError`). -/
def readChunk (cd : Codec α) (d : Dir) (gen : Nat) : Except PyErr (List α) :=
  match d.dat gen, d.idx gen with
  | some cdata, some idata => (parseIndex idata.length idata).mapM (readEntry cd cdata)
  | _, _ => .error .fileNotFound

/-- `_count_all_chunks`, `persistent_collections.py:59-69`; the first argument bounds the
iterations. -/
def countAllChunks (d : Dir) : Nat → Nat → Except PyErr (List (Nat × Nat))
  | 0, _ => .error .timeout
  | fuel + 1, gen =>
    match d.idx gen, d.dat gen with
    | some idata, some _ =>
      match countAllChunks d fuel (gen + 1) with
      | .error e => .error e
      | .ok rest => .ok ((gen, (parseIndex idata.length idata).length) :: rest)
    | _, _ => .ok []

/-- The loop choosing the generations to load, `persistent_collections.py:77-85`. -/
def selectGens (maxlen : Option Int) : Int → List (Nat × Nat) → List Nat
  | _, [] => []
  | remain, (gen, count) :: rest =>
    match maxlen with
    | none => gen :: selectGens maxlen remain rest
    | some _ => if remain > 0 then gen :: selectGens maxlen (remain - count) rest else []

/-- The chosen generations in increasing order, `persistent_collections.py:73-87`. -/
def chooseGens (d : Dir) (maxlen : Option Int) : Except PyErr (List Nat) :=
  match countAllChunks d (d.bound + 1) 0 with
  | .error e => .error e
  | .ok chunks => .ok (selectGens maxlen (maxlen.getD 0) chunks.reverse).reverse

/-- `for gen in gens: buf.extend(obj for obj in self.read_chunk(gen))`,
`persistent_collections.py:88-89`, for a `RandomAccessQueue`. -/
def extendChunks (cd : Codec α) (d : Dir) : List Nat → RAQ α → Except PyErr (RAQ α)
  | [], buf => .ok buf
  | gen :: gens, buf =>
    match readChunk cd d gen with
    | .error e => .error e
    | .ok objs =>
      match buf.extend objs with
      | .error e => .error e
      | .ok buf' => extendChunks cd d gens buf'

/-- `max(gens) + 1 if gens else 0`, `persistent_collections.py:91`. -/
def nextGen (gens : List Nat) : Nat :=
  match gens.max? with
  | none => 0
  | some m => m + 1

/-- `read_chunks`, `persistent_collections.py:71-92`. -/
def readChunks (cd : Codec α) (d : Dir) (maxlen : Option Int) (buf : RAQ α) :
    Except PyErr (Nat × RAQ α) :=
  match chooseGens d maxlen with
  | .error e => .error e
  | .ok gens =>
    match extendChunks cd d gens buf with
    | .error e => .error e
    | .ok buf' => .ok (nextGen gens, buf')

/-! ## Writing -/

/-- `_ChunkWriter`, `persistent_collections.py:99-117`. -/
structure Writer where
  gen : Nat
  offset : Nat
  full : Bool
  deriving DecidableEq, Repr

/-- `_ChunkWriter.__init__`, `persistent_collections.py:99-117`: index file first, then the data
file. -/
def Writer.new (chunksize : Nat) (gen : Nat) : Except PyErr (List Eff × Writer) :=
  if chunksize > 0 then
    .ok ([.idxOpen gen, .datOpen gen], ⟨gen, 0, decide (chunksize < 0)⟩)
  else .error .assertionError

/-- `_ChunkWriter.append`, `persistent_collections.py:122-150`: all data bytes, then all index
bytes. -/
def Writer.append (cd : Codec α) (chunksize : Nat) (w : Writer) (x : α) :
    Except PyErr (List Eff × Writer) :=
  if w.full then .error .runtimeError
  else
    let data := cd.dumps x
    match pack ⟨w.gen, w.offset, data.length, (cd.crc data).val⟩ with
    | .error e => .error e
    | .ok index =>
      let offset := w.offset + data.length
      .ok (data.map (Eff.datByte w.gen) ++ index.map (Eff.idxByte w.gen),
        { w with offset := offset, full := decide (chunksize < offset) })

/-- `PersistentRandomAccessQueue` instance state, `persistent_collections.py:186-213`.
`tail = none` after `close`. -/
structure PQ (α : Type _) where
  info : Meta
  gen : Nat
  tail : Option Writer
  buffer : RAQ α

/-- `_load_meta`, `persistent_collections.py:222-264`. -/
def loadMeta (cd : Codec α) (d : Dir) (ancestor : Option Nat) (maxlen : Option Int) :
    Except PyErr (List Eff × Meta) :=
  match d.metaFile with
  | some bytes =>
    match cd.metaLoads bytes with
    | .error e => .error e
    | .ok m => if m.commSize = 1 then .ok ([], m) else .error .assertionError
  | none =>
    let m : Meta := ⟨maxlen, 1, ancestor⟩
    .ok (.metaOpen :: (cd.metaDumps m).map Eff.metaByte, m)

/-- Reading the existing chunks or creating the data directory,
`persistent_collections.py:202-208`. -/
def loadChunks (cd : Codec α) (d : Dir) (maxlen : Option Int) (buffer : RAQ α) :
    Except PyErr (List Eff × Nat × RAQ α) :=
  if d.dataDir then
    match readChunks cd d maxlen buffer with
    | .error e => .error e
    | .ok (gen, buf) => .ok ([], gen, buf)
  else .ok ([.mkdir], 0, buffer)

/-- `__init__` after the ancestor (if any) has been loaded into `buffer`,
`persistent_collections.py:198-213`. -/
def PQ.openWith (cd : Codec α) (chunksize : Nat) (d : Dir) (ancestor : Option Nat)
    (maxlen : Option Int) (buffer : RAQ α) : Except PyErr (List Eff × PQ α) :=
  match loadMeta cd d ancestor maxlen with
  | .error e => .error e
  | .ok (effs, m) =>
    match loadChunks cd d maxlen buffer with
    | .error e => .error e
    | .ok (effs', gen, buf) =>
      match Writer.new chunksize gen with
      | .error e => .error e
      | .ok (effs'', w) => .ok (effs ++ (effs' ++ effs''), ⟨m, gen + 1, some w, buf⟩)

/-- `maxlen is None or maxlen > 0`, `persistent_collections.py:187`. -/
def validMaxlen : Option Int → Bool
  | none => true
  | some m => decide (m > 0)

/-- `__init__` without an ancestor, `persistent_collections.py:186-213`. -/
def PQ.open (cd : Codec α) (chunksize : Nat) (d : Dir) (maxlen : Option Int) :
    Except PyErr (List Eff × PQ α) :=
  if validMaxlen maxlen then
    match RAQ.new maxlen [] with
    | .error e => .error e
    | .ok buffer => PQ.openWith cd chunksize d none maxlen buffer
  else .error .assertionError

/-- `_append`, `persistent_collections.py:270-279`. -/
def PQ.write (cd : Codec α) (chunksize : Nat) (q : PQ α) (x : α) :
    Except PyErr (List Eff × PQ α) :=
  match q.tail with
  | none => .error .attributeError
  | some w =>
    let rotated : Except PyErr (List Eff × Writer × Nat) :=
      if w.full then
        match Writer.new chunksize q.gen with
        | .error e => .error e
        | .ok (effs, w') => .ok (effs, w', q.gen + 1)
      else .ok ([], w, q.gen)
    match rotated with
    | .error e => .error e
    | .ok (effs, w, gen) =>
      match w.append cd chunksize x with
      | .error e => .error e
      | .ok (effs', w') => .ok (effs ++ effs', { q with gen := gen, tail := some w' })

/-- `append`, `persistent_collections.py:282-284`. -/
def PQ.append (cd : Codec α) (chunksize : Nat) (q : PQ α) (x : α) :
    Except PyErr (List Eff × PQ α) :=
  match q.write cd chunksize x with
  | .error e => .error e
  | .ok (effs, q) =>
    match q.buffer.append x with
    | .error e => .error e
    | .ok buf => .ok (effs, { q with buffer := buf })

/-- `for x in xs: self._append(x)`, `persistent_collections.py:287-288`. -/
def PQ.writeAll (cd : Codec α) (chunksize : Nat) (q : PQ α) : List α →
    Except PyErr (List Eff × PQ α)
  | [] => .ok ([], q)
  | x :: xs =>
    match q.write cd chunksize x with
    | .error e => .error e
    | .ok (effs, q') =>
      match PQ.writeAll cd chunksize q' xs with
      | .error e => .error e
      | .ok (effs', q'') => .ok (effs ++ effs', q'')

/-- `extend`, `persistent_collections.py:286-289`.  `again` is what a second iteration over the
argument yields: the same items for a list, nothing for an iterator. -/
def PQ.extend (cd : Codec α) (chunksize : Nat) (q : PQ α) (xs again : List α) :
    Except PyErr (List Eff × PQ α) :=
  match q.writeAll cd chunksize xs with
  | .error e => .error e
  | .ok (effs, q) =>
    match q.buffer.extend again with
    | .error e => .error e
    | .ok buf => .ok (effs, { q with buffer := buf })

/-- `popleft`, `persistent_collections.py:306-307`: the popped item is not returned. -/
def PQ.popleft (q : PQ α) : Except PyErr (PQ α) :=
  match q.buffer.popleft with
  | .error e => .error e
  | .ok (_, buf) => .ok { q with buffer := buf }

/-- `__getitem__`, `persistent_collections.py:300-301`. -/
def PQ.get (q : PQ α) (i : Int) : Except PyErr α := q.buffer.get i

/-- `__setitem__`, `persistent_collections.py:297-298`. -/
def PQ.set (_ : PQ α) (_ : Int) (_ : α) : Except PyErr (PQ α) := .error .notImplemented

/-- `__len__`, `persistent_collections.py:309-310`. -/
def PQ.len (q : PQ α) : Nat := q.buffer.len

/-- `__iter__`, `persistent_collections.py:291-292`. -/
def PQ.iter (q : PQ α) : List α := q.buffer.iter

/-- `sample`, `persistent_collections.py:303-304`. -/
def PQ.sample (perm : List Nat) (s : Nat → Nat) (fuel : Nat) (q : PQ α) (n : Int) :
    Except PyErr (List α) := Sample.raqSample perm s fuel q.buffer n

/-- `close`, `persistent_collections.py:266-268`; closing writes nothing (every write was
flushed). -/
def PQ.close (q : PQ α) : Except PyErr (PQ α) :=
  match q.tail with
  | none => .error .attributeError
  | some _ => .ok { q with tail := none }

/-- One call of the API: the effects on disk, what the caller observes, and the object afterwards.
An exception of a read-only call is an observation; a failing write ends the run. -/
def PQ.step (cd : Codec α) (chunksize : Nat) (q : PQ α) :
    Queue.Op α → Except PyErr (List Eff × Queue.Res α × PQ α)
  | .append x =>
    match q.append cd chunksize x with
    | .error e => .error e
    | .ok (effs, q') => .ok (effs, .unit, q')
  | .extend xs =>
    match q.extend cd chunksize xs xs with
    | .error e => .error e
    | .ok (effs, q') => .ok (effs, .unit, q')
  | .popleft =>
    match q.popleft with
    | .error e => .ok ([], .raised e, q)
    | .ok q' => .ok ([], .unit, q')
  | .get i =>
    match q.get i with
    | .error e => .ok ([], .raised e, q)
    | .ok x => .ok ([], .item x, q)
  | .set i x =>
    match q.set i x with
    | .error e => .ok ([], .raised e, q)
    | .ok q' => .ok ([], .unit, q')
  | .len => .ok ([], .nat q.len, q)
  | .iter => .ok ([], .items q.iter, q)

/-- A history of calls within one session. -/
def PQ.run (cd : Codec α) (chunksize : Nat) (q : PQ α) :
    List (Queue.Op α) → Except PyErr (List Eff × List (Queue.Res α) × PQ α)
  | [] => .ok ([], [], q)
  | op :: ops =>
    match q.step cd chunksize op with
    | .error e => .error e
    | .ok (effs, out, q') =>
      match PQ.run cd chunksize q' ops with
      | .error e => .error e
      | .ok (effs', outs, q'') => .ok (effs ++ effs', out :: outs, q'')

end Pfrl.Persist
