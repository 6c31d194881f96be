/-!
# Loading Safetensors checkpoints

Models `checkpoint/orbax/checkpoint/experimental/v1/_src/layout/safetensors_layout.py`.  All line
numbers below refer to that file.

Bytes are natural numbers; a file is the list of its bytes.  Conversion between element types
(`astype`, line 714) and the construction of `jax.Array`s are not modelled: what is loaded is the
contents of the shard buffers.  Shard bounds are the pairs made by `_normalize_index` (lines 224-232; see
`Arrays/` for `resolve_slice`).
-/
namespace Verif.Safetensors

abbrev Bytes := List Nat

/-- `len` bytes at `off`, or what there is of them. -/
def slice (file : Bytes) (off len : Nat) : Bytes := (file.drop off).take len

/-! ## Byte runs of a shard -/

/-- `_byte_strides`, lines 235-242: from the last dimension to the first. -/
def byteStrides (shape : List Nat) (itemsize : Nat) : List Nat :=
  (shape.foldr (fun d s => (s.1 * d, s.1 :: s.2)) (itemsize, [])).2

/-- `itertools.product`: the last position varies fastest. -/
def product : List (List Nat) → List (List Nat)
  | [] => [[]]
  | r :: rs => r.flatMap fun x => (product rs).map fun y => x :: y

/-- `full_trailing`, lines 272-277: how many dimensions at the end are taken whole. -/
def fullTrailing (bounds : List (Nat × Nat)) (shape : List Nat) : Nat :=
  ((bounds.zip shape).reverse.takeWhile fun x => decide (x.1 = (0, x.2))).length

/-- The offset of a run, lines 284-287. -/
def runOffset (runBase : Nat) (strides outer : List Nat) : Nat :=
  (outer.zip strides).foldl (fun off x => off + x.1 * x.2) runBase

/-- The runs before they are sorted, lines 269-288. -/
def unsortedRuns (bounds : List (Nat × Nat)) (shape : List Nat) (itemsize base : Nat) :
    List (Nat × Nat) :=
  if shape.length = 0 then [(base, itemsize)]
  else
    let strides := byteStrides shape itemsize
    if fullTrailing bounds shape = shape.length then
      [(base, strides.headD 0 * shape.headD 0)]
    else
      let boundary := shape.length - fullTrailing bounds shape - 1
      let b := (bounds[boundary]?).getD (0, 0)
      let stride := (strides[boundary]?).getD 0
      (product ((bounds.take boundary).map fun x => List.range' x.1 (x.2 - x.1))).map fun outer =>
        (runOffset (base + b.1 * stride) strides outer, (b.2 - b.1) * stride)

/-- The order of pairs of integers in Python. -/
def pairLe (a b : Nat × Nat) : Bool := decide (a.1 < b.1) || (decide (a.1 = b.1) && decide (a.2 ≤ b.2))

/-- `index_domain_to_byte_runs`, lines 245-290. -/
def byteRuns (bounds : List (Nat × Nat)) (shape : List Nat) (itemsize base : Nat) : List (Nat × Nat) :=
  (unsortedRuns bounds shape itemsize base).mergeSort pairLe

/-! ## Coalescing and chunking -/

/-- `_Read`, lines 435-440: a run and the length of the view it is to be copied to. -/
structure Read where
  offset : Nat
  length : Nat
  dstLen : Nat
deriving DecidableEq, Repr

/-- `_CoalescedBlock`, lines 293-298. -/
structure Block where
  start : Nat
  stop : Nat
  members : List Nat
deriving DecidableEq, Repr

/-- The loop of `_partition_runs`, lines 355-380, from its second round on.  `within size needed` is
`size <= max_over_read_ratio * needed`, a comparison of floating-point numbers; `gap` is
`min_coalesce_gap`. -/
def blocksFrom (within : Nat → Nat → Bool) (gap start stop needed : Nat) (members : List Nat) :
    List (Nat × Read) → List Block
  | [] => [⟨start, stop, members⟩]
  | (i, r) :: rest =>
    if r.offset ≤ stop + gap ∨ within (max stop (r.offset + r.length) - start) (needed + r.length) then
      blocksFrom within gap start (max stop (r.offset + r.length)) (needed + r.length)
        (members ++ [i]) rest
    else ⟨start, stop, members⟩ ::
      blocksFrom within gap r.offset (r.offset + r.length) r.length [i] rest

/-- `sorted(enumerate(runs), key=...)`, line 349: a stable sort by offset. -/
def sortedReads (reads : List Read) : List (Nat × Read) :=
  (reads.zipIdx.map fun x => (x.2, x.1)).mergeSort fun a b => decide (a.2.offset ≤ b.2.offset)

/-- `_partition_runs`, lines 301-380 (for an admissible ratio). -/
def partitionRuns (within : Nat → Nat → Bool) (gap : Nat) (reads : List Read) : List Block :=
  match sortedReads reads with
  | [] => []
  | (i, r) :: rest => blocksFrom within gap r.offset (r.offset + r.length) r.length [i] rest

/-- The loop of `_auto_over_read_ratio`, lines 408-414, on the sorted runs: the needed bytes, the number
of reads and the end of the last run. -/
def autoScan (gap : Nat) : List (Nat × Nat) → Nat → Nat → Nat → Nat × Nat × Nat
  | [], needed, numReads, prevEnd => (needed, numReads, prevEnd)
  | (offset, length) :: rest, needed, numReads, prevEnd =>
    autoScan gap rest (needed + length) (if offset > prevEnd + gap then numReads + 1 else numReads)
      (max prevEnd (offset + length))

/-- `_auto_over_read_ratio`, lines 383-418: the ratio as a numerator and a denominator (the quotient is
a floating-point number in the code); `gap` and `maxReads` are the constants of lines 86 and 93. -/
def autoRatio (gap maxReads : Nat) (runs : List (Nat × Nat)) : Nat × Nat :=
  match runs.mergeSort pairLe with
  | [] => (1, 1)
  | first :: rest =>
    let (needed, numReads, prevEnd) := autoScan gap (first :: rest) 0 1 first.1
    if numReads ≤ maxReads then (1, 1)
    else if needed ≤ prevEnd - first.1 then (prevEnd - first.1, needed) else (1, 1)

/-- `new_size <= max_over_read_ratio * new_needed`, line 369, for a ratio given as a fraction (the code
computes with floating-point numbers). -/
def ratioWithin (ratio : Nat × Nat) (size needed : Nat) : Bool := decide (size * ratio.2 ≤ ratio.1 * needed)

/-- The coalescing of `_plan_chunk_reads`, lines 487-494, for an unset `max_over_read_ratio`. -/
def autoBlocks (gap maxReads : Nat) (reads : List Read) : List Block :=
  partitionRuns (ratioWithin (autoRatio gap maxReads (reads.map fun r => (r.offset, r.length)))) gap reads

/-- `_ChunkWrite`, lines 443-448: the view is the bytes `dstLo` to `dstHi` of the view of a read. -/
structure Write where
  member : Nat
  dstLo : Nat
  dstHi : Nat
  start : Nat
  stop : Nat
deriving DecidableEq, Repr

/-- `_ChunkRead`, lines 451-456. -/
structure Chunk where
  offset : Nat
  length : Nat
  writes : List Write
deriving DecidableEq, Repr

/-- `reads[i]`. -/
def readAt (reads : List Read) (i : Nat) : Read := (reads[i]?).getD ⟨0, 0, 0⟩

/-- The copy that a member needs of a chunk, lines 512-522. -/
def writeOf (reads : List Read) (chunkStart chunkEnd i : Nat) : Option Write :=
  let r := readAt reads i
  let lo := max r.offset chunkStart
  let hi := min (r.offset + r.length) chunkEnd
  if lo < hi then some ⟨i, lo - r.offset, hi - r.offset, lo - chunkStart, hi - chunkStart⟩ else none

/-- The loop over the chunks of a block, lines 498-525.  `members` are the ones from `first` on. -/
def chunksFrom (reads : List Read) (blockEnd chunkBytes : Nat) :
    List Nat → List Nat → List Chunk
  | _, [] => []
  | members, chunkStart :: starts =>
    let rest := members.dropWhile fun i =>
      decide ((readAt reads i).offset + (readAt reads i).length ≤ chunkStart)
    let chunkEnd := min (chunkStart + chunkBytes) blockEnd
    let inside := rest.takeWhile fun i => decide ((readAt reads i).offset < chunkEnd)
    ⟨chunkStart, chunkEnd - chunkStart, inside.filterMap (writeOf reads chunkStart chunkEnd)⟩ ::
      chunksFrom reads blockEnd chunkBytes rest starts

/-- `range(start, stop, step)` for a positive step. -/
def stepRange (start stop step : Nat) : List Nat :=
  (List.range ((stop - start + step - 1) / step)).map fun k => start + k * step

/-- `_plan_chunk_reads`, lines 468-532. -/
def planChunks (within : Nat → Nat → Bool) (gap chunkBytes : Nat) (reads : List Read) : List Chunk :=
  (partitionRuns within gap reads).flatMap fun b =>
    chunksFrom reads b.stop chunkBytes b.members (stepRange b.start b.stop chunkBytes)

/-! ## Reading -/

/-- The views: for each read and position the byte written there, if any (buffers are allocated
uninitialised, line 617). -/
abbrev Mem := Nat → Nat → Option Nat

/-- `w.dst[:] = np.frombuffer(src[w.start : w.stop])`, lines 568-569: the lengths must agree, except
that a single byte is written everywhere; otherwise NumPy raises (`none`). -/
def execWrite (reads : List Read) (data : Bytes) (mem : Mem) (w : Write) : Option Mem :=
  let src := slice data w.start (w.stop - w.start)
  let lo := min w.dstLo (readAt reads w.member).dstLen
  let hi := min w.dstHi (readAt reads w.member).dstLen
  if src.length = hi - lo ∨ src.length = 1 then
    some fun i j =>
      if i = w.member ∧ lo ≤ j ∧ j < hi then
        (if src.length = hi - lo then src[j - lo]? else src[0]?)
      else mem i j
  else none

def execWrites (reads : List Read) (data : Bytes) (mem : Mem) : List Write → Option Mem
  | [] => some mem
  | w :: ws =>
    match execWrite reads data mem w with
    | none => none
    | some m => execWrites reads data m ws

/-- `_read_chunk`, lines 535-569, for the chunks in the order in which their reads complete. -/
def execChunks (file : Bytes) (reads : List Read) (mem : Mem) : List Chunk → Option Mem
  | [] => some mem
  | c :: cs =>
    match execWrites reads (slice file c.offset c.length) mem c.writes with
    | none => none
    | some m => execChunks file reads m cs

/-! ## Headers and loading -/

/-- One entry of a header, as far as it is used: lines 140-146, 635, 675. -/
structure Entry where
  shape : List Nat
  itemsize : Nat
  beginOff : Nat
  endOff : Nat
deriving DecidableEq, Repr

abbrev Header := List (String × Entry)

/-- A little-endian number. -/
def fromLE (b : Bytes) : Nat := b.foldr (fun x acc => x + 256 * acc) 0

/-- `_read_header`, lines 149-158: the header without `__metadata__`, and where the data starts.
`parse` is `json.loads` together with the reading of the entries. -/
def readHeader (parse : Bytes → Option Header) (file : Bytes) : Option (Header × Nat) :=
  let sizeBytes := file.take 8
  if sizeBytes = [] then none
  else
    let size := fromLE sizeBytes
    let headerBytes := (file.drop 8).take size
    if headerBytes.length ≠ size then none
    else (parse headerBytes).map fun h => (h, 8 + size)

/-- `_check_file_length`, lines 189-221. -/
def longEnough (file : Bytes) (h : Header) (dataStart : Nat) : Bool :=
  decide (dataStart + (h.map fun e => e.2.endOff).foldl max 0 ≤ file.length)

/-- Reading the header of one file and checking its length, lines 945-948. -/
def openFile (parse : Bytes → Option Header) (file : Bytes) : Option (Header × Nat) :=
  match readHeader parse file with
  | some (h, dataStart) => if longEnough file h dataStart then some (h, dataStart) else none
  | none => none

/-- `_build_file_index`, lines 949-957, on the headers in the order of the files: tensor name to
(number of the file, entry, start of the data); a name in two files is refused. -/
def buildIndex : Nat → List (Header × Nat) → List (String × (Nat × Entry × Nat)) →
    Option (List (String × (Nat × Entry × Nat)))
  | _, [], acc => some acc
  | k, (h, ds) :: rest, acc =>
    if h.any fun e => acc.any fun a => decide (a.1 = e.1) then none
    else buildIndex (k + 1) rest (acc ++ h.map fun e => (e.1, (k, e.2, ds)))

/-- The reads of one shard, lines 692-705. -/
def shardReads (e : Entry) (dataStart : Nat) (bounds : List (Nat × Nat)) : List Read :=
  (byteRuns bounds e.shape e.itemsize (dataStart + e.beginOff)).map fun r => ⟨r.1, r.2, r.2⟩

/-- `_plan_whole_tensor`, lines 622-643: one read, into a buffer of the size given by the shape. -/
def wholeReads (e : Entry) (dataStart : Nat) : List Read :=
  [⟨dataStart + e.beginOff, e.endOff - e.beginOff, e.shape.foldl (· * ·) 1 * e.itemsize⟩]

/-- A view after reading, with 0 for what is uninitialised. -/
def viewOf (mem : Mem) (i : Nat) (r : Read) : Bytes :=
  (List.range r.dstLen).map fun j => (mem i j).getD 0

/-- The buffers of several shards whose reads are numbered consecutively: a shard's buffer is the
concatenation of its views (lines 699-705). -/
def buffersFrom (mem : Mem) : Nat → List (List Read) → List Bytes
  | _, [] => []
  | i, rs :: rest =>
    (rs.zipIdx i).flatMap (fun x => viewOf mem x.2 x.1) :: buffersFrom mem (i + rs.length) rest

/-- `_read_file` and the builders of one file's shards, lines 572-596, 1032-1045. `order` rearranges the
chunks into the order in which their reads complete. -/
def loadFile (within : Nat → Nat → Bool) (gap chunkBytes : Nat) (order : List Chunk → List Chunk)
    (file : Bytes) (shards : List (List Read)) : Option (List Bytes) :=
  (execChunks file shards.flatten (fun _ _ => none)
    (order (planChunks within gap chunkBytes shards.flatten))).map fun mem => buffersFrom mem 0 shards

end Verif.Safetensors
