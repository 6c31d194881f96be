import Verif.Arrays.Replicas
import Verif.Arrays.ChunkShape

/-!
# Model of writing an array to storage in chunks and reading it back under another sharding

Models `/repo/checkpoint/orbax/checkpoint/_src/serialization/serialization.py:127-207, 210-455`,
`/repo/checkpoint/orbax/checkpoint/_src/serialization/tensorstore_utils.py:377-446, 549-650`,
`/repo/checkpoint/orbax/checkpoint/_src/serialization/ocdbt_utils.py:141-217` (one array) and
`/repo/checkpoint/orbax/checkpoint/_src/serialization/jax_array_handlers.py:955-1076` (one array that is not a
random key).

TensorStore is modelled by what it stores: one value per chunk of a regular grid (the `zarr` drivers), in the
database of the checkpoint, or with OCDBT in one database per process, copied together afterwards.  Writing
part of a chunk reads the chunk and writes it back later, and nothing makes the two steps atomic: a schedule
is any list of such steps.  Casts are functions on elements: `w` when saving, `r` when restoring.
Left out: compression and codecs, layouts, memory kinds, caches, the byte limiter (C30) beyond the number of
bytes reserved, and logging.  Exceptions are `none`.
-/

namespace Verif.Arrays.Zarr

open Slices Replicas

/-! ### TensorStore -/

/-- The contents of a chunk: an element for every position inside the chunk. -/
abbrev Chunk (σ : Type) := List Int → σ

/-- The chunks of one array in a database, by their place in the grid; `none`: never written. -/
abbrev Kv (σ : Type) := List Int → Option (Chunk σ)

/-- The chunk a position belongs to, for chunks of shape `c` (`chunk_grid`, tensorstore_utils.py:392-409). -/
def chunkKey (c : List Nat) (i : List Int) : List Int := List.zipWith (fun x (d : Nat) => x / (d : Int)) i c

/-- The position inside its chunk. -/
def chunkOff (c : List Nat) (i : List Int) : List Int := List.zipWith (fun x (d : Nat) => x % (d : Int)) i c

/-- The position in the array of a position inside a chunk. -/
def chunkPos : List Nat → List Int → List Int → List Int
  | d :: c, k :: ks, o :: os => (k * d + o) :: chunkPos c ks os
  | _, _, _ => []

/-- The chunks that a region touches. -/
def touched (c : List Nat) (idx : List Tri) : List (List Int) :=
  product (List.zipWith (fun t (d : Nat) =>
    if t.start < t.stop then pyRange (t.start / d) ((t.stop - 1) / d + 1) 1 else []) idx c)

/-- The part of a `write_fragment` (serialization.py:187-199) that concerns one chunk. -/
structure Op (β : Type) where
  frag : Frag β
  chunk : List Nat
  key : List Int

/-- The new contents of the chunk, from those read before.  Elements that were never written have the fill
value. -/
def overlay {β σ : Type} (w : β → σ) (fill : σ) (shape : List Nat) (op : Op β) (old : Option (Chunk σ)) : Chunk σ := fun o =>
  match axes op.frag.index shape, op.frag.value with
  | some ax, some v =>
    if isSelected ax (chunkPos op.chunk op.key o) then w (v.at_ (toSlice ax (chunkPos op.chunk op.key o)))
    else (old.map fun ch => ch o).getD fill
  | _, _ => (old.map fun ch => ch o).getD fill

/-- One step of TensorStore for an operation: reading its chunk, or writing it back. -/
inductive Ev | load (j : Nat) | store (j : Nat)
deriving DecidableEq, Repr

/-- The database, and what every operation has read. -/
structure WSt (σ : Type) where
  kv : Kv σ
  snap : Nat → Option (Chunk σ)

/-- One step. -/
def step {β σ : Type} (w : β → σ) (fill : σ) (shape : List Nat) (ops : List (Op β)) (st : WSt σ) : Ev → WSt σ
  | .load j => match ops[j]? with
    | none => st
    | some op => { st with snap := fun j' => if j' = j then st.kv op.key else st.snap j' }
  | .store j => match ops[j]? with
    | none => st
    | some op => { st with kv := fun k => if k = op.key then some (overlay w fill shape op (st.snap j)) else st.kv k }

/-- The database after a schedule, starting with an empty one. -/
def run {β σ : Type} (w : β → σ) (fill : σ) (shape : List Nat) (ops : List (Op β)) (evs : List Ev) : Kv σ :=
  (evs.foldl (step w fill shape ops) ⟨fun _ => none, fun _ => none⟩).kv

/-! ### Saving -/

/-- The settings of a save. -/
structure SCfg where
  rep : Cfg
  /-- item size of `target_storage_dtype` -/
  stored : Nat
  /-- `SaveArgs.chunk_byte_size` -/
  chunkBytes : Option Nat
  /-- `SaveArgs.shard_axes` -/
  shardAxes : List Int
  ocdbt : Bool
  /-- `ocdbt_target_data_file_size` (or its default); a negative one is refused and left out -/
  fileSize : Nat

/-- `calculate_chunk_byte_size`, tensorstore_utils.py:418-446, and its use, tensorstore_utils.py:597-613. -/
def chunkBytesFor (c : SCfg) (writeShape : List Nat) : Option Nat :=
  if c.ocdbt then
    if c.fileSize = 0 then c.chunkBytes
    else match c.chunkBytes with
      | none => if writeShape.foldr (· * ·) 1 * c.stored > c.fileSize then some c.fileSize else none
      | some b => some (min b c.fileSize)
  else c.chunkBytes

/-- What one process does for the array: the chunk shape of its spec, and its operations. -/
structure Job (β : Type) where
  chunk : List Nat
  ops : List (Op β)

/-- The operations of one process, serialization.py:187-207, for the chunk shape of its spec,
tensorstore_utils.py:615-621. -/
def opsOf {β : Type} (c : List Nat) (fs : List (Frag β)) : List (Op β) :=
  fs.flatMap fun f => (touched c f.index).map fun k => ⟨f, c, k⟩

/-- `_async_serialize_replica_slices` for one array, jax_array_handlers.py:803-858, and
`async_serialize_from_host`, serialization.py:127-207. -/
def job {β : Type} (c : SCfg) (fuel : Nat) (globalShape : List Nat) (devs : List (List Slice)) (shards : List (Shard β)) :
    Option (Job β) :=
  (getReplicaSlices c.rep globalShape devs shards).bind fun sl =>
    match ChunkShape.choose fuel globalShape sl.localShape c.stored (chunkBytesFor c sl.localShape) c.shardAxes with
    | .ok ch => sl.toFragments.map fun fs => ⟨ch, opsOf ch fs.fragments⟩
    | _ => none

/-- An array in storage: the metadata and the chunks. -/
structure Stored (σ : Type) where
  shape : List Nat
  chunk : List Nat
  kv : Kv σ

/-- Without OCDBT all processes write to the same place; the primary host writes the metadata,
serialization.py:166-173. -/
def saveDirect {β σ : Type} (w : β → σ) (fill : σ) (shape : List Nat) (jobs : List (Job β)) (primary : Nat) (evs : List Ev) :
    Option (Stored σ) :=
  (jobs[primary]?).map fun j => ⟨shape, j.chunk, run w fill shape (jobs.flatMap fun j => j.ops) evs⟩

/-- Copying databases into one, in some order: a later copy replaces an earlier one of the same key. -/
def merge {σ : Type} (l : List (Kv σ)) : Kv σ := fun k =>
  l.foldl (fun acc kv => match kv k with | some ch => some ch | none => acc) none

/-- With OCDBT every process writes to its own database, and the databases are copied together,
ocdbt_utils.py:169-205; each comes with its schedule, and they are listed in the order of copying. -/
def saveOcdbt {β σ : Type} (w : β → σ) (fill : σ) (shape : List Nat) (jobs : List (Job β)) (primary : Nat)
    (dirs : List (Job β × List Ev)) : Option (Stored σ) :=
  (jobs[primary]?).map fun j => ⟨shape, j.chunk, merge (dirs.map fun d => run w fill shape d.1.ops d.2)⟩

/-! ### Restoring -/

/-- A `ts.IndexDomain`: lower bound and exclusive upper bound of every axis. -/
abbrev Dom := List (Int × Int)

/-- `IndexDomain.intersect`: ranks must agree; disjoint intervals give an empty one. -/
def Dom.intersect : Dom → Dom → Option Dom
  | [], [] => some []
  | (a, b) :: d, (a', b') :: d' => (Dom.intersect d d').map fun r => (max a a', max (min b b') (max a a')) :: r
  | _, _ => none

/-- Whether restricting a view with the first domain to the second is possible. -/
def Dom.contains : Dom → Dom → Bool
  | [], [] => true
  | (a, b) :: d, (a', b') :: d' => (decide (b' ≤ a') || (decide (a ≤ a') && decide (b' ≤ b))) && Dom.contains d d'
  | _, _ => false

/-- Whether a position belongs to the domain. -/
def Dom.has : Dom → List Int → Bool
  | [], [] => true
  | (a, b) :: d, x :: i => (decide (a ≤ x) && decide (x < b)) && Dom.has d i
  | _, _ => false

def Dom.ofShape (shape : List Nat) : Dom := shape.map fun (n : Nat) => ((0 : Int), (n : Int))

/-- A position relative to an origin, and back. -/
def translate (origin o : List Int) : List Int := List.zipWith (· + ·) o origin

/-- The positions of a domain. -/
def Dom.positions (d : Dom) : List (List Int) :=
  (Verif.Arrays.positions (d.map fun p => (p.2 - p.1).toNat)).map (translate (d.map (·.1)))

/-- How an array is opened for reading, tensorstore_utils.py:504-541: whether missing chunks are an error
(`raise_array_data_missing_error`), the fill value, the cast to `target_dtype`, and zero in that type. -/
structure RCfg (σ γ : Type) where
  raiseMissing : Bool
  fill : σ
  r : σ → γ
  zero : γ

/-- `t[domain].read()`. -/
def readDom {σ γ : Type} (c : RCfg σ γ) (t : Stored σ) (dom : Dom) : Option (List Int → γ) :=
  if !(Dom.contains (Dom.ofShape t.shape) dom) then none
  else if c.raiseMissing && !(dom.positions.all fun i => (t.kv (chunkKey t.chunk i)).isSome) then none
  else some fun i => c.r (((t.kv (chunkKey t.chunk i)).map fun ch => ch (chunkOff t.chunk i)).getD c.fill)

/-- The domain of the buffer, moved to the origin of the requested domain, serialization.py:261. -/
def bufferDom : Dom → List Nat → Option Dom
  | [], [] => some []
  | (a, _) :: d, n :: ns => (bufferDom d ns).map fun r => (a, a + (n : Int)) :: r
  | _, _ => none

/-- `_read_shard`, serialization.py:247-269.  The cast at the end is to the type `t` is opened with. -/
def readShard {σ γ : Type} (c : RCfg σ γ) (t : Stored σ) (shardShape : List Nat) (requested restricted : Dom) : Option (Nd γ) :=
  (bufferDom requested shardShape).bind fun out =>
    if !(Dom.contains out restricted) then none
    else (readDom c t restricted).map fun f =>
      ⟨shardShape, fun o => if Dom.has restricted (translate (requested.map (·.1)) o)
        then f (translate (requested.map (·.1)) o) else c.zero⟩

/-- The domain of an index of concrete slices. -/
def domOf (idx : List Slice) : Option Dom := idx.mapM fun s => s.start.bind fun a => s.stop.map fun b => (a, b)

/-- `_read_array_index_and_device_put`, serialization.py:272-335, up to the copy to the devices. -/
def readIndex {σ γ : Type} (c : RCfg σ γ) (t : Stored σ) (g shardShape : List Nat) (strict : Bool) (idx : List Slice) :
    Option (Nd γ) :=
  if idx.any fun s => s.step != none && s.step != some 1 then none
  else (domOf idx).bind fun dom =>
    if !(Dom.contains (Dom.ofShape g) dom) then none
    else if strict then
      if t.shape = g then readShard c t shardShape dom dom else none
    else (Dom.intersect (Dom.ofShape t.shape) dom).bind fun restricted => readShard c t shardShape dom restricted

/-- `devices_indices_map` entries with the same part are grouped, serialization.py:356-364. -/
def addDevice (k : List (Int × Int × Int)) (d : Nat) : List (List (Int × Int × Int) × List Nat) → List (List (Int × Int × Int) × List Nat)
  | [] => [(k, [d])]
  | (k', ds) :: l => if k' = k then (k', ds ++ [d]) :: l else (k', ds) :: addDevice k d l

/-- The loop, serialization.py:359-364. -/
def groupDevices (g : List Nat) (addressable : Nat → Bool) :
    List (Nat × List Slice) → List (List (Int × Int × Int) × List Nat) → Option (List (List (Int × Int × Int) × List Nat))
  | [], acc => some acc
  | (d, idx) :: l, acc =>
    if addressable d then
      (toHashable (idx.map .slice) g).bind fun k => groupDevices g addressable l (addDevice k d acc)
    else groupDevices g addressable l acc

/-- A `jax.sharding.Sharding`: `shard_shape` (`none`: the shape cannot be split so) and `devices_indices_map`,
for every shape. -/
structure Sharding where
  shardShape : List Nat → Option (List Nat)
  devices : List Nat → List (Nat × List Slice)

/-- The part of a restored array on the devices of one process. -/
structure Restored (γ : Type) where
  shape : List Nat
  shards : List (Nat × Nd γ)

/-- One group: read once and put on every device, serialization.py:366-381 and 329-334. -/
def readGroup {σ γ : Type} (c : RCfg σ γ) (t : Stored σ) (g ss : List Nat) (strict : Bool)
    (p : List (Int × Int × Int) × List Nat) : Option (List (Nat × Nd γ)) :=
  (readIndex c t g ss strict (fromHashable p.1)).map fun v => p.2.map fun d => (d, v)

/-- `_read_and_create_array`, serialization.py:344-391. -/
def readArray {σ γ : Type} (c : RCfg σ γ) (t : Stored σ) (g ss : List Nat) (strict : Bool) (addressable : Nat → Bool)
    (devices : List (Nat × List Slice)) : Option (List (Nat × Nd γ)) :=
  (groupDevices g addressable devices []).bind fun groups => (groups.mapM (readGroup c t g ss strict)).map List.flatten

/-- `async_deserialize`, serialization.py:394-455. -/
def deserialize {σ γ : Type} (c : RCfg σ γ) (t : Stored σ) (sh : Sharding) (globalShape : Option (List Nat)) (strict : Bool)
    (addressable : Nat → Bool) : Option (Restored γ) :=
  (sh.shardShape (globalShape.getD t.shape)).bind fun ss =>
    (readArray c t (globalShape.getD t.shape) ss strict addressable (sh.devices (globalShape.getD t.shape))).map fun l =>
      ⟨globalShape.getD t.shape, l⟩

/-- `ArrayRestoreArgs` (jax_array_restore_args.py:32-83); `array = false`: plain `RestoreArgs`, which have none
of the fields.  `sharding`: a sharding, or metadata whose conversion may fail. -/
structure RArgs where
  array : Bool
  mesh : Option Nat
  meshAxes : Option Nat
  sharding : Option (Option Sharding)
  globalShape : Option (List Nat)
  strict : Bool

/-- `_deserialize_shardings` for one array, jax_array_handlers.py:955-1006.  `named` is `NamedSharding`; `file`
is what the sharding file says, if there is one; a result of `None` is refused in `async_deserialize`,
serialization.py:413-417. -/
def pickSharding (named : Nat → Nat → Sharding) (file : Option (Option Sharding)) (a : RArgs) : Option Sharding :=
  match a.array, a.mesh, a.meshAxes, a.sharding with
  | true, some m, some x, _ => some (named m x)
  | true, _, _, some s => s
  | _, _, _, _ => match file with
    | some s => s
    | none => none

/-- `_deserialize_arrays` for one array, jax_array_handlers.py:1034-1076. -/
def restore {σ γ : Type} (c : RCfg σ γ) (t : Stored σ) (named : Nat → Nat → Sharding) (file : Option (Option Sharding)) (a : RArgs)
    (addressable : Nat → Bool) : Option (Restored γ) :=
  (pickSharding named file a).bind fun sh =>
    deserialize c t sh (if a.array then a.globalShape else none) (if a.array then a.strict else true) addressable

/-- `estimate_read_memory_footprint`, serialization.py:214-244, of a chunked array whose grid starts at 0.
`itemsize` is that of the type the array is opened with. -/
def footprint (itemsize : Nat) : List Nat → Dom → Int
  | d :: c, (a, b) :: dom => footprint itemsize c dom * (-(-b / (d : Int)) * d - a / (d : Int) * d)
  | _, _ => itemsize

end Verif.Arrays.Zarr
