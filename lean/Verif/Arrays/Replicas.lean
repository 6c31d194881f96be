import Verif.Arrays.Fragments

/-!
# Model of replica slices

Models `/repo/checkpoint/orbax/checkpoint/_src/serialization/replica_slices.py:77-389` and
`/repo/checkpoint/orbax/checkpoint/_src/arrays/fragments.py:65-69, 635-651`: which part of an array every process writes.
Each process sees its addressable shards.  Exceptions are `none`.  Left out: dtypes (only the item size), the
metrics recorded by process 0, and the copy of the slices to the host (`transfer_arrays_to_host`), which
replaces every slice by `data()`.
-/

namespace Verif.Arrays.Replicas

open Slices

/-- `jax.Shard`: `index`, `replica_id` and `data`. -/
structure Shard (β : Type) where
  index : List Slice
  replica : Nat
  data : Nd β

/-- `SliceArgs`, replica_slices.py:38-50. -/
structure SliceArgs where
  start : Nat
  limit : Nat
  axis : Nat
deriving DecidableEq, Repr

/-- `ReplicaSlice`, replica_slices.py:53-80. -/
structure RSlice (β : Type) where
  index : List Slice
  unsliced : Nd β
  args : Option SliceArgs

/-- The index `jax.lax.slice_in_dim` selects. -/
def dimIndex (shape : List Nat) (a : SliceArgs) : List Tri :=
  (shape.map fun (n : Nat) => (⟨0, n, 1⟩ : Tri)).set a.axis ⟨a.start, a.limit, 1⟩

/-- `ReplicaSlice.data`, replica_slices.py:86-110. -/
def RSlice.data {β} (r : RSlice β) : Option (Nd β) :=
  match r.args with
  | none => some r.unsliced
  | some a =>
    match r.unsliced.shape[a.axis]? with
    | none => none
    | some n => if a.start ≤ a.limit ∧ a.limit ≤ n then r.unsliced.slice (dimIndex r.unsliced.shape a) else none

/-- `ReplicaSlices`, replica_slices.py:113-134. -/
structure RSlices (β : Type) where
  globalShape : List Nat
  localShape : List Nat
  slices : List (RSlice β)

/-- `ReplicaSlices.nbytes`, replica_slices.py:136-153; `none`: `IndexError`. -/
def RSlices.nbytes {β} (r : RSlices β) (itemsize : Nat) : Option Nat := do
  let sizes ← r.slices.mapM fun s => match s.args with
    | none => some (r.localShape.foldr (· * ·) 1 * itemsize)
    | some a => if a.axis < r.localShape.length then some ((r.localShape.set a.axis (a.limit - a.start)).foldr (· * ·) 1 * itemsize)
      else none
  return sizes.sum

/-- The index of the fragment, numpy_utils.resolve_slice and fragments.py:65-69. -/
def npIndex (idx : List Slice) (shape : List Nat) : Option (List Tri) := do
  let r ← resolve (idx.map .slice) shape
  let l ← r.mapM intTuple
  return l.map fun (a, b, c) => ⟨a, b, c⟩

/-- One fragment, replica_slices.py:162-167. -/
def fragOf {β} (shape : List Nat) (s : RSlice β) : Option (Frag β) := do
  let idx ← npIndex s.index shape
  let v ← s.data
  return ({ index := idx, value := some v } : Frag β)

/-- `ReplicaSlices.to_fragments`, replica_slices.py:155-177, with `validate_fragments_can_be_stacked`,
fragments.py:635-651. -/
def RSlices.toFragments {β} (r : RSlices β) : Option (Frags β) := do
  let l ← r.slices.mapM (fragOf r.globalShape)
  match l with
  | [] => some ⟨r.globalShape, l⟩
  | f :: _ =>
    if l.any fun g => g.value.map (·.shape) != f.value.map (·.shape) then none
    else if !(l.all Frag.degenerate) && r.localShape.map Int.ofNat != f.shape then none
    else some ⟨r.globalShape, l⟩

/-- `_sharding_num_replicas`, replica_slices.py:180-215: how many devices hold each part. -/
def numReplicas (deviceIndices : List (List Slice)) (shape : List Nat) : Option Nat := do
  let keys ← deviceIndices.mapM fun idx => toHashable (idx.map .slice) shape
  match keys with
  | [] => none
  | k :: _ => if keys.all fun k' => keys.count k' == keys.count k then some (keys.count k) else none

/-- What `calculate_replica_parallel_axis_and_local_shape` returns when parallel writing applies. -/
structure Plan where
  axis : Nat
  localShape : List Nat
  count : Nat
deriving DecidableEq, Repr

/-- The number of replicas that write, replica_slices.py:222-224. -/
def replicaCount (replicas : Nat) (maxReplicas : Option Int) : Int :=
  match maxReplicas with
  | none => replicas
  | some m => min (replicas : Int) m

/-- The rest of `calculate_replica_parallel_axis_and_local_shape`, replica_slices.py:224-243, for the shape of
the first shard and the number of replicas. -/
def planOf (shardShape : List Nat) (replicas : Nat) (maxReplicas : Option Int) : Option Plan :=
  let count := replicaCount replicas maxReplicas
  if shardShape.foldr (· * ·) 1 = 0 ∨ count ≤ 1 then none
  else match shardShape.findIdx? fun n => n % count.toNat == 0 with
    | none => none
    | some axis => some ⟨axis, shardShape.modify axis (· / count.toNat), count.toNat⟩

/-- The configuration of a save. -/
structure Cfg where
  replicaId : Option Nat
  parallel : Bool
  minBytes : Option Nat
  maxReplicas : Option Int
  itemsize : Nat
  /-- `arr.sharding.memory_kind == 'pinned_host'` -/
  pinned : Bool

/-- `is_safe_to_slice`, replica_slices.py:349-354. -/
def Cfg.safe (c : Cfg) (globalShape shardShape : List Nat) : Bool :=
  !c.pinned || (decide (2 ≤ globalShape.length) && shardShape.foldr (· * ·) 1 % 1024 == 0
    && (shardShape.getLast?.getD 0) % 128 == 0)

/-- `pick_single_replica`, replica_slices.py:280-292. -/
def pickSingle {β} (shards : List (Shard β)) (shard0 : Shard β) (replicaId : Option Nat) : List (RSlice β) :=
  (shards.filter fun s => s.replica == replicaId.getD shard0.replica).map fun s => ⟨s.index, s.data, none⟩

/-- The slice one shard contributes, replica_slices.py:319-340; `some none`: skipped; `none`: assertion. -/
def parallelSlice {β} (p : Plan) (shard0 s : Shard β) : Option (Option (RSlice β)) :=
  if s.data.shape ≠ shard0.data.shape then none
  else if s.replica ≥ p.count then some none
  else
    match p.localShape[p.axis]?, s.index[p.axis]?, s.data.shape[p.axis]? with
    | some size, some slize, some n =>
      let start := slize.start.getD 0
      if slize.step ≠ none then none
      else if ¬ (slize.stop = none ∨ slize.stop = some (start + n)) then none
      else
        let startOffset := s.replica * size
        let endOffset := startOffset + size
        some (some ⟨s.index.set p.axis ⟨some (start + startOffset), some (start + endOffset), none⟩, s.data,
          some ⟨startOffset, endOffset, p.axis⟩⟩)
    | _, _, _ => none

/-- The loop of `maybe_pick_replica_parallel`, replica_slices.py:317-340. -/
def pickParallel {β} (p : Plan) (shard0 : Shard β) (shards : List (Shard β)) : Option (List (RSlice β)) := do
  let l ← shards.mapM (parallelSlice p shard0)
  return l.filterMap id

/-- `get_replica_slices`, replica_slices.py:246-389, of a process with the given addressable shards. -/
def getReplicaSlices {β} (c : Cfg) (globalShape : List Nat) (deviceIndices : List (List Slice)) (shards : List (Shard β)) :
    Option (RSlices β) :=
  match shards with
  | [] => none
  | shard0 :: _ =>
    let single : RSlices β := ⟨globalShape, shard0.data.shape, pickSingle shards shard0 c.replicaId⟩
    if c.parallel && c.safe globalShape shard0.data.shape then
      if c.replicaId = none then none
      else match numReplicas deviceIndices globalShape with
        | none => none
        | some replicas =>
          match planOf shard0.data.shape replicas c.maxReplicas with
          | none => some single
          | some p =>
            if p.localShape.foldr (· * ·) 1 * c.itemsize < c.minBytes.getD 0 then some single
            else (pickParallel p shard0 shards).map fun l => ⟨globalShape, p.localShape, l⟩
    else some single

/-- What one process writes: its slices as fragments. -/
def written {β} (c : Cfg) (globalShape : List Nat) (deviceIndices : List (List Slice)) (shards : List (Shard β)) :
    Option (Frags β) :=
  (getReplicaSlices c globalShape deviceIndices shards).bind RSlices.toFragments

end Verif.Arrays.Replicas
