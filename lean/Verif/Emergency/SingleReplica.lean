import Verif.Emergency.Broadcast

/-!
# Model of restoring by one replica that broadcasts

Models `SingleReplicaArrayHandler.deserialize` with `_single_replica_deserialize_and_broadcast` and
`_validate_sharding_and_get_primary_replica_processes`
(`/repo/checkpoint/orbax/checkpoint/_src/serialization/jax_array_handlers.py:1643-1971`) and the functions of
`/repo/checkpoint/orbax/checkpoint/_src/multihost/multislice.py:35-135,231-289,389-405` they use.

A mesh is a table of devices, one row per replica; a sharding that does not mention the replica axis gives the
devices in one column the same shard, so an array is a shard for every column (position).  Simplifications:
the deprecated `single_replica_sharding` is not given; random keys are requested by their raw shape and type;
all arrays have the same partition of positions; reading gives what is stored.
-/

namespace Verif.Emergency.SingleReplica

open Broadcast

/-- `mesh.devices` with the replica axis first, and the number of axes of the mesh. -/
structure Mesh where
  replicas : Nat
  width : Nat
  dev : Nat → Nat → Nat
  axes : Nat

/-- `jax.devices()` and the process of each device. -/
structure Job where
  devices : List Nat
  owner : Nat → Nat

/-- `arg.sharding`: whether it is a `NamedSharding`, and its mesh. -/
structure Sharding where
  named : Bool
  mesh : Mesh

/-- `SingleReplicaArrayRestoreArgs`, or another kind of argument. -/
structure Arg where
  isSingle : Bool
  sharding : Option Sharding
  shape : Option (List Nat)
  dtype : Option DType

/-- A stored array: its type, its shards, and the implementation if it is a random key. -/
structure Stored (M : Type) where
  dtype : DType
  shard : Nat → M
  impl : Option String

inductive Err
  | wrongArgs | noSharding | assertion | notInMesh | invalidSharding | noShapeOrDtype
deriving DecidableEq, Repr

/-- `replica_count`, `multislice.py:76-82`. -/
def replicaCount (m : Mesh) : Nat := if m.axes = 1 then 1 else m.replicas

/-- `in_replica`, `multislice.py:126-143`. -/
def inReplica (J : Job) (m : Mesh) (q r : Nat) : Bool :=
  (List.range m.width).any fun k => decide (J.owner (m.dev r k) = q)

/-- `local_replica_devices`, `multislice.py:85-106`: the first replica with a device of the process. -/
def localRow (J : Job) (m : Mesh) (q : Nat) : Option Nat :=
  (List.range (replicaCount m)).find? fun r => inReplica J m q r

/-- `get_primary_replica_ids_and_pids`, `multislice.py:389-405`. -/
def primaryIds (m : Mesh) (primary : Nat) : List Nat := (List.range m.width).map fun k => m.dev primary k

def primaryPids (J : Job) (m : Mesh) (primary : Nat) : List Nat := (primaryIds m primary).map J.owner

/-- `_validate_sharding_and_get_primary_replica_processes`, `jax_array_handlers.py:1651-1691`. -/
def validate (J : Job) (primary : Nat) (s : Sharding) : Except Err (List Nat) :=
  if s.named = false then .error .invalidSharding
  else if (primaryIds s.mesh primary).eraseDups.length = J.devices.length then .error .invalidSharding
  else
    let pids := primaryPids J s.mesh primary
    let expected := J.devices.filter fun d => decide (J.owner d ∈ pids)
    if (primaryIds s.mesh primary).all fun d => decide (d ∈ expected) then .ok pids
    else .error .invalidSharding

/-- The loop over the arguments, `jax_array_handlers.py:1898-1909`. -/
def checkArgs : List Arg → Except Err (List Sharding)
  | [] => .ok []
  | a :: l =>
    if a.isSingle = false then .error .wrongArgs
    else
      match a.sharding with
      | none => .error .noSharding
      | some s =>
        match checkArgs l with
        | .error e => .error e
        | .ok ss => .ok (s :: ss)

/-- `_construct_single_replica_sharding` for every argument, `jax_array_handlers.py:1857-1872,1911-1917`: the
row of the process's devices. -/
def singleRows (J : Job) (q : Nat) : List Sharding → Except Err (List Nat)
  | [] => .ok []
  | s :: l =>
    if s.named = false then .error .assertion
    else
      match localRow J s.mesh q with
      | none => .error .notInMesh
      | some r =>
        match singleRows J q l with
        | .error e => .error e
        | .ok rs => .ok (r :: rs)

/-- What a process does before the broadcast. -/
inductive Role
  | reads | zeros
deriving DecidableEq, Repr

/-- `deserialize` on process `q` up to the broadcast, without a dispatcher,
`jax_array_handlers.py:1891-1934,1694-1744`.  `jax.ShapeDtypeStruct` needs a shape and a type. -/
def role (J : Job) (primary q : Nat) (args : List Arg) : Except Err Role :=
  match checkArgs args with
  | .error e => .error e
  | .ok ss =>
    match singleRows J q ss with
    | .error e => .error e
    | .ok _ =>
      match ss with
      | [] => .error .wrongArgs
      | s :: _ =>
        match validate J primary s with
        | .error e => .error e
        | .ok pids =>
          if q ∈ pids then .ok .reads
          else if args.all fun a => a.shape.isSome && a.dtype.isSome then .ok .zeros
          else .error .noShapeOrDtype

/-- `source_device_map` of process `q` for an array with mesh `m`, `multislice.py:263-276`: the shard on the
device, if it is one of the process's devices in the row it read. -/
def sourceOn {M : Type} (J : Job) (m : Mesh) (shard : Nat → M) (q d : Nat) : Option M :=
  match localRow J m q with
  | none => none
  | some r =>
    ((List.range m.width).find? fun k => decide (m.dev r k = d) && decide (J.owner d = q)).map shard

/-- What the device in row `r` and column `k` of the global mesh contributes to the sum,
`multislice.py:277-289`: the data of a source, and zeros otherwise. -/
def contributes {M : Type} (zero : M) (J : Job) (primary : Nat) (g m : Mesh) (shard : Nat → M) (r k : Nat) : M :=
  let d := g.dev r k
  if J.owner d ∈ primaryPids J g primary then (sourceOn J m shard (J.owner d) d).getD zero else zero

/-- What all replicas have in column `k` after the broadcast, `multislice.py:292-307`. -/
def restoredAt {M : Type} (add : M → M → M) (zero : M) (J : Job) (primary : Nat) (g m : Mesh) (shard : Nat → M)
    (k : Nat) : M :=
  ((List.range g.replicas).map fun r => contributes zero J primary g m shard r k).foldl add zero

/-- A restored array: its shards, its type, and the implementation if it is a random key. -/
structure Restored (M : Type) where
  shard : Nat → M
  dtype : DType
  key : Option String

/-- One array without a dispatcher: the type of the sum, and never a random key
(`_deserialize_arrays` gets no array metadata store, `jax_array_handlers.py:1714-1720`). -/
def broadcastOne {M : Type} (add : M → M → M) (zero : M) (J : Job) (primary : Nat) (g : Mesh)
    (x : Mesh × DType × Stored M) : Restored M where
  shard := restoredAt add zero J primary g x.1 x.2.2.shard
  dtype := sumDType x.2.1
  key := none

/-- `broadcast_one_replica_to_all` with the mesh of the first array, `jax_array_handlers.py:1748-1757`. -/
def broadcastAll {M : Type} (add : M → M → M) (zero : M) (J : Job) (primary : Nat) (g : Mesh)
    (size : Mesh × DType × Stored M → Nat) (limit : Int) (l : List (Mesh × DType × Stored M)) : List (Restored M) :=
  (batches size limit l).flatMap fun b => b.map (broadcastOne add zero J primary g)

/-- One array with a dispatcher, `jax_array_handlers.py:1935-1969`: read, put on all devices, and made a random
key if the array metadata says so. -/
def dispatchOne {M : Type} (store : Bool) (x : Mesh × DType × Stored M) : Restored M where
  shard := x.2.2.shard
  dtype := x.2.1
  key := if store then x.2.2.impl else none

end Verif.Emergency.SingleReplica
