import Verif.Assoc

/-!
# Model of memory-budgeted batches

Models `next_memory_budgeted_batch` and its helpers
(`/repo/checkpoint/orbax/checkpoint/_src/serialization/worker_memory_utils.py:85-236`).
An array is modelled by its global shards (device id and replica id) and the number of bytes of one shard
(`np.prod(shard_shape) * itemsize`); a parameter is an array with whatever `info` and `args` go with it.
The map from devices to workers is given; every shard lives on one of the known devices, as in JAX.
-/

namespace Verif.Memory.Batches

open Verif

structure Shard where
  device : Nat
  replica : Nat
deriving DecidableEq, Repr

structure Arr where
  shards : List Shard
  shardBytes : Nat
deriving DecidableEq, Repr

/-- `device_to_worker_ids_map` as a list of devices and a function, the `replica_id` argument, and whether a
dispatcher was given, worker_memory_utils.py:152-183. -/
structure Cfg where
  devices : List Nat
  worker : Nat → Nat
  replicaId : Option Nat
  dispatcher : Bool

/-- The replica the estimates use: with a dispatcher all of them, worker_memory_utils.py:176-183. -/
def Cfg.replica (c : Cfg) : Option Nat := if c.dispatcher then none else c.replicaId

abbrev Usage := List (Nat × Nat)

/-- `_estimate_worker_memory_usage`, worker_memory_utils.py:85-113, a `defaultdict(int)`. -/
def estimateFrom (c : Cfg) (size : Nat) : List Shard → Usage → Usage
  | [], u => u
  | s :: l, u =>
    if c.replica.isSome && c.replica != some s.replica then estimateFrom c size l u
    else
      let w := c.worker s.device
      estimateFrom c size l (Assoc.put u w ((Assoc.get u w).getD 0 + size))

def estimate (c : Cfg) (a : Arr) : Usage := estimateFrom c a.shardBytes a.shards []

/-- `_increment_worker_memory_usage`, worker_memory_utils.py:116-132.  Only the workers that are already in
the dictionary are kept. -/
def increment (c : Cfg) (a : Arr) (u : Usage) : Usage :=
  u.map fun p => (p.1, p.2 + (Assoc.get (estimate c a) p.1).getD 0)

/-- `_is_array_under_memory_budget`, worker_memory_utils.py:135-142. -/
def underBudget (budget : Int) (u : Usage) : Bool := u.all fun p => !decide ((p.2 : Int) ≥ budget)

/-- `_no_worker_memory_usage`, worker_memory_utils.py:185-186. -/
def noUsage (c : Cfg) : Usage := (c.devices.map c.worker).eraseDups.map fun w => (w, 0)

/-- The loop, worker_memory_utils.py:195-236, from a current batch and its usage. -/
def loop {β : Type} (c : Cfg) (budget : Int) (cur : List (Arr × β)) (u : Usage) :
    List (Arr × β) → List (List (Arr × β))
  | [] => [cur]
  | p :: rest =>
    let u' := increment c p.1 u
    if underBudget budget u' then loop c budget (cur ++ [p]) u' rest
    else cur :: loop c budget [p] (increment c p.1 (noUsage c)) rest

/-- `next_memory_budgeted_batch`, worker_memory_utils.py:152-236: all the batches it yields; `none`:
`ValueError` (unpacking an empty `zip`). -/
def batches {β : Type} (c : Cfg) (budget : Int) : List (Arr × β) → Option (List (List (Arr × β)))
  | [] => none
  | p :: rest => some (loop c budget [p] (estimate c p.1) rest)

end Verif.Memory.Batches
