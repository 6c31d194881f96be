import Verif.Assoc

/-!
# A mesh that is consistent across restarts

Models `experimental/emergency/multihost.py` (`_int_list_flip_index_and_value`,
`_get_runtime_id_across_restarts`, `consistent_restore_mesh`) and the part of
`experimental/emergency/checkpoint_manager.py` that decides which process reads which part of a local
checkpoint (`_restore_from_local`), under `checkpoint/orbax/checkpoint`.

A piece of hardware is a host (its distributed id) and a slot on it.  `ids[i][j]` is the device id of
slot `j` of host `i` in one incarnation of the job (`distributed_to_device_ids`).  A mesh is given by
its replicas, each a list of device ids; all operations here act on the devices one by one, so the
flattening and reshaping of the array are left out.
-/
namespace Verif.Emergency.Mesh
open Verif.Assoc

/-- All the values, or nothing if one is missing (an exception). -/
def allSome {α : Type} : List (Option α) → Option (List α)
  | [] => some []
  | none :: _ => none
  | some a :: l => (allSome l).map (a :: ·)

/-- Allocate `n` times `None`, write, and assert that no `None` is left: `multihost.py:47-51`, `:74-79`.
A position out of range raises. -/
def scatter (n : Nat) (writes : List (Nat × Nat)) : Option (List Nat) :=
  if writes.all fun w => decide (w.1 < n) then
    allSome (writes.foldl (fun acc w => acc.set w.1 (some w.2)) (List.replicate n none))
  else none

/-- `_int_list_flip_index_and_value`, `multihost.py:35-51`. -/
def flip (l : List Nat) : Option (List Nat) := scatter l.length l.zipIdx

/-- `_get_runtime_id_across_restarts`, `multihost.py:54-81`, for `n` processes. -/
def runtimeAcrossRestarts (n : Nat) (previous current : List Nat) : Option (List Nat) :=
  match flip current, flip previous with
  | some c, some p =>
    if p.length < n ∨ c.length < n then none else scatter n ((p.take n).zip (c.take n))
  | _, _ => none

/-- The inner loop `multihost.py:149-152`: an index out of range raises. -/
def rowPairs : List Nat → List Nat → Option (List (Nat × Nat))
  | [], _ => some []
  | _ :: _, [] => none
  | p :: ps, c :: cs => (rowPairs ps cs).map ((p, c) :: ·)

/-- The outer loop `multihost.py:148`. -/
def allPairs : List (List Nat) → List (List Nat) → Option (List (Nat × Nat))
  | [], _ => some []
  | _ :: _, [] => none
  | p :: ps, c :: cs =>
    match rowPairs p c, allPairs ps cs with
    | some a, some b => some (a ++ b)
    | _, _ => none

/-- `device_id_across_restarts`, `multihost.py:147-152`. -/
def deviceMap (previous current : List (List Nat)) : Option (List (Nat × Nat)) :=
  (allPairs previous current).map fun l => l.foldl (fun m e => put m e.1 e.2) []

/-- `consistent_restore_mesh` with distributed ids, `multihost.py:145-168`.  `devices` are the ids of
`jax.devices()`. -/
def restoreRow (m : List (Nat × Nat)) (devices : List Nat) (row : List Nat) : Option (List Nat) :=
  allSome (row.map fun id => (Assoc.get m id).bind fun c => if c ∈ devices then some c else none)

def restoreMesh (previous current : List (List Nat)) (devices : List Nat)
    (mesh : List (List Nat)) : Option (List (List Nat)) :=
  (deviceMap previous current).bind fun m => allSome (mesh.map (restoreRow m devices))

/-- `consistent_restore_mesh` without distributed ids, `multihost.py:169-178`. -/
def restoreMeshPlain (devices : List Nat) (mesh : List (List Nat)) : Option (List (List Nat)) :=
  allSome (mesh.map fun row => allSome (row.map fun id => if id ∈ devices then some id else none))

/-- The host of a device. -/
def hostOf (ids : List (List Nat)) (id : Nat) : Option Nat := ids.findIdx? fun row => row.contains id

/-- Does the local directory of host `h` contain the part of the state at position `k`?  Every process
saves the parts of its own devices. -/
def savedAt (previous : List (List Nat)) (prevMesh : List (List Nat)) (h k : Nat) : Bool :=
  prevMesh.any fun row => decide ((row[k]?).bind (hostOf previous) = some h)

/-- `_restore_from_local`, `checkpoint_manager.py:915-1025`: is position `k` of the restoring slice `r`
read?  The processes of slice `r` of the user's mesh read (`is_restoring_slice`, `:897`), each for its
devices in slice `r` of the restore mesh (`:978-984`, with `self._slice_id`), from its local
directory. -/
def isRead (previous current prevMesh userMesh restMesh : List (List Nat)) (r k : Nat) : Bool :=
  match ((restMesh[r]?).bind fun row => row[k]?).bind (hostOf current) with
  | none => false
  | some h => ((userMesh[r]?.getD []).any fun id => decide (hostOf current id = some h)) &&
      savedAt previous prevMesh h k

end Verif.Emergency.Mesh
